import Verif.Lemmas.AtpsTarget
import Verif.Spec.Indices
import Verif.Props.SmoothingRuns
import Verif.Props.Grad
import Verif.Lemmas.SvMass

/-!
# C29: where Particle-aGRAD+ does not leave its target invariant
-/

open scoped ENNReal
open MeasureTheory ProbabilityTheory Finset

namespace Verif.Props
open Verif Verif.Spec Verif.Model Matrix

variable {N n d : ℕ} {MP RP : Type} {svd : Mat d d → SvdOut d} {M : GaussModel MP RP (n + 2) d}
  {rt_grad0 : Vec d → Vec d → RP → Vec d} {ells deltas : Fin (n + 3) → ℝ} {mT : Vec d} {h : Vec d → ℝ}
  {resampling : Resampling Ex N}

/-- C29: `atp_csmc_s` does not leave its target invariant.  For all lengths, numbers of particles, step sizes, PRNG keys,
resampling schemes and both backward passes: if under the model the last state is independent of the others and has a
bounded potential that is not constant (with zero gradient, or used with `delta = 0` at the last time), then the kernel
changes the law of the last state of a trajectory drawn from the target. -/
theorem C29_not_invariant (hP : ProposalOK svd M ells) (hM : GaussMeas M) (hL : LastAlone M rt_grad0 (lastA deltas) mT h)
    (hd : lastA M.Qs = diagonal (svd (lastA M.Qs)).Gamma) (hh : Measurable h) {B : ℝ} (hB : ∀ x, |h x| ≤ B)
    (hne : ¬ ∃ c, ∀ᵐ x, h x = c)
    (hfin : ∫⁻ x, ENNReal.ofReal (Real.exp (gaussPath M x)) ∂(Measure.pi fun _ => volume) ≠ ⊤)
    (hR : ∀ key, CondResampling (fun w i j => resampling key w i j true)) (key : Key) (backward : Bool) :
    ¬ LeavesInvariant volume (gaussPath M) (fun x b => atps_kernel svd M rt_grad0 key x b ells deltas resampling
        (fun key w k => barker_move key w k) backward) ∧
    ¬ InvariantFromAnyIndex volume (gaussPath M) (fun x b => atps_kernel svd M rt_grad0 key x b ells deltas resampling
        (fun key w k => barker_move key w k) backward) := by
  have hR' : ∀ key w i j a, IsProb w → (resampling key w i j true : Ex _) (fun _ => a) = a := fun key w i j a hw => by
    have := (hR key).ker.const_fun (w, i, j) a
    simp only [(hR key).mass w hw, mul_one] at this
    exact this
  obtain ⟨J, hJ, hJe⟩ := atps_step_gt (resampling := resampling) hP hM hL hd hh hB hne hR' key backward
  obtain ⟨hz0, hzt⟩ := pathInit_mass hM hL hh hfin
  have hgt : ∫⁻ x, ENNReal.ofReal (Real.exp (pathInit M x)) ∂(Measure.pi fun _ => volume) <
      (∫⁻ x, ENNReal.ofReal (Real.exp (pathInit M x)) ∂(Measure.pi fun _ => volume)) * J := by
    calc _ = (∫⁻ x, ENNReal.ofReal (Real.exp (pathInit M x)) ∂(Measure.pi fun _ => volume)) * 1 := (mul_one _).symm
      _ < _ := ENNReal.mul_lt_mul_right hz0 hzt hJ
  constructor
  · intro hinv
    have hf : Measurable fun q : (Fin (n + 3) → Vec d) × (Fin (n + 3) → Fin (N + 1)) => ENNReal.ofReal (Real.exp (-h (lastA q.1))) :=
      (Real.measurable_exp.comp (hh.comp ((measurable_pi_apply (Fin.last (n + 2))).comp measurable_fst)).neg).ennreal_ofReal
    have hI := hinv _ hf
    rw [sum_congr rfl fun b _ => hJe b, sum_congr rfl fun b _ => atps_target_eq hP hM hL hh] at hI
    refine absurd hI (ne_of_gt (ENNReal.sum_lt_sum_of_nonempty ⟨fun _ => 0, mem_univ _⟩ fun b _ => hgt))
  · intro hinv
    have hf : Measurable fun x : Fin (n + 3) → Vec d => ENNReal.ofReal (Real.exp (-h (lastA x))) :=
      (Real.measurable_exp.comp (hh.comp (measurable_pi_apply (Fin.last (n + 2)))).neg).ennreal_ofReal
    have hI := hinv (fun _ => 0) _ hf
    rw [hJe, atps_target_eq hP hM hL hh] at hI
    exact absurd hI (ne_of_gt hgt)

/-! ### Concrete models -/

/-- A random walk of two steps in dimension one followed by a fresh state with log-potential `r`, of gradient `g`. -/
noncomputable def exLast (r : Vec 1 → ℝ) (g : Vec 1 → Vec 1) : GaussModel ℝ ℝ 2 1 where
  mu0 := 0
  P0 := 1
  r0 := fun _ => 0
  r0_grad := fun _ => 0
  mu := fun x a => a • x
  mu_params := ![1, 0]
  Qs := fun _ => 1
  rt := fun _ x a => a * r x
  rt_grad := fun _ x a => a • g x
  rt_params := ![0, 1]

theorem exLast_cov (r : Vec 1 → ℝ) (g : Vec 1 → Vec 1) (t : Fin 3) : insert0 (exLast r g).P0 (exLast r g).Qs t = (1 : ℝ) • 1 := by
  rw [one_smul]
  refine Fin.cases rfl (fun t => rfl) t

theorem exLast_ok (r : Vec 1 → ℝ) (g : Vec 1 → Vec 1) : ProposalOK (fun _ => ⟨1, fun _ => 1, 1⟩) (exLast r g) (fun _ => 2) := by
  have hQ : ((1 : ℝ) • 1 : Mat 1 1).PosDef := posDef_smul_one one_pos
  constructor
  · intro t; rw [exLast_cov]; exact hQ
  · intro t; rw [exLast_cov]
    have := isSvd_diag (d := 1) (Γ := fun _ => 1) (fun _ => zero_le_one)
    simpa using this
  · intro t; norm_num
  · intro t; rw [exLast_cov]
    exact floor_inactive hQ (by norm_num) one_pos (atLeast_smul_one 1) (by norm_num)

theorem exLast_meas {r : Vec 1 → ℝ} {g : Vec 1 → Vec 1} (hr : Measurable r) (hg : Measurable g) : GaussMeas (exLast r g) where
  r0 := measurable_const
  r0_grad := measurable_const
  mu t := measurable_const_smul _
  rt t := (hr.comp measurable_snd).const_mul _
  rt_grad t := by
    show Measurable fun p : Vec 1 × Vec 1 => _ • g p.2
    fun_prop

theorem exLast_fin {r : Vec 1 → ℝ} {g : Vec 1 → Vec 1} (hr : ∀ x, r x ≤ 1) :
    ∫⁻ x, ENNReal.ofReal (Real.exp (gaussPath (exLast r g) x)) ∂(Measure.pi fun _ => volume) ≠ ⊤ := by
  have h := gaussPath_exp_moment (n := 2) (0 : Vec 1) (P0 := 1) (Fs := ![1, 0]) (Qs := fun _ => 1) PosDef.one (fun _ => PosDef.one)
    (fun _ => 0) fun _ => 0
  have hle : ∀ x, ENNReal.ofReal (Real.exp (gaussPath (exLast r g) x)) ≤ ENNReal.ofReal (Real.exp 1) *
      ENNReal.ofReal (Real.exp (gaussPathLog 0 1 ![1, 0] (fun _ => 1) (fun _ => 0) x + ∑ t, (0 : Vec 1) ⬝ᵥ x t)) := fun x => by
    rw [← ENNReal.ofReal_mul (Real.exp_pos _).le, ← Real.exp_add]
    refine ENNReal.ofReal_le_ofReal (Real.exp_le_exp.mpr ?_)
    have h1 := hr (x 2)
    simp only [gaussPath, gaussPathLog, pathLogDensity, exLast, Fin.sum_univ_two, zero_dotProduct, sum_const_zero, add_zero]
    simp
    linarith
  refine ne_top_of_le_ne_top (ENNReal.mul_ne_top (a := ENNReal.ofReal (Real.exp 1)) ENNReal.ofReal_ne_top h) ((lintegral_mono hle).trans ?_)
  rw [lintegral_const_mul' _ _ ENNReal.ofReal_ne_top]

theorem exLast_alone {r : Vec 1 → ℝ} {g : Vec 1 → Vec 1} {delta : ℝ} (hg : ∀ x, delta • g x = 0) :
    LastAlone (n := 1) (exLast r g) (fun _ _ _ => 0) delta 0 r where
  mu y := by simp [exLast, lastA]
  rt y x := by simp [exLast, lastA]
  grad0 _ _ := rfl
  grad y x := by
    have := hg x
    simpa [exLast, lastA] using this

/-- C29, a step potential (whose gradient is zero): with any number of particles and killing resampling. -/
example (backward : Bool) := C29_not_invariant (N := N) (exLast_ok (fun x => if 0 < x 0 then 1 else 0) fun _ => 0)
  (exLast_meas (Measurable.ite (measurableSet_lt measurable_const (measurable_pi_apply 0)) measurable_const measurable_const)
    measurable_const)
  (deltas := fun _ => 2) (exLast_alone fun _ => smul_zero _) (by simp [exLast, lastA])
  (Measurable.ite (measurableSet_lt measurable_const (measurable_pi_apply 0)) measurable_const measurable_const) (B := 1)
  (fun x => by split_ifs <;> simp) (by
    rintro ⟨c, hc⟩
    have ho : ∀ U : Set (Vec 1), IsOpen U → U.Nonempty → ∃ x ∈ U, (if 0 < x 0 then (1 : ℝ) else 0) = c := fun U hU hne => by
      have hpos := (hU.measure_pos volume hne).ne'
      by_contra hn
      push Not at hn
      exact hpos (measure_mono_null (fun x hx => hn x hx) hc)
    obtain ⟨x, hx, hxc⟩ := ho {x | 0 < x 0} (isOpen_lt continuous_const (continuous_apply 0)) ⟨fun _ => 1, by simp⟩
    obtain ⟨y, hy, hyc⟩ := ho {x | x 0 < 0} (isOpen_lt (continuous_apply 0) continuous_const) ⟨fun _ => -1, by simp⟩
    simp only [Set.mem_ofPred_eq] at hx hy
    rw [if_pos hx] at hxc
    rw [if_neg (not_lt.mpr hy.le), ← hxc] at hyc
    norm_num at hyc)
  (exLast_fin fun x => by split_ifs <;> norm_num) (fun key => killing_condResampling key) [] backward

/-- C29, a smooth potential with its gradient, with `delta = 0` at the last time. -/
example (backward : Bool) := C29_not_invariant (N := N) (exLast_ok (fun x => Real.cos (x 0)) fun x _ => -Real.sin (x 0))
  (exLast_meas (by fun_prop) (by fun_prop))
  (deltas := ![2, 2, 0]) (exLast_alone fun _ => by simp [lastA]) (by simp [exLast, lastA])
  (by fun_prop) (B := 1) (fun x => Real.abs_cos_le_one _) (by
    rintro ⟨c, hc⟩
    have h := (Continuous.ae_eq_iff_eq (volume : Measure (Vec 1)) (f := fun x => Real.cos (x 0)) (g := fun _ => c)
      (by fun_prop) continuous_const).mp hc
    have h0 := congrFun h (fun _ => 0)
    have h1 := congrFun h (fun _ => Real.pi)
    simp only [Real.cos_zero, Real.cos_pi] at h0 h1
    linarith)
  (exLast_fin fun x => Real.cos_le_one _) (fun key => killing_condResampling key) [] backward

end Verif.Props
