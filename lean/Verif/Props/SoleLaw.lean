import Verif.Lemmas.DoeblinExists
import Verif.Props.Settles

/-!
# C84: kernels with bounded weights have exactly one invariant law, also with the rounding of `force_move`, and it is near the target
-/

open scoped ENNReal
open MeasureTheory Finset

namespace Verif.Props
open Verif Verif.Model Verif.Spec Matrix

variable {N n d : ℕ} {resampling last_step : String} {R : Resampling Ex N} {mv : AncestorMove Ex N}

/-- The rate is not zero. -/
theorem csmcRate_ne {B : Fin (n + 1) → ℝ} {Z : ℝ≥0∞} (hZ : Z ≠ 0) {backward : Bool}
    (h : resampling = "multinomial" ∧ 1 ≤ N ∨ resampling = "killing" ∧ 2 ≤ N ∧ backward = false) :
    csmcRate N n (awayOf N last_step) (spreadOf N resampling backward) B Z ≠ 0 := fun h0 => by
  have := C68_rate (last_step := last_step) (B := B) hZ h
  rw [h0, tsub_zero] at this
  exact lt_irrefl _ this

/-- **C84** (`csmc.kernel`): if the weights are bounded, with at least one particle besides the reference (two for `killing`), unless
`killing` is used with backward sampling: one step has exactly one invariant law of trajectories, within `ε / rate` of the target in
total variation, with `ε = 0` for `barker` and the rounding of `force_move` otherwise. -/
theorem C84_csmc {X P G : Type} [MeasurableSpace X] (lam : Measure X) [SigmaFinite lam] {M : FK Ex X P G N} (hM : ProperFK lam M)
    {Mparams : Fin n → P} {Gparams : Fin n → G} {B : Fin (n + 1) → ℝ} (hB : BoundedFK lam M Mparams Gparams B)
    (hZ : ∫⁻ x, ENNReal.ofReal (Real.exp (pathLogDensity M.Gamma0 (fun t y x => M.Gammat y x (Gparams t)) x)) ∂(Measure.pi fun _ => lam) ≠ 0 ∧
      ∫⁻ x, ENNReal.ofReal (Real.exp (pathLogDensity M.Gamma0 (fun t y x => M.Gammat y x (Gparams t)) x)) ∂(Measure.pi fun _ => lam) ≠ ∞)
    (hR : sel_resampling resampling = .ok R) (hm : sel_last_step last_step = .ok mv) {backward : Bool}
    (h : resampling = "multinomial" ∧ 1 ≤ N ∨ resampling = "killing" ∧ 2 ≤ N ∧ backward = false) (key : Key) :
    let logpi := pathLogDensity M.Gamma0 (fun t y x => M.Gammat y x (Gparams t))
    OnlyInvariantNear ((if last_step = "barker" then 0 else forceErr) /
        csmcRate N n (awayOf N last_step) (spreadOf N resampling backward) B
          (∫⁻ x, ENNReal.ofReal (Real.exp (logpi x)) ∂(Measure.pi fun _ => lam)))
      (lawOf (Measure.pi fun _ => lam) logpi) (fun x b => do
        let r ← csmc_kernel key x b M Mparams Gparams R mv backward true
        pure (r.xs, r.Bs)) := by
  intro logpi
  have hS := sel_ok hR hm
  have hmr := csmc_markov_relabels (N := N) lam key hM Mparams Gparams hS.cond hS.ker backward
  have hnear : LeavesNearInvariant (if last_step = "barker" then 0 else forceErr) lam logpi (fun x b => do
      let r ← csmc_kernel key x b M Mparams Gparams R mv backward true
      pure (r.xs, r.Bs)) := by
    rcases hS.near with ⟨h, e⟩ | ⟨h, e⟩
    · rw [e]
      exact (C15_C16_csmc_invariant lam key M hM Mparams Gparams R hS.cond mv h backward).near_zero
    · rw [e]
      subst h
      exact C61_csmc hS.cond key backward lam hM Mparams Gparams
  have hC0 : csmcRate N n (awayOf N last_step) (spreadOf N resampling backward) B 1 ≠ 0 := csmcRate_ne one_ne_zero h
  rw [csmcRate, mul_one] at hC0
  exact indexed_sole (measurable_pathLogDensity hM.Gamma0_meas fun _ => hM.Gammat_meas _) hZ (hmr.1 hS.mass) (hmr.2 hS.rotR hS.rot) hnear
    hC0 fun x b f hf => csmc_ge key hM hB hS.cond (fun key => sel_spreads hR backward key) hS.ker (fun key => sel_movesAway hm key) x b hf

/-- **C84** (`experiments/lgssm_scaling`, `CSMC`): for all observations. -/
theorem C84_lgssm {sigma : ℝ} (hs : 0 < sigma) (ys : Traj (n + 1) d) (hR : sel_resampling resampling = .ok R)
    (hm : sel_last_step last_step = .ok mv) {backward : Bool}
    (h : resampling = "multinomial" ∧ 1 ≤ N ∨ resampling = "killing" ∧ 2 ≤ N ∧ backward = false) (key : Key) :
    OnlyInvariantNear ((if last_step = "barker" then 0 else forceErr) /
        csmcRate N n (awayOf N last_step) (spreadOf N resampling backward) (fun _ => lgMaxLog d)
          (∫⁻ x, ENNReal.ofReal (Real.exp (lgTarget sigma ys x)) ∂trajVol (n + 1) d))
      (lawOf (trajVol (n + 1) d) (lgTarget sigma ys)) fun x b => outOf (lg_csmc_kernel ys sigma R mv backward key x b) := by
  have e := lgTarget_gamma ys hs
  have hZ := lgTarget_mass hs ys
  rw [← e] at hZ ⊢
  exact C84_csmc volume (C19_lgssm_proper ys hs) (lgFK_bounded ys hs) hZ hR hm h key

/-- `lgssm`, multinomial resampling, backward sampling, forced moves. -/
example (ys : Traj 20 3) := C84_lgssm (N := 25) (n := 19) (sigma := 2) (by norm_num) ys (resampling := "multinomial") (last_step := "forced")
  rfl rfl (backward := true) (Or.inl ⟨rfl, by norm_num⟩) [5]

/-- **C84** (`experiments/stochastic_volatility`, `CSMC`): if no observation is zero. -/
theorem C84_sv {tau : ℤ} (ht : 0 < tau) (hR : sel_resampling resampling = .ok R) (hm : sel_last_step last_step = .ok mv) {backward : Bool}
    (h : resampling = "multinomial" ∧ 1 ≤ N ∨ resampling = "killing" ∧ 2 ≤ N ∧ backward = false)
    {ys : Traj (n + 1) d} (hy : ∀ t j, ys t j ≠ 0) (key : Key) :
    OnlyInvariantNear (svErr .CSMC last_step / svRate N resampling last_step backward tau ys) (svPosterior .CSMC tau ys)
      fun x b => outOf (sv_csmc_kernel ys (svDynArgs tau d) R mv backward true key x b) := by
  have hS := sel_ok hR hm
  have hP := svDynArgs_P0 ht d
  have hQ := svDynArgs_Q ht d
  obtain ⟨hl, hZ⟩ := svSampled_mass .CSMC ht ys
  have hok := sv_csmc_ok ys hS hP hQ backward
  have hE : svErr .CSMC last_step = if last_step = "barker" then 0 else forceErr := by simp [svErr]
  have e3 : csmcRate N n (awayOf N last_step) (spreadOf N resampling backward) (fun t => svMaxLog (ys t)) 1 *
      ∫⁻ x, ENNReal.ofReal (Real.exp (svSampled .CSMC tau ys x)) ∂(Measure.pi fun _ => volume) =
      svRate N resampling last_step backward tau ys := by
    rw [svRate, csmcRate, csmcRate, mul_one]
  rw [hE, ← e3]
  exact indexed_sole hl hZ (hok.markov key) (hok.relabels key) (hok.near key) (csmcRate_ne one_ne_zero h)
    fun x b f hf => sv_csmc_ge hP hQ hy hR hm backward key x b hf

/-- The defaults of the script with `forced`: 32 particles, 50 observations. -/
example := C84_sv (n := 49) (d := 30) (N := 31) (tau := 10) (resampling := "killing") (last_step := "forced") (backward := false)
  (by norm_num) rfl rfl (Or.inr ⟨rfl, by norm_num, rfl⟩) (ys := fun _ _ => 1) (fun _ _ => one_ne_zero) [5]

section imh
variable {D : Dyn n d} (hP : D.P0.PosDef) (hQ : ∀ t, (D.Qs t).PosDef) {log_pdf : Traj (n + 1) d → ℝ} (hl : Measurable log_pdf)
include hP hQ hl

/-- **C84** (the kernel of `imh.get_kernel`): if `log_pdf ≤ B` and there is at least one proposal, one step has exactly one invariant
law of states, and its trajectory is within `3e-12 / rate` of the target in total variation. -/
theorem C84_imh (hN : N ≠ 0) {B : ℝ} (hB : ∀ x, log_pdf x ≤ B) (key : Key) :
    SoleInvariantNear (forceErr / imhRate N B (∫⁻ x, ENNReal.ofReal (Real.exp (mtTarget D log_pdf x)) ∂trajVol (n + 1) d))
      (fun s : Traj (n + 1) d × ℝ => s.1) (lawOf (trajVol (n + 1) d) (mtTarget D log_pdf))
      (fun s => do
        let r ← imh_kernel key s D log_pdf N
        pure r.1) := by
  obtain ⟨hZ, ⟨ν, hν1, hν⟩, hδ⟩ := imh_doeblin (N := N) hP hQ hl hB
  have hPr := lawOf_isProb hZ (measurable_mtTarget D hl)
  have hν0 : ν ≠ 0 := fun h => C83_imh_rate hN B hZ.1 (by rw [← hν1, h]; rfl)
  have h := soleInvariant_of (imhStep_ker (N := N) hP hQ hl key) (imhStep_mass hP hQ key) hν0 (hν key) (hδ key)
  rw [hν1] at h
  exact cached_sole hl (imh_step_ker hP hQ hl key N) (C82_imh hP hQ hl key hN).2.1 (fun x f => imh_cached key D log_pdf x f) h

end imh

/-- **C84** (`experiments/lgssm_scaling`, `IMH`): for all observations. -/
theorem C84_lgssm_imh {sigma : ℝ} (hs : 0 < sigma) (ys : Traj (n + 1) d) (hN : N ≠ 0) (key : Key) :
    SoleInvariantNear (forceErr /
        imhRate N ((n + 1) * lgMaxLog d) (∫⁻ x, ENNReal.ofReal (Real.exp (lgTarget sigma ys x)) ∂trajVol (n + 1) d))
      (fun s : Traj (n + 1) d × ℝ => s.1) (lawOf (trajVol (n + 1) d) (lgTarget sigma ys))
      (fun s => do
        let r ← lg_imh_kernel ys sigma N key s
        pure r.1) := by
  rw [← lg_mtTarget ys]
  refine C84_imh (posDef_smul_one (pow_pos hs 2)) (fun _ => posDef_smul_one (pow_pos hs 2)) (measurable_lg_log_likelihood ys) hN
    (fun x => ?_) key
  refine (sum_le_sum fun t _ => lg_log_potential_le (x t) (ys t)).trans (le_of_eq ?_)
  simp

example (ys : Traj 20 3) := C84_lgssm_imh (N := 25) (n := 19) (sigma := 2) (by norm_num) ys (by norm_num) [5]

end Verif.Props
