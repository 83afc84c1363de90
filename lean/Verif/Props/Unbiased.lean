import Verif.Lemmas.Unbiased
import Verif.Props.SvRuns

/-!
# C73: the variance used in the diagnostics is estimated without bias
-/

open scoped ENNReal
open MeasureTheory ProbabilityTheory

namespace Verif.Props
open Verif Verif.Model Verif.Spec

variable {L M : ℕ}

/-- **C73**: for at least two independent chains with the same law and samples with finite second moments, the expectation of
`approx_variance` is the variance of a sample taken at a random time; no stationarity is needed. -/
theorem C73_unbiased {Ω : Type} [MeasurableSpace Ω] {P : Measure Ω} [IsProbabilityMeasure P] {X : Fin (L + 1) → Ω → ℝ}
    (hX : ∀ k, MemLp (X k) 2 P) (hM : 2 ≤ M) :
    Integrable (fun c => approx_variance fun k i => X k (c i)) (Measure.pi fun _ : Fin M => P) ∧
    ∫ c, approx_variance (fun k i => X k (c i)) ∂Measure.pi (fun _ : Fin M => P) = Var[id; averagedLaw fun k => P.map (X k)] := by
  rw [variance_averagedLaw hX]
  exact unbiased hX hM

/-- **C73** for chains whose samples all have the same law. -/
theorem C73_stationary {Ω : Type} [MeasurableSpace Ω] {P : Measure Ω} [IsProbabilityMeasure P] {X : Fin (L + 1) → Ω → ℝ}
    (hX : ∀ k, MemLp (X k) 2 P) (hM : 2 ≤ M) {μ : Measure ℝ} (hμ : ∀ k, P.map (X k) = μ) :
    ∫ c, approx_variance (fun k i => X k (c i)) ∂Measure.pi (fun _ : Fin M => P) = Var[id; μ] := by
  rw [(C73_unbiased hX hM).2, funext hμ, averagedLaw_const]

/-- Within-chain variances alone are too small: their mean is the variance less that of the mean of a chain. -/
theorem C73_within {Ω : Type} [MeasurableSpace Ω] {P : Measure Ω} [IsProbabilityMeasure P] {X : Fin (L + 1) → Ω → ℝ}
    (hX : ∀ k, MemLp (X k) 2 P) :
    ∫ ω, tfp_auto_cov (fun k => X k ω) 0 ∂P = Var[id; averagedLaw fun k => P.map (X k)] - Var[fun ω => meanA fun k => X k ω; P] := by
  have eY : (fun ω => meanA fun k => X k ω) = fun ω => ((L + 1 : ℕ) : ℝ)⁻¹ * ∑ k, X k ω := funext fun ω => by
    simp only [meanA, div_eq_inv_mul]
  have eS : (fun ω => meanA fun k => X k ω ^ 2) = fun ω => ((L + 1 : ℕ) : ℝ)⁻¹ * ∑ k, X k ω ^ 2 := funext fun ω => by
    simp only [meanA, div_eq_inv_mul]
  have hY : MemLp (fun ω => meanA fun k => X k ω) 2 P := eY ▸ (memLp_finsetSum _ fun k _ => hX k).const_mul _
  have hS : Integrable (fun ω => meanA fun k => X k ω ^ 2) P := eS ▸ (integrable_finsetSum _ fun k _ => (hX k).integrable_sq).const_mul _
  have iY : ∫ ω, (meanA fun k => X k ω) ∂P = meanA fun k => ∫ ω, X k ω ∂P := by
    rw [eY, integral_const_mul, integral_finsetSum _ fun k _ => (hX k).integrable (by norm_num), meanA, div_eq_inv_mul]
  have iS : ∫ ω, (meanA fun k => X k ω ^ 2) ∂P = meanA fun k => ∫ ω, X k ω ^ 2 ∂P := by
    rw [eS, integral_const_mul, integral_finsetSum _ fun k _ => (hX k).integrable_sq, meanA, div_eq_inv_mul]
  simp only [auto_cov_zero']
  rw [integral_sub hS hY.integrable_sq, variance_averagedLaw hX, variance_eq_sub hY, iS, ← iY]
  simp only [Pi.pow_apply]
  ring

section sv
variable {N n d : ℕ} {svd : Mat d d → SvdOut d} {tau : ℤ} {k : SvType} {style : String} {target_stat : TargetStat} {backward : Bool}
  {make : Traj (n + 1) d → SvKernel Ex (n + 1) d} {resampling last_step : String} {R : Resampling Ex N} {mv : AncestorMove Ex N}

theorem strideLen_one (n : ℕ) : strideLen n 1 = n := by simp [strideLen]

/-- Bounded functions have finite second moments. -/
theorem sv_bounded_moment (ht : 0 < tau) (hR : sel_resampling resampling = .ok R) (hm : sel_last_step last_step = .ok mv)
    (hk : k.kernel_maker svd (svDynArgs tau d) style target_stat R mv backward = .ok make) (hstyle : style ≠ "smoothing")
    (ys x : Traj (n + 1) d) {delta : StepSize (n + 1)} (hd : PosSteps delta) (burnin L : ℕ) (burnin_key sample_key : Key)
    {h : Traj (n + 1) d → ℝ} (hh : Measurable h) {C : ℝ} (hC : ∀ x, |h x| ≤ C) (j) :
    sv_chains burnin_key sample_key (make ys) ((make ys).init x) delta burnin (L + 1) 1
      (fun c => ENNReal.ofReal (h ((c 0).1 j) ^ 2)) ≠ ∞ := by
  obtain ⟨ν, hν, hc⟩ := C66_chains ht hR hm hk hstyle ys x hd burnin (L + 1)
  have hF : Measurable fun c : Fin 1 → Run (strideLen (L + 1) 1) (n + 1) d => ENNReal.ofReal (h ((c 0).1 j) ^ 2) := by fun_prop
  have e := ((hc 1 (splitKey [] 1) _ hF).2 burnin_key sample_key).trans (hc 1 (splitKey [] 1) _ hF).1
  intro h0
  have h1 : ∫⁻ c : Fin 1 → Run (strideLen (L + 1) 1) (n + 1) d, ENNReal.ofReal (h ((c 0).1 j) ^ 2) ∂Measure.pi (fun _ => ν) ≤ ENNReal.ofReal (C ^ 2) :=
    (lintegral_mono fun c => ENNReal.ofReal_le_ofReal (sq_le_sq' (by linarith [(abs_le.mp (hC ((c 0).1 j))).1]) (abs_le.mp (hC _)).2)).trans
      (by rw [lintegral_const, measure_univ, mul_one])
  rw [← e] at h1
  exact absurd (h0.symm.le.trans h1) (by simp)

/-- **C73** for the chains of the stochastic volatility experiment, given the trajectory at which the adaptation ended: `h` is any
function of a trajectory (a coordinate, the energy) with finite second moments, and `μ j` the law of its value for sample `j`. -/
theorem C73_sv (ht : 0 < tau) (hR : sel_resampling resampling = .ok R) (hm : sel_last_step last_step = .ok mv)
    (hk : k.kernel_maker svd (svDynArgs tau d) style target_stat R mv backward = .ok make) (hstyle : style ≠ "smoothing")
    (ys x : Traj (n + 1) d) {delta : StepSize (n + 1)} (hd : PosSteps delta) (burnin L : ℕ) (burnin_key sample_key : Key)
    {h : Traj (n + 1) d → ℝ} (hh : Measurable h)
    (h2 : ∀ j, sv_chains burnin_key sample_key (make ys) ((make ys).init x) delta burnin (L + 1) 1
      (fun c => ENNReal.ofReal (h ((c 0).1 j) ^ 2)) ≠ ∞) (hM : 2 ≤ M) :
    ∃ μ : Fin (L + 1) → Measure ℝ,
      (∀ j f, Measurable f → sv_chains burnin_key sample_key (make ys) ((make ys).init x) delta burnin (L + 1) 1
        (fun c => f (h ((c 0).1 (j.cast (strideLen_one _).symm)))) = ∫⁻ v, f v ∂μ j) ∧
      sv_chains burnin_key sample_key (make ys) ((make ys).init x) delta burnin (L + 1) M
        (fun c => ENNReal.ofReal (approx_variance fun j i => h ((c i).1 (j.cast (strideLen_one _).symm)))) =
        ENNReal.ofReal (Var[id; averagedLaw μ]) := by
  obtain ⟨ν, hν, hc⟩ := C66_chains ht hR hm hk hstyle ys x hd burnin (L + 1)
  have hrun : ∀ (M : ℕ) (F : (Fin M → Run (strideLen (L + 1) 1) (n + 1) d) → ℝ≥0∞), Measurable F →
      sv_chains burnin_key sample_key (make ys) ((make ys).init x) delta burnin (L + 1) M (fun c => F fun i => runOf (make ys) (c i)) =
        ∫⁻ c, F c ∂Measure.pi (fun _ => ν) := fun M F hF =>
    ((hc M (splitKey [] M) F hF).2 burnin_key sample_key).trans (hc M (splitKey [] M) F hF).1
  let X : Fin (L + 1) → Run (strideLen (L + 1) 1) (n + 1) d → ℝ := fun j r => h (r.1 (j.cast (strideLen_one _).symm))
  have hXm : ∀ j, Measurable (X j) := fun j => hh.comp (by fun_prop)
  have h1 : ∀ j f, Measurable f → sv_chains burnin_key sample_key (make ys) ((make ys).init x) delta burnin (L + 1) 1
      (fun c => f (h ((c 0).1 (j.cast (strideLen_one _).symm)))) = ∫⁻ r, f (X j r) ∂ν := fun j f hf => by
    have := hrun 1 (fun c => f (X j (c 0))) (by fun_prop)
    refine this.trans ?_
    exact (measurePreserving_eval (fun _ : Fin 1 => ν) 0).lintegral_comp (f := fun r => f (X j r)) (by fun_prop)
  have hX2 : ∀ j, MemLp (X j) 2 ν := fun j => by
    rw [memLp_two_iff_integrable_sq (hXm j).aestronglyMeasurable]
    refine ⟨(by fun_prop), ?_⟩
    rw [hasFiniteIntegral_iff_ofReal (Filter.Eventually.of_forall fun _ => sq_nonneg _)]
    have := h2 (j.cast (strideLen_one _).symm)
    rw [h1 j (fun v => ENNReal.ofReal (v ^ 2)) (by fun_prop)] at this
    exact lt_top_iff_ne_top.mpr this
  refine ⟨fun j => ν.map (X j), fun j f hf => (h1 j f hf).trans (lintegral_map hf (hXm j)).symm, ?_⟩
  obtain ⟨hi, he⟩ := C73_unbiased hX2 hM
  have hF : Measurable fun c : Fin M → Run (strideLen (L + 1) 1) (n + 1) d => ENNReal.ofReal (approx_variance fun j i => X j (c i)) := by
    simp only [approx_variance, auto_cov_zero', tfp_variance, meanA]
    fun_prop
  refine (hrun M (fun c => ENNReal.ofReal (approx_variance fun j i => X j (c i))) hF).trans ?_
  rw [← ofReal_integral_eq_lintegral_ofReal hi (Filter.Eventually.of_forall fun c => approx_nonneg (by omega) _), he]

end sv

/-! ## Examples -/

/-- Four chains of two samples: a fair coin that is kept. The variance is 1/4. -/
example : ∫ c, approx_variance (fun (_ : Fin 2) i => if c i then (1 : ℝ) else 0) ∂Measure.pi (fun _ : Fin 4 => uniformOn (Set.univ : Set Bool)) =
    Var[id; averagedLaw fun _ : Fin 2 => (uniformOn (Set.univ : Set Bool)).map fun b => if b then (1 : ℝ) else 0] :=
  (C73_unbiased (P := uniformOn (Set.univ : Set Bool)) (X := fun (_ : Fin 2) b => if b then (1 : ℝ) else 0)
    (fun _ => MemLp.of_bound (by fun_prop) 1 (Filter.Eventually.of_forall fun b => by cases b <;> simp)) (by norm_num)).2

/-- The chance that the first volatility is positive, four chains of 450 samples of the twisted kernel. -/
example (ys x : Traj 10 2) : ∃ make, SvType.kernel_maker (m := Ex) (N := 31) (diagSvd 2) .TP_CSMC (svDynArgs 10 2) "twisted"
    (.level 0.5) (fun key w i j c => killing key w i j c) (fun key w k => barker_move key w k) true = .ok make ∧
    ∃ μ : Fin 450 → Measure ℝ, sv_chains [3] [4] (make ys) ((make ys).init x) (.perStep fun _ => 0.01) 50 450 4
      (fun c => ENNReal.ofReal (approx_variance fun (j : Fin 450) i =>
        if 0 < (c i).1 (j.cast (strideLen_one _).symm) 0 0 then (1 : ℝ) else 0)) = ENNReal.ofReal (Var[id; averagedLaw μ]) := by
  have hR : sel_resampling (N := 31) (m := Ex) "killing" = .ok fun key w i j c => killing key w i j c := rfl
  have hm : sel_last_step (N := 31) (m := Ex) "barker" = .ok fun key w k => barker_move key w k := rfl
  have hd : PosSteps (.perStep fun _ : Fin 10 => (0.01 : ℝ)) := fun _ => by norm_num [StepSize.at]
  refine ⟨_, rfl, ?_⟩
  have hh : Measurable fun x : Traj 10 2 => if 0 < x 0 0 then (1 : ℝ) else 0 :=
    Measurable.ite (measurableSet_lt measurable_const (by fun_prop)) measurable_const measurable_const
  have h2 := sv_bounded_moment (n := 9) (k := .TP_CSMC) (tau := 10) (svd := (diagSvd 2)) (style := "twisted") (target_stat := .level 0.5)
    (backward := true) (by norm_num) hR hm rfl (by decide) ys x hd 50 449 [3] [4] hh (C := 1) fun x => by split <;> simp
  obtain ⟨μ, -, h⟩ := C73_sv (M := 4) (n := 9) (k := .TP_CSMC) (tau := 10) (svd := (diagSvd 2)) (style := "twisted") (target_stat := .level 0.5)
      (backward := true) (by norm_num) hR hm rfl (by decide) ys x hd 50 449 [3] [4] hh h2 (by norm_num)
  exact ⟨μ, h⟩

end Verif.Props
