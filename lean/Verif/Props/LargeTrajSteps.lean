import Verif.Lemmas.CoerciveGrad
import Verif.Props.SmallSteps

/-!
# Large steps of the kernels with one trajectory are rejected (C109)
-/

open scoped ENNReal Topology
open MeasureTheory Filter

namespace Verif.Props
open Verif Verif.Model Verif.Spec

variable {N n T d : ℕ}

section mala
variable {log_pdf : Traj T d → ℝ}

/-- **C109** (`mala.py`): if the log-density is bounded above and the norm of the function used as its gradient tends to infinity far away, the probability
that a step is accepted tends to zero as the step size grows, from every state, for both styles, with any number of proposals. -/
theorem C109_mala {grad : Traj T d → Traj T d} (hl : Measurable log_pdf) (hg : Measurable grad) {C : ℝ} (hb : ∀ x, log_pdf x ≤ C)
    (hc : Tendsto (fun x => ‖grad x‖) (cocompact _) atTop) (hN : 1 ≤ N) (hT : 1 ≤ T) (hd : 1 ≤ d) (key : Key) (s : VGState T d) (auxiliary : Bool) :
    Tendsto (fun δ => flagProb (mala_kernel key s δ log_pdf grad N auxiliary)) atTop (𝓝 0) :=
  mala_large hl hg hN key s auxiliary ((mala_noise_ne hT hd).mono fun _ he _ hi => malaLw_far hb hc hN s auxiliary he hi)

/-- **C109** (random walk): with a gradient of zero, it is enough that the log-density tends to minus infinity far away. -/
theorem C109_rw (hl : Measurable log_pdf) (hf : Tendsto log_pdf (cocompact _) atBot) (hN : 1 ≤ N) (hT : 1 ≤ T) (hd : 1 ≤ d) (key : Key) (x : Traj T d)
    (auxiliary : Bool) :
    Tendsto (fun δ => flagProb (mala_kernel key (tp_init log_pdf (fun _ => 0) x) δ log_pdf (fun _ => 0) N auxiliary)) atTop (𝓝 0) :=
  mala_large hl measurable_const hN key _ auxiliary ((mala_noise_ne hT hd).mono fun _ he _ hi => rwLw_far hf x auxiliary he hi)

end mala

theorem mala_average_large {log_pdf : Traj (n + 1) d → ℝ} {grad : Traj (n + 1) d → Traj (n + 1) d} (hl : Measurable log_pdf) (hg : Measurable grad)
    {key : Key} {auxiliary : Bool}
    (h : ∀ x, Tendsto (fun δ => flagProb (mala_kernel key (tp_init log_pdf grad x) δ log_pdf grad N auxiliary)) atTop (𝓝 0))
    (π : Measure (Traj (n + 1) d)) [IsProbabilityMeasure π] :
    Tendsto (fun δ => ∫⁻ x, flagProb (mala_kernel key (tp_init log_pdf grad x) δ log_pdf grad N auxiliary) ∂π) atTop (𝓝 0) := by
  have h1 := tendsto_lintegral_filter_of_dominated_convergence (μ := π) (l := atTop)
    (F := fun δ x => flagProb (mala_kernel key (tp_init log_pdf grad x) δ log_pdf grad N auxiliary)) (f := fun _ => 0) (fun _ => 1)
    ((eventually_gt_atTop 0).mono fun δ hδ => ?_) (.of_forall fun δ => .of_forall fun x => mala_flag_le key _ δ auxiliary) (by simp) (.of_forall h)
  · simpa using h1
  · exact (((mala_stepOK hl hg N auxiliary).ker δ hδ key).measurable' (f := fun r : VGState (n + 1) d × Bool => if r.2 then (1 : ℝ≥0∞) else 0)
      ((measurable_of_finite fun b : Bool => if b then (1 : ℝ≥0∞) else 0).comp measurable_snd)).comp (measurable_tp_init hl hg)

/-! ## The experiments -/

/-- **C109** (`lgssm_scaling`): `MALA`, `aMALA`, `RW` and the random walk in style `auxiliary`, for every value of `sigma` and all data. -/
theorem C109_lgssm (ys : Traj (n + 1) d) (sigma : ℝ) (hN : 1 ≤ N) (hd : 1 ≤ d) (auxiliary stop : Bool) (key : Key) (x : Traj (n + 1) d) :
    let log_pdf := fun xs => lg_log_pdf xs ys sigma
    let grad := fun xs => if stop then 0 else jaxGrad2 log_pdf xs
    Tendsto (fun δ => flagProb (lg_mala_kernel ys sigma N auxiliary stop key (tp_init log_pdf grad x) δ)) atTop (𝓝 0) := by
  intro log_pdf grad
  have hf : Differentiable ℝ log_pdf := (contDiff_lg_log_pdf ys sigma).differentiable one_ne_zero
  have hc : ∀ x, SConc (fun s => log_pdf (s • x)) ((1 : ℝ) / 2 * ‖x‖ ^ 2) := lg_line ys sigma
  cases stop
  · obtain ⟨C, hC⟩ := bounded_above hf hc one_pos
    exact C109_mala hf.continuous.measurable (measurable_jaxGrad2 _) hC (grad_coercive hf hc one_pos) hN (Nat.le_add_left 1 n) hd key _ auxiliary
  · exact C109_rw hf.continuous.measurable (far_atBot hf hc one_pos) hN (Nat.le_add_left 1 n) hd key x auxiliary

theorem invChol_isUnit {P : Mat d d} (hP : P.PosDef) : IsUnit (invChol P) := by
  rw [invChol, mul_one, Matrix.isUnit_nonsing_inv_iff, Matrix.isUnit_iff_isUnit_det]
  exact (cholesky_det_pos hP).ne'.isUnit

section sv
variable {tau : ℤ} (ht : 0 < tau) (svd : Mat d d → SvdOut d) (style : String) (stat : TargetStat)
    (resampling : Resampling Ex N) (ancestor_move : AncestorMove Ex N) (backward : Bool) {make : Traj (n + 1) d → SvKernel Ex (n + 1) d}
    (hmake : SvType.MALA.kernel_maker svd (svDynArgs tau d) style stat resampling ancestor_move backward = .ok make) (hN : 1 ≤ N) (hd : 1 ≤ d)
    (ys : Traj (n + 1) d) (π : Measure (Traj (n + 1) d)) [IsProbabilityMeasure π] (t : Fin (n + 1))
include ht hmake hN hd

/-- **C109** (`stochastic_volatility`): the acceptance probability of the kernels the script makes for `MALA`, in both styles and for all data, zeros
included, of a run that starts in any given law. -/
theorem C109_sv : Tendsto (fun δ => acceptProb (make ys) (.scalar δ) π t) atTop (𝓝 0) := by
  have hacc : ∀ (ker : Key → VGState (n + 1) d → ℝ → Ex (VGState (n + 1) d × Bool)) (init : Traj (n + 1) d → VGState (n + 1) d) (δ : ℝ),
      acceptProb (vgSv ker init) (.scalar δ) π t = (∫⁻ x, flagProb (ker (splitKey [] 1 0) (init x) δ) ∂π).toReal := fun ker init δ => by
    have e : ∀ b : Bool, ENNReal.ofReal (boolF b) = if b then 1 else 0 := fun b => by cases b <;> simp [boolF]
    unfold acceptProb flagProb
    refine congrArg ENNReal.toReal (lintegral_congr fun x => ?_)
    simp only [← e]
    rfl
  have hf : Differentiable ℝ (svFullLogPdf ys (svDynArgs tau d)) := (contDiff_svFullLogPdf ys (svDynArgs tau d)).differentiable one_ne_zero
  obtain ⟨lam, hlam, hc⟩ := sv_line ys (invChol_isUnit (svDynArgs_P0 ht d)) (invChol_isUnit (svDynArgs_Q ht d))
  obtain ⟨C, hC⟩ := bounded_above hf hc hlam
  have hm : ∀ aux : Bool, Tendsto (fun δ => acceptProb (vgSv (sv_mala_kernel (m := Ex) ys (svDynArgs tau d) N aux)
      (tp_init (svFullLogPdf ys (svDynArgs tau d)) (jaxGrad2 (svFullLogPdf ys (svDynArgs tau d))))) (.scalar δ) π t) atTop (𝓝 0) := fun aux => by
    simp only [hacc]
    have h1 := mala_average_large (N := N) (key := splitKey [] 1 0) (auxiliary := aux) hf.continuous.measurable (measurable_jaxGrad2 _)
      (fun x => C109_mala hf.continuous.measurable (measurable_jaxGrad2 _) hC (grad_coercive hf hc hlam) hN (Nat.le_add_left 1 n) hd _ _ aux) π
    have h2 := (ENNReal.tendsto_toReal ENNReal.zero_ne_top).comp h1
    rw [ENNReal.toReal_zero] at h2
    exact h2
  simp only [SvType.kernel_maker, sv_get_mala_kernel] at hmake
  split_ifs at hmake
  · obtain rfl := Except.ok.inj hmake
    exact hm false
  · obtain rfl := Except.ok.inj hmake
    exact hm true

/-- **C109** (bracket): every target rate strictly between zero and one is exceeded by small steps and missed by large ones. -/
theorem C109_bracket {target : ℝ} (hT0 : 0 < target) (hT1 : target < 1) : ∃ δ₀ > 0, ∃ δ₁ > 0, ∀ δ,
    (0 < δ ∧ δ < δ₀ → target < acceptProb (make ys) (.scalar δ) π t) ∧ (δ₁ < δ → acceptProb (make ys) (.scalar δ) π t < target) := by
  obtain ⟨δ₀, h0, h1⟩ := C105_target (C105_sv ht svd (.inl rfl) style stat resampling ancestor_move backward hmake hN ys π t) hT1
  obtain ⟨a, ha⟩ := eventually_atTop.mp ((C109_sv ht svd style stat resampling ancestor_move backward hmake hN hd ys π t).eventually (gt_mem_nhds hT0))
  exact ⟨δ₀, h0, max a 1, by positivity, fun δ => ⟨fun h => h1 δ h.1 h.2, fun h => ha δ ((le_max_left _ _).trans h.le)⟩⟩

end sv

/-- The grid of `stochastic_volatility`: 30 proposals of `MALA` in style `auxiliary`, the posterior of the data, a rate of three quarters. -/
example (svd : Mat 30 30 → SvdOut 30) (ys : Traj 250 30) (t : Fin 250) : ∃ δ₀ > 0, ∃ δ₁ > 0, ∀ δ,
    (0 < δ ∧ δ < δ₀ → 0.75 < acceptProb (vgSv (sv_mala_kernel (m := Ex) ys (svDynArgs 10 30) 30 true)
      (tp_init (svFullLogPdf ys (svDynArgs 10 30)) (jaxGrad2 (svFullLogPdf ys (svDynArgs 10 30))))) (.scalar δ) (svPosterior .MALA 10 ys) t) ∧
    (δ₁ < δ → acceptProb (vgSv (sv_mala_kernel (m := Ex) ys (svDynArgs 10 30) 30 true)
      (tp_init (svFullLogPdf ys (svDynArgs 10 30)) (jaxGrad2 (svFullLogPdf ys (svDynArgs 10 30))))) (.scalar δ) (svPosterior .MALA 10 ys) t < 0.75) := by
  have := C67_proper (n := 249) (d := 30) .MALA (tau := 10) (by norm_num) ys
  exact C109_bracket (N := 30) (tau := 10) (by norm_num) svd "auxiliary" (.name "mean") (fun key w => multinomial key w) (fun key w => barker_move key w) true
    (make := fun ys => vgSv (sv_mala_kernel ys (svDynArgs 10 30) 30 true) _) rfl (by norm_num) (by norm_num) ys _ t (by norm_num) (by norm_num)

/-- One observation at two, one proposal, from zero: `MALA` and `RW`. -/
example (key : Key) (stop : Bool) : Tendsto (fun δ => flagProb (lg_mala_kernel (n := 0) (d := 1) (fun _ _ => 2) 1 1 false stop key
    (tp_init (fun xs => lg_log_pdf xs (fun _ _ => 2) 1) (fun xs => if stop then 0 else jaxGrad2 (fun xs => lg_log_pdf xs (fun _ _ => 2) 1) xs) 0) δ))
    atTop (𝓝 0) :=
  C109_lgssm (fun _ _ => 2) 1 le_rfl le_rfl false stop key 0

end Verif.Props
