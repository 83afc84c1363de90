import Verif.Lemmas.HitTarget
import Verif.Props.LargeTrajSteps

/-!
# Step sizes that attain the target rate (C111)
-/

open scoped ENNReal Topology
open MeasureTheory Filter

namespace Verif.Props
open Verif Verif.Model Verif.Spec

variable {N n T d : ℕ}

/-- If small steps are accepted and large ones rejected, some step size has nearly the rate asked for. -/
theorem hit_of_limits {log_pdf : Traj T d → ℝ} {grad : Traj T d → Traj T d} (hl : Continuous log_pdf) (hg : Continuous grad) (hN : 1 ≤ N) (key : Key)
    (auxiliary : Bool) (π : Measure (Traj T d)) [IsProbabilityMeasure π]
    (h0 : Tendsto (fun δ => ∫⁻ x, flagProb (mala_kernel key (tp_init log_pdf grad x) δ log_pdf grad N auxiliary) ∂π) (𝓝[>] 0) (𝓝 1))
    (h1 : Tendsto (fun δ => ∫⁻ x, flagProb (mala_kernel key (tp_init log_pdf grad x) δ log_pdf grad N auxiliary) ∂π) atTop (𝓝 0))
    {target : ℝ} (hT0 : 0 < target) (hT1 : target < 1) :
    ∃ δ > 0, |(∫⁻ x, flagProb (mala_kernel key (tp_init log_pdf grad x) δ log_pdf grad N auxiliary) ∂π).toReal - target| ≤ 3e-12 := by
  have r0 := (ENNReal.tendsto_toReal ENNReal.one_ne_top).comp h0
  have r1 := (ENNReal.tendsto_toReal ENNReal.zero_ne_top).comp h1
  rw [ENNReal.toReal_one] at r0
  rw [ENNReal.toReal_zero] at r1
  have hpos : ∀ᶠ δ : ℝ in 𝓝[>] 0, 0 < δ := eventually_mem_nhdsWithin
  obtain ⟨a, ha, ha1⟩ := ((r0.eventually (lt_mem_nhds hT1)).and hpos).exists
  obtain ⟨b, hb, hb1⟩ := ((r1.eventually (gt_mem_nhds hT0)).and (eventually_ge_atTop a)).exists
  obtain ⟨δ, hδ, -, e⟩ := near_level ha1 hb1 (malaRate_real_continuousOn (N := N) hl hg hN auxiliary π) (fun δ => mala_rate_near hl hg key δ auxiliary π) ha hb
  exact ⟨δ, ha1.trans_le hδ, e⟩

section mala
variable {log_pdf : Traj (n + 1) d → ℝ} (hl : Continuous log_pdf) (hN : 1 ≤ N) (hd : 1 ≤ d) (key : Key) (auxiliary : Bool)
    (π : Measure (Traj (n + 1) d)) [IsProbabilityMeasure π] {target : ℝ} (hT0 : 0 < target) (hT1 : target < 1)
include hl hN hd hT0 hT1

/-- **C111** (`mala.py`): for every law of the trajectories and every rate strictly between zero and one there is a step size whose acceptance rate is
within `3e-12` of it. -/
theorem C111_mala {grad : Traj (n + 1) d → Traj (n + 1) d} (hg : Continuous grad) {C : ℝ} (hb : ∀ x, log_pdf x ≤ C)
    (hc : Tendsto (fun x => ‖grad x‖) (cocompact _) atTop) :
    ∃ δ > 0, |(∫⁻ x, flagProb (mala_kernel key (tp_init log_pdf grad x) δ log_pdf grad N auxiliary) ∂π).toReal - target| ≤ 3e-12 :=
  hit_of_limits hl hg hN key auxiliary π (C105_mala_average hl hg hN key auxiliary π) (mala_average_large hl.measurable hg.measurable
    (fun _ => C109_mala hl.measurable hg.measurable hb hc hN (Nat.le_add_left 1 n) hd key _ auxiliary) π) hT0 hT1

/-- **C111** (random walk). -/
theorem C111_rw (hf : Tendsto log_pdf (cocompact _) atBot) :
    ∃ δ > 0, |(∫⁻ x, flagProb (mala_kernel key (tp_init log_pdf (fun _ => 0) x) δ log_pdf (fun _ => 0) N auxiliary) ∂π).toReal - target| ≤ 3e-12 :=
  hit_of_limits hl continuous_const hN key auxiliary π (C105_mala_average hl continuous_const hN key auxiliary π) (mala_average_large hl.measurable
    measurable_const (fun x => C109_rw hl.measurable hf hN (Nat.le_add_left 1 n) hd key x auxiliary) π) hT0 hT1

end mala

/-- **C111** (`lgssm_scaling`): `MALA`, `aMALA`, `RW` and the random walk in style `auxiliary`. -/
theorem C111_lgssm (ys : Traj (n + 1) d) (sigma : ℝ) (hN : 1 ≤ N) (hd : 1 ≤ d) (auxiliary stop : Bool) (key : Key) (π : Measure (Traj (n + 1) d))
    [IsProbabilityMeasure π] {target : ℝ} (hT0 : 0 < target) (hT1 : target < 1) :
    let log_pdf := fun xs => lg_log_pdf xs ys sigma
    let grad := fun xs => if stop then 0 else jaxGrad2 log_pdf xs
    ∃ δ > 0, |(∫⁻ x, flagProb (lg_mala_kernel ys sigma N auxiliary stop key (tp_init log_pdf grad x) δ) ∂π).toReal - target| ≤ 3e-12 := by
  intro log_pdf grad
  have hf : Differentiable ℝ log_pdf := (contDiff_lg_log_pdf ys sigma).differentiable one_ne_zero
  have hc : ∀ x, SConc (fun s => log_pdf (s • x)) ((1 : ℝ) / 2 * ‖x‖ ^ 2) := lg_line ys sigma
  cases stop
  · obtain ⟨C, hC⟩ := bounded_above hf hc one_pos
    exact C111_mala hf.continuous hN hd key auxiliary π hT0 hT1 (continuous_jaxGrad2 (contDiff_lg_log_pdf ys sigma)) hC (grad_coercive hf hc one_pos)
  · exact C111_rw hf.continuous hN hd key auxiliary π hT0 hT1 (far_atBot hf hc one_pos)

/-- **C111** (`stochastic_volatility`): for the kernels the script makes for `MALA`, in both styles, for all data, for a run that starts in any given law,
every rate strictly between zero and one is the acceptance probability of some step size, up to `3e-12`. -/
theorem C111_sv {tau : ℤ} (ht : 0 < tau) (svd : Mat d d → SvdOut d) (style : String) (stat : TargetStat) (resampling : Resampling Ex N)
    (ancestor_move : AncestorMove Ex N) (backward : Bool) {make : Traj (n + 1) d → SvKernel Ex (n + 1) d}
    (hmake : SvType.MALA.kernel_maker svd (svDynArgs tau d) style stat resampling ancestor_move backward = .ok make) (hN : 1 ≤ N) (hd : 1 ≤ d)
    (ys : Traj (n + 1) d) (π : Measure (Traj (n + 1) d)) [IsProbabilityMeasure π] (t : Fin (n + 1)) {target : ℝ} (hT0 : 0 < target) (hT1 : target < 1) :
    ∃ δ > 0, |acceptProb (make ys) (.scalar δ) π t - target| ≤ 3e-12 := by
  have hacc : ∀ (ker : Key → VGState (n + 1) d → ℝ → Ex (VGState (n + 1) d × Bool)) (init : Traj (n + 1) d → VGState (n + 1) d) (δ : ℝ),
      acceptProb (vgSv ker init) (.scalar δ) π t = (∫⁻ x, flagProb (ker (splitKey [] 1 0) (init x) δ) ∂π).toReal := fun ker init δ => by
    have e : ∀ b : Bool, ENNReal.ofReal (boolF b) = if b then 1 else 0 := fun b => by cases b <;> simp [boolF]
    unfold acceptProb flagProb
    refine congrArg ENNReal.toReal (lintegral_congr fun x => ?_)
    simp only [← e]
    rfl
  have hC1 := contDiff_svFullLogPdf ys (svDynArgs tau d)
  have hf : Differentiable ℝ (svFullLogPdf ys (svDynArgs tau d)) := hC1.differentiable one_ne_zero
  obtain ⟨lam, hlam, hc⟩ := sv_line ys (invChol_isUnit (svDynArgs_P0 ht d)) (invChol_isUnit (svDynArgs_Q ht d))
  obtain ⟨C, hC⟩ := bounded_above hf hc hlam
  have hm : ∀ aux : Bool, ∃ δ > 0, |acceptProb (vgSv (sv_mala_kernel (m := Ex) ys (svDynArgs tau d) N aux)
      (tp_init (svFullLogPdf ys (svDynArgs tau d)) (jaxGrad2 (svFullLogPdf ys (svDynArgs tau d))))) (.scalar δ) π t - target| ≤ 3e-12 := fun aux => by
    simp only [hacc]
    exact C111_mala hf.continuous hN hd (splitKey [] 1 0) aux π hT0 hT1 (continuous_jaxGrad2 hC1) hC (grad_coercive hf hc hlam)
  simp only [SvType.kernel_maker, sv_get_mala_kernel] at hmake
  split_ifs at hmake
  · obtain rfl := Except.ok.inj hmake
    exact hm false
  · obtain rfl := Except.ok.inj hmake
    exact hm true

/-- The grid of `stochastic_volatility`: 30 proposals of `MALA` in style `auxiliary`, the posterior of the data, a rate of three quarters. -/
example (svd : Mat 30 30 → SvdOut 30) (ys : Traj 250 30) (t : Fin 250) :
    ∃ δ > 0, |acceptProb (vgSv (sv_mala_kernel (m := Ex) ys (svDynArgs 10 30) 30 true)
      (tp_init (svFullLogPdf ys (svDynArgs 10 30)) (jaxGrad2 (svFullLogPdf ys (svDynArgs 10 30))))) (.scalar δ) (svPosterior .MALA 10 ys) t - 0.75|
        ≤ 3e-12 := by
  have := C67_proper (n := 249) (d := 30) .MALA (tau := 10) (by norm_num) ys
  exact C111_sv (N := 30) (tau := 10) (by norm_num) svd "auxiliary" (.name "mean") (fun key w => multinomial key w) (fun key w => barker_move key w) true
    (make := fun ys => vgSv (sv_mala_kernel ys (svDynArgs 10 30) 30 true) _) rfl (by norm_num) (by norm_num) ys _ t (by norm_num) (by norm_num)

/-- One observation at two, one proposal, from zero: `MALA` and `RW`, a rate of one half. -/
example (key : Key) (stop : Bool) : ∃ δ > 0, |(∫⁻ x, flagProb (lg_mala_kernel (n := 0) (d := 1) (fun _ _ => 2) 1 1 false stop key
    (tp_init (fun xs => lg_log_pdf xs (fun _ _ => 2) 1) (fun xs => if stop then 0 else jaxGrad2 (fun xs => lg_log_pdf xs (fun _ _ => 2) 1) xs) x) δ)
    ∂(Measure.dirac 0)).toReal - 0.5| ≤ 3e-12 :=
  C111_lgssm (fun _ _ => 2) 1 le_rfl le_rfl false stop key (Measure.dirac 0) (by norm_num) (by norm_num)

end Verif.Props
