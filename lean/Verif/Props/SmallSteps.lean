import Verif.Spec.SmallSteps
import Verif.Lemmas.SmallSteps
import Verif.Props.ExpMultiTry
import Verif.Props.SvRuns
import Verif.Spec.LagLaws

/-!
# Small steps are accepted (C105)
-/

open scoped ENNReal Topology
open MeasureTheory Filter

namespace Verif.Props
open Verif Verif.Model Verif.Spec

variable {N n d T : ℕ}

/-- The law of the noise of `mala.kernel`. -/
noncomputable abbrev malaMeasure (N T d : ℕ) : Measure (Traj T d × (Fin N → Traj T d)) :=
  (Measure.pi fun _ => gaussM d).prod (Measure.pi fun _ => Measure.pi fun _ => gaussM d)

theorem malaNoise_eq (key : Key) {f : Traj T d × (Fin N → Traj T d) → ℝ≥0∞} (hf : Measurable f) :
    malaNoise key N T d f = ∫⁻ e, f e ∂malaMeasure N T d := (lintegral_prod f hf.aemeasurable).symm

section mala
variable {log_pdf : Traj T d → ℝ} {grad : Traj T d → Traj T d}

theorem mala_flag_le (key : Key) (s : VGState T d) (delta : ℝ) (auxiliary : Bool) :
    flagProb (mala_kernel key s delta log_pdf grad N auxiliary) ≤ 1 := by
  rw [flagProb, mala_flag_eq]
  refine le_trans ?_ (malaNoise_mass (N := N) (T := T) (d := d) key).le
  exact lintegral_mono fun a => lintegral_mono fun b => forced_le_one (normalize_isProb _) _ _ fun i => by dsimp only; split_ifs <;> simp

theorem measurable_malaLow_e (hl : Measurable log_pdf) (hg : Measurable grad) (s : VGState T d) (delta : ℝ) (auxiliary : Bool) :
    Measurable fun e : Traj T d × (Fin N → Traj T d) => malaLow delta log_pdf grad auxiliary s e :=
  (measurable_malaLow hl hg delta auxiliary).comp (measurable_prodMk_left (x := s))

theorem mala_flag_ge (hl : Measurable log_pdf) (hg : Measurable grad) (hN : 1 ≤ N) (key : Key) (s : VGState T d) (delta : ℝ) (auxiliary : Bool) :
    ∫⁻ e, malaLow delta log_pdf grad auxiliary s e ∂malaMeasure N T d ≤ flagProb (mala_kernel key s delta log_pdf grad N auxiliary) := by
  have hm : Measurable fun e => malaLow (N := N) delta log_pdf grad auxiliary s e := measurable_malaLow_e hl hg s delta auxiliary
  rw [← malaNoise_eq key hm, flagProb, mala_flag_eq]
  refine (malaNoise_ker (β := Unit) key).mono () hm ?_ fun e => ?_
  · exact measurable_select (measurable_pi_lambda _ fun i => (measurable_pi_apply i).comp ((measurable_malaW hl hg delta auxiliary).comp
      (measurable_prodMk_left (x := s)))) (g := fun _ i => decide (i ≠ 0)) measurable_const (force_moveKer (splitKey key 3 1))
      (f := fun b => if b = true then (1 : ℝ≥0∞) else 0) (measurable_of_finite _)
  · refine (malaLow_forced hN (splitKey key 3 1) delta log_pdf grad auxiliary s e).trans (le_of_eq ?_)
    congr 1
    funext i
    by_cases h : i = 0 <;> simp [h]

/-- **C105** (`mala.py`): from every trajectory at which the log-density and the function used as its gradient are continuous, the probability that a
step is accepted tends to one as the step size vanishes, for both styles, with any number of proposals. -/
theorem C105_mala (hl : Measurable log_pdf) (hg : Measurable grad) {x : Traj T d} (hlx : ContinuousAt log_pdf x) (hgx : ContinuousAt grad x)
    (hN : 1 ≤ N) (key : Key) (auxiliary : Bool) :
    Tendsto (fun δ => flagProb (mala_kernel key (tp_init log_pdf grad x) δ log_pdf grad N auxiliary)) (𝓝[>] 0) (𝓝 1) := by
  have h : Tendsto (fun δ => ∫⁻ e, malaLow δ log_pdf grad auxiliary (tp_init log_pdf grad x) e ∂malaMeasure N T d) (𝓝[>] 0)
      (𝓝 (∫⁻ _, 1 ∂malaMeasure N T d)) := by
    refine tendsto_lintegral_filter_of_dominated_convergence (fun _ => 1) (.of_forall fun δ => ?_) (.of_forall fun δ => .of_forall fun e =>
      malaLow_le _ _ _ _ _ _) (by simp) (.of_forall fun e => malaLow_tendsto hlx hgx auxiliary e)
    exact measurable_malaLow_e hl hg _ δ auxiliary
  rw [lintegral_one, measure_univ] at h
  exact tendsto_of_tendsto_of_tendsto_of_le_of_le h tendsto_const_nhds (fun δ => mala_flag_ge hl hg hN key _ δ auxiliary)
    fun δ => mala_flag_le key _ δ auxiliary

/-- **C105** (`mala.py`, average): so does the acceptance rate of a run whose trajectories have any given law, if the log-density and the gradient
are continuous. -/
theorem C105_mala_average (hl : Continuous log_pdf) (hg : Continuous grad) (hN : 1 ≤ N) (key : Key) (auxiliary : Bool) (π : Measure (Traj T d))
    [IsProbabilityMeasure π] :
    Tendsto (fun δ => ∫⁻ x, flagProb (mala_kernel key (tp_init log_pdf grad x) δ log_pdf grad N auxiliary) ∂π) (𝓝[>] 0) (𝓝 1) := by
  have h : Tendsto (fun δ => ∫⁻ x, ∫⁻ e, malaLow δ log_pdf grad auxiliary (tp_init log_pdf grad x) e ∂malaMeasure N T d ∂π) (𝓝[>] 0)
      (𝓝 (∫⁻ _, 1 ∂π)) := by
    refine tendsto_lintegral_filter_of_dominated_convergence (fun _ => 1) (.of_forall fun δ => ?_) (.of_forall fun δ => .of_forall fun x => ?_)
      (by simp) (.of_forall fun x => ?_)
    · refine Measurable.lintegral_prod_right' (f := fun p : Traj T d × (Traj T d × (Fin N → Traj T d)) =>
        malaLow δ log_pdf grad auxiliary (tp_init log_pdf grad p.1) p.2) ?_
      have hi := measurable_tp_init hl.measurable hg.measurable
      exact (measurable_malaLow hl.measurable hg.measurable δ auxiliary).comp
        (by fun_prop : Measurable fun p : Traj T d × (Traj T d × (Fin N → Traj T d)) => (tp_init log_pdf grad p.1, p.2))
    · exact (lintegral_mono fun e => malaLow_le _ _ _ _ _ _).trans (by simp)
    · have h : Tendsto (fun δ => ∫⁻ e, malaLow δ log_pdf grad auxiliary (tp_init log_pdf grad x) e ∂malaMeasure N T d) (𝓝[>] 0)
          (𝓝 (∫⁻ _, 1 ∂malaMeasure N T d)) := by
        refine tendsto_lintegral_filter_of_dominated_convergence (fun _ => 1) (.of_forall fun δ => ?_) (.of_forall fun δ => .of_forall fun e =>
          malaLow_le _ _ _ _ _ _) (by simp) (.of_forall fun e => malaLow_tendsto hl.continuousAt hg.continuousAt auxiliary e)
        exact measurable_malaLow_e hl.measurable hg.measurable _ δ auxiliary
      rwa [lintegral_one, measure_univ] at h
  rw [lintegral_one, measure_univ] at h
  refine tendsto_of_tendsto_of_tendsto_of_le_of_le h tendsto_const_nhds
    (fun δ => lintegral_mono fun x => mala_flag_ge hl.measurable hg.measurable hN key _ δ auxiliary)
    fun δ => (lintegral_mono fun x => mala_flag_le key _ δ auxiliary).trans (by simp)

end mala

section tp
variable {D : Dyn n d} (hP : D.P0.PosDef) (hQ : ∀ t, (D.Qs t).PosDef) {log_pdf : Traj (n + 1) d → ℝ} {grad : Traj (n + 1) d → Traj (n + 1) d}
include hP hQ

theorem tp_flag_le {delta : ℝ} (hd : 0 < delta) (hl : Measurable log_pdf) (hg : Measurable grad) (key : Key) (s : VGState (n + 1) d) :
    flagProb (tp_kernel key s delta D log_pdf grad N) ≤ 1 := by
  rw [flagProb, tp_flag_eq]
  refine le_trans ?_ (mtpNoise_mass (N := N) hP hQ hd key s).le
  refine (mtpNoise_ker hP hQ hd key).mono s ?_ measurable_const fun e => ?_
  · exact measurable_select (measurable_pi_lambda _ fun i => (measurable_pi_apply i).comp ((measurable_tpW hl hg delta).comp
      (measurable_prodMk_left (x := s)))) (g := fun _ i => decide (i ≠ 0)) measurable_const (force_moveKer (splitKey key 3 1))
      (f := fun b => if b = true then (1 : ℝ≥0∞) else 0) (measurable_of_finite _)
  · exact forced_le_one (normalize_isProb _) _ _ fun i => by dsimp only; split_ifs <;> simp

theorem tp_flag_ge {delta : ℝ} (hd : 0 < delta) (hl : Measurable log_pdf) (hg : Measurable grad) (hN : 1 ≤ N) (key : Key) (s : VGState (n + 1) d) :
    mtpNoise key delta D N s (tpLow delta log_pdf grad s) ≤ flagProb (tp_kernel key s delta D log_pdf grad N) := by
  rw [flagProb, tp_flag_eq]
  refine (mtpNoise_ker hP hQ hd key).mono s ((measurable_tpLow hl hg delta).comp (measurable_prodMk_left (x := s))) ?_ fun e => ?_
  · exact measurable_select (measurable_pi_lambda _ fun i => (measurable_pi_apply i).comp ((measurable_tpW hl hg delta).comp
      (measurable_prodMk_left (x := s)))) (g := fun _ i => decide (i ≠ 0)) measurable_const (force_moveKer (splitKey key 3 1))
      (f := fun b => if b = true then (1 : ℝ≥0∞) else 0) (measurable_of_finite _)
  · refine (tpLow_forced hN (splitKey key 3 1) delta log_pdf grad s e).trans (le_of_eq ?_)
    congr 1
    funext i
    by_cases h : i = 0 <;> simp [h]

theorem tp_low_tendsto (hl : Measurable log_pdf) (hg : Measurable grad) {x : Traj (n + 1) d} (hlx : ContinuousAt log_pdf x) (hgx : ContinuousAt grad x)
    (key : Key) : Tendsto (fun δ => mtpNoise key δ D N (tp_init log_pdf grad x) (tpLow δ log_pdf grad (tp_init log_pdf grad x))) (𝓝[>] 0) (𝓝 1) := by
  have hu : ∀ δ, Measurable fun a => auxTraj (tp_init log_pdf grad x) δ (Real.sqrt (0.5 * δ)) a := fun δ => by unfold auxTraj; fun_prop
  have hlow : ∀ δ, Measurable fun p : Traj (n + 1) d × (Fin N → Traj (n + 1) d) => tpLow δ log_pdf grad (tp_init log_pdf grad x) p := fun δ =>
    (measurable_tpLow hl hg δ).comp (measurable_prodMk_left (x := tp_init log_pdf grad x))
  have h : Tendsto (fun δ => ∫⁻ a, (kalman_sampling (splitKey key 3 0) (tpFilter δ D (auxTraj (tp_init log_pdf grad x) δ (Real.sqrt (0.5 * δ)) a)).1
      (tpFilter δ D (auxTraj (tp_init log_pdf grad x) δ (Real.sqrt (0.5 * δ)) a)).2.1 D.Fs D.Qs D.bs N : Ex _)
        (fun y => tpLow δ log_pdf grad (tp_init log_pdf grad x) (auxTraj (tp_init log_pdf grad x) δ (Real.sqrt (0.5 * δ)) a, y))
      ∂(Measure.pi fun _ => gaussM d)) (𝓝[>] 0) (𝓝 (∫⁻ _, 1 ∂(Measure.pi fun _ : Fin (n + 1) => gaussM d))) := by
    have hpos : ∀ᶠ δ : ℝ in 𝓝[>] 0, 0 < δ := eventually_mem_nhdsWithin
    refine tendsto_lintegral_filter_of_dominated_convergence (fun _ => 1) ?_ ?_ (by simp) (.of_forall fun a => ?_)
    · filter_upwards [hpos] with δ hd
      exact (tp_draws_ker hP hQ hd (splitKey key 3 0) (hu δ)).measurable (f := fun a y => tpLow δ log_pdf grad (tp_init log_pdf grad x)
        (auxTraj (tp_init log_pdf grad x) δ (Real.sqrt (0.5 * δ)) a, y)) ((hlow δ).comp (((hu δ).comp measurable_fst).prodMk measurable_snd))
    · filter_upwards [hpos] with δ hd
      refine .of_forall fun a => ?_
      refine ((tp_draws_ker hP hQ hd (splitKey key 3 0) (hu δ)).mono a ((hlow δ).comp measurable_prodMk_left) measurable_const fun y =>
        tpLow_le _ _ _ _ _).trans (tp_draws_mass hP hQ hd _ _).le
    · exact tp_draws_tendsto hP hQ hl hg hlx hgx (splitKey key 3 0) a
  rw [lintegral_one, measure_univ] at h
  exact h

/-- **C105** (`tp.py`): the same for the twisted proposals, whatever the Gaussian dynamics. -/
theorem C105_tp (hl : Measurable log_pdf) (hg : Measurable grad) {x : Traj (n + 1) d} (hlx : ContinuousAt log_pdf x) (hgx : ContinuousAt grad x)
    (hN : 1 ≤ N) (key : Key) :
    Tendsto (fun δ => flagProb (tp_kernel key (tp_init log_pdf grad x) δ D log_pdf grad N)) (𝓝[>] 0) (𝓝 1) := by
  have hpos : ∀ᶠ δ : ℝ in 𝓝[>] 0, 0 < δ := eventually_mem_nhdsWithin
  refine tendsto_of_tendsto_of_tendsto_of_le_of_le' (tp_low_tendsto (N := N) hP hQ hl hg hlx hgx key) tendsto_const_nhds ?_ ?_
  · filter_upwards [hpos] with δ hd
    exact tp_flag_ge hP hQ hd hl hg hN key _
  · filter_upwards [hpos] with δ hd
    exact tp_flag_le hP hQ hd hl hg key _

/-- **C105** (`tp.py`, average). -/
theorem C105_tp_average (hl : Continuous log_pdf) (hg : Continuous grad) (hN : 1 ≤ N) (key : Key) (π : Measure (Traj (n + 1) d))
    [IsProbabilityMeasure π] :
    Tendsto (fun δ => ∫⁻ x, flagProb (tp_kernel key (tp_init log_pdf grad x) δ D log_pdf grad N) ∂π) (𝓝[>] 0) (𝓝 1) := by
  have hpos : ∀ᶠ δ : ℝ in 𝓝[>] 0, 0 < δ := eventually_mem_nhdsWithin
  have hi := measurable_tp_init hl.measurable hg.measurable
  have hlow : ∀ δ, Measurable fun p : VGState (n + 1) d × (Traj (n + 1) d × (Fin N → Traj (n + 1) d)) => tpLow δ log_pdf grad p.1 p.2 := fun δ =>
    measurable_tpLow hl.measurable hg.measurable δ
  have h : Tendsto (fun δ => ∫⁻ x, mtpNoise key δ D N (tp_init log_pdf grad x) (tpLow δ log_pdf grad (tp_init log_pdf grad x)) ∂π) (𝓝[>] 0)
      (𝓝 (∫⁻ _, 1 ∂π)) := by
    refine tendsto_lintegral_filter_of_dominated_convergence (fun _ => 1) ?_ ?_ (by simp) (.of_forall fun x => ?_)
    · filter_upwards [hpos] with δ hd
      exact ((mtpNoise_ker hP hQ hd key).measurable (f := fun s => tpLow δ log_pdf grad s) (hlow δ)).comp hi
    · filter_upwards [hpos] with δ hd
      refine .of_forall fun x => ?_
      exact ((mtpNoise_ker hP hQ hd key).mono _ ((hlow δ).comp measurable_prodMk_left) measurable_const fun y =>
        tpLow_le _ _ _ _ _).trans (mtpNoise_mass hP hQ hd _ _).le
    · exact tp_low_tendsto hP hQ hl.measurable hg.measurable hl.continuousAt hg.continuousAt key
  rw [lintegral_one, measure_univ] at h
  refine tendsto_of_tendsto_of_tendsto_of_le_of_le' h tendsto_const_nhds ?_ ?_
  · filter_upwards [hpos] with δ hd
    exact lintegral_mono fun x => tp_flag_ge hP hQ hd hl.measurable hg.measurable hN key _
  · filter_upwards [hpos] with δ hd
    exact (lintegral_mono fun x => tp_flag_le hP hQ hd hl.measurable hg.measurable key _).trans (by simp)

end tp

/-! ## The experiments -/

/-- **C105** (`lgssm_scaling`): `MALA` and `aMALA`, with or without `stop_gradient`. -/
theorem C105_lgssm_mala (ys : Traj (n + 1) d) (sigma : ℝ) (hN : 1 ≤ N) (auxiliary stop : Bool) (key : Key) (x : Traj (n + 1) d) :
    let log_pdf := fun xs => lg_log_pdf xs ys sigma
    let grad := fun xs => if stop then 0 else jaxGrad2 log_pdf xs
    Tendsto (fun δ => flagProb (lg_mala_kernel ys sigma N auxiliary stop key (tp_init log_pdf grad x) δ)) (𝓝[>] 0) (𝓝 1) := by
  intro log_pdf grad
  have hl : Continuous log_pdf := (contDiff_lg_log_pdf ys sigma).continuous
  have hg : Continuous grad := by
    cases stop
    · exact continuous_jaxGrad2 (contDiff_lg_log_pdf ys sigma)
    · exact continuous_const
  exact C105_mala hl.measurable hg.measurable hl.continuousAt hg.continuousAt hN key auxiliary

/-- **C105** (`lgssm_scaling`): `TP`. -/
theorem C105_lgssm_tp (ys : Traj (n + 1) d) {sigma : ℝ} (hs : 0 < sigma) (hN : 1 ≤ N) (key : Key) (x : Traj (n + 1) d) :
    let log_pdf := fun xs => lg_log_likelihood xs ys
    Tendsto (fun δ => flagProb (lg_tp_kernel ys sigma N key (tp_init log_pdf (jaxGrad2 log_pdf) x) δ)) (𝓝[>] 0) (𝓝 1) := by
  intro log_pdf
  have hl : Continuous log_pdf := (contDiff_lg_log_likelihood ys).continuous
  have hg : Continuous (jaxGrad2 log_pdf) := continuous_jaxGrad2 (contDiff_lg_log_likelihood ys)
  exact C105_tp (posDef_smul_one (sq_pos_of_pos hs)) (fun _ => posDef_smul_one (sq_pos_of_pos hs)) hl.measurable hg.measurable hl.continuousAt hg.continuousAt hN key

/-- **C105** (`stochastic_volatility`): for the two kernels that make one flag per step, the acceptance probability of a run that starts in any given law,
in particular of a stationary run, tends to one with the step size. -/
theorem C105_sv {tau : ℤ} (ht : 0 < tau) (svd : Mat d d → SvdOut d) {k : SvType} (hk : k = .MALA ∨ k = .TP) (style : String) (stat : TargetStat)
    (resampling : Resampling Ex N) (ancestor_move : AncestorMove Ex N) (backward : Bool) {make : Traj (n + 1) d → SvKernel Ex (n + 1) d}
    (hmake : k.kernel_maker svd (svDynArgs tau d) style stat resampling ancestor_move backward = .ok make) (hN : 1 ≤ N) (ys : Traj (n + 1) d)
    (π : Measure (Traj (n + 1) d)) [IsProbabilityMeasure π] (t : Fin (n + 1)) :
    Tendsto (fun δ => acceptProb (make ys) (.scalar δ) π t) (𝓝[>] 0) (𝓝 1) := by
  have hacc : ∀ (ker : Key → VGState (n + 1) d → ℝ → Ex (VGState (n + 1) d × Bool)) (init : Traj (n + 1) d → VGState (n + 1) d) (δ : ℝ),
      acceptProb (vgSv ker init) (.scalar δ) π t = (∫⁻ x, flagProb (ker (splitKey [] 1 0) (init x) δ) ∂π).toReal := fun ker init δ => by
    have e : ∀ b : Bool, ENNReal.ofReal (boolF b) = if b then 1 else 0 := fun b => by cases b <;> simp [boolF]
    unfold acceptProb flagProb
    refine congrArg ENNReal.toReal (lintegral_congr fun x => ?_)
    simp only [← e]
    rfl
  have hlim : ∀ f : ℝ → ℝ≥0∞, Tendsto f (𝓝[>] 0) (𝓝 1) → Tendsto (fun δ => (f δ).toReal) (𝓝[>] 0) (𝓝 1) := fun f hf =>
    (ENNReal.tendsto_toReal ENNReal.one_ne_top).comp hf
  have hm : ∀ aux : Bool, Tendsto (fun δ => acceptProb (vgSv (sv_mala_kernel (m := Ex) ys (svDynArgs tau d) N aux)
      (tp_init (svFullLogPdf ys (svDynArgs tau d)) (jaxGrad2 (svFullLogPdf ys (svDynArgs tau d))))) (.scalar δ) π t) (𝓝[>] 0) (𝓝 1) := fun aux => by
    simp only [hacc]
    exact hlim _ (C105_mala_average (contDiff_svFullLogPdf ys _).continuous (continuous_jaxGrad2 (contDiff_svFullLogPdf ys _)) hN _ aux π)
  rcases hk with rfl | rfl
  · simp only [SvType.kernel_maker, sv_get_mala_kernel] at hmake
    split_ifs at hmake
    · obtain rfl := Except.ok.inj hmake
      exact hm false
    · obtain rfl := Except.ok.inj hmake
      exact hm true
  · obtain rfl := Except.ok.inj hmake
    simp only [hacc]
    exact hlim _ (C105_tp_average (D := svDyn (svDynArgs tau d) n) (svDynArgs_P0 ht d) (fun _ => svDynArgs_Q ht d)
      (contDiff_sv_log_likelihood ys).continuous (continuous_jaxGrad2 (contDiff_sv_log_likelihood ys)) hN _ π)

/-- So the rate asked for by the adaptation, whatever it is below one, is exceeded for all small step sizes. -/
theorem C105_target {K : SvKernel Ex (n + 1) d} {π : Measure (Traj (n + 1) d)} {t : Fin (n + 1)}
    (h : Tendsto (fun δ => acceptProb K (.scalar δ) π t) (𝓝[>] 0) (𝓝 1)) {target : ℝ} (ht : target < 1) :
    ∃ δ₀ > 0, ∀ δ, 0 < δ → δ < δ₀ → target < acceptProb K (.scalar δ) π t := by
  have h1 := h.eventually (lt_mem_nhds ht)
  rw [eventually_nhdsWithin_iff, Metric.eventually_nhds_iff] at h1
  obtain ⟨ε, he, h2⟩ := h1
  exact ⟨ε, he, fun δ h0 h3 => h2 (by rwa [Real.dist_eq, sub_zero, abs_of_pos h0]) h0⟩

/-- The grid of `stochastic_volatility`: 30 proposals of `MALA` in style `auxiliary`, of `TP`, the posterior of the data, a rate of three quarters. -/
example (svd : Mat 30 30 → SvdOut 30) (ys : Traj 250 30) (t : Fin 250) :
    (∃ δ₀ > 0, ∀ δ, 0 < δ → δ < δ₀ → 0.75 < acceptProb (vgSv (sv_mala_kernel (m := Ex) ys (svDynArgs 10 30) 30 true)
      (tp_init (svFullLogPdf ys (svDynArgs 10 30)) (jaxGrad2 (svFullLogPdf ys (svDynArgs 10 30))))) (.scalar δ) (svPosterior .MALA 10 ys) t) ∧
    ∃ δ₀ > 0, ∀ δ, 0 < δ → δ < δ₀ → 0.75 < acceptProb (vgSv (sv_tp_kernel (m := Ex) ys (svDynArgs 10 30) 30)
      (tp_init (fun xs => sv_log_likelihood xs ys) (jaxGrad2 fun xs => sv_log_likelihood xs ys))) (.scalar δ) (svPosterior .TP 10 ys) t := by
  have := C67_proper (n := 249) (d := 30) .MALA (tau := 10) (by norm_num) ys
  have := C67_proper (n := 249) (d := 30) .TP (tau := 10) (by norm_num) ys
  exact ⟨C105_target (C105_sv (N := 30) (tau := 10) (by norm_num) svd (.inl rfl) "auxiliary" (.name "mean") (fun key w => multinomial key w) (fun key w => barker_move key w) true
      (make := fun ys => vgSv (sv_mala_kernel ys (svDynArgs 10 30) 30 true) _) rfl (by norm_num) ys _ t) (by norm_num),
    C105_target (C105_sv (N := 30) (tau := 10) (by norm_num) svd (.inr rfl) "" (.name "mean") (fun key w => multinomial key w) (fun key w => barker_move key w) true
      (make := fun ys => vgSv (sv_tp_kernel ys (svDynArgs 10 30) 30) _) rfl (by norm_num) ys _ t) (by norm_num)⟩

/-- One observation at two; the chain is at zero, away from it. -/
example (key : Key) : Tendsto (fun δ => flagProb (lg_mala_kernel (n := 0) (d := 1) (fun _ _ => 2) 1 1 false false key
    (tp_init (fun xs => lg_log_pdf xs (fun _ _ => 2) 1) (fun xs => if false then 0 else jaxGrad2 (fun xs => lg_log_pdf xs (fun _ _ => 2) 1) xs) 0) δ))
    (𝓝[>] 0) (𝓝 1) :=
  C105_lgssm_mala (fun _ _ => 2) 1 le_rfl false false key 0

example (key : Key) : Tendsto (fun δ => flagProb (lg_tp_kernel (n := 2) (d := 3) (fun _ _ => 2) 0.5 4 key
    (tp_init (fun xs => lg_log_likelihood xs (fun _ _ => 2)) (jaxGrad2 fun xs => lg_log_likelihood xs (fun _ _ => 2)) fun _ _ => 1) δ))
    (𝓝[>] 0) (𝓝 1) :=
  C105_lgssm_tp (fun _ _ => 2) (by norm_num) (by norm_num) key _

end Verif.Props
