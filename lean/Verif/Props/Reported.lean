import Verif.Lemmas.LagAverages
import Verif.Props.WholeRun

/-!
# C98: the acceptance rates and the auto-correlations that the stochastic volatility experiment reports
-/

open scoped ENNReal
open MeasureTheory ProbabilityTheory

namespace Verif.Props
open Verif Verif.Model Verif.Spec

variable {N N' n d M : ℕ} {resampling : String} {R : Resampling Ex N} {mv : AncestorMove Ex N}
  {svd : Mat d d → SvdOut d} {tau : ℤ} {k : SvType} {style : String} {target_stat : TargetStat} {backward : Bool}
  {make : Traj (n + 1) d → SvKernel Ex (n + 1) d} {K : SvKernel Ex (n + 1) d}

/-- The posterior is not concentrated on one value of a component. -/
theorem svPosterior_var_pos (k : SvType) (ht : 0 < tau) (ys : Traj (n + 1) d) (t : Fin (n + 1)) (i : Fin d) :
    0 < ∫ x, (x t i - ∫ x, x t i ∂svPosterior k tau ys) ^ 2 ∂svPosterior k tau ys := by
  have := C67_proper (n := n) (d := d) k ht ys
  obtain ⟨hl, hZ⟩ := svSampled_mass (n := n) (d := d) k ht ys
  obtain ⟨μ, hμ⟩ : ∃ μ, μ = ∫ x, x t i ∂svPosterior k tau ys := ⟨_, rfl⟩
  rw [← hμ]
  have h1 := svPosterior_int k ht ys t i
  have hi : Integrable (fun x => (x t i - μ) ^ 2) (svPosterior k tau ys) := by
    have h3 : Integrable (fun x => 2 * x t i * μ) (svPosterior k tau ys) := (h1.const_mul 2).mul_const μ
    have h4 := ((svPosterior_sq k ht ys t i).sub h3).add (integrable_const (μ ^ 2))
    refine h4.congr (Filter.Eventually.of_forall fun x => ?_)
    show x t i ^ 2 - 2 * x t i * μ + μ ^ 2 = (x t i - μ) ^ 2
    ring
  rw [integral_pos_iff_support_of_nonneg (fun x => sq_nonneg _) hi]
  have hac : trajVol (n + 1) d ≪ svPosterior k tau ys := ac_lawOf hl hZ.2
  refine pos_iff_ne_zero.mpr fun h0 => ?_
  have h2 := hac h0
  have hopen : IsOpen {x : Traj (n + 1) d | x t i ≠ μ} := isOpen_ne_fun (by fun_prop) continuous_const
  have hne : {x : Traj (n + 1) d | x t i ≠ μ}.Nonempty := ⟨fun _ _ => μ + 1, by simp⟩
  refine (hopen.measure_pos (trajVol (n + 1) d) hne).ne' (measure_mono_null (fun x hx => ?_) h2)
  simp only [Function.mem_support]
  exact pow_ne_zero 2 (sub_ne_zero.mpr hx)

/-- The conditional SMC kernels of the experiment, with frozen step sizes. -/
theorem sv_conv (ht : 0 < tau) {ys : Traj (n + 1) d} (hG : SvGood N' k tau ys K) :
    ∃ adapt, ∃ ker : Key → (Fin (n + 1) → Vec d) → (Fin (n + 1) → Fin (N' + 1)) → (Fin (n + 1) → ℝ) →
        Ex ((Fin (n + 1) → Vec d) × (Fin (n + 1) → Fin (N' + 1))), K = csmcSv adapt ker ∧
      ∀ δ, StepRange δ → ConvOK adapt ker (.perStep δ) (svSampled k tau ys) := by
  obtain ⟨ker, hform, hok⟩ := hG.form
  obtain ⟨hl, hZ⟩ := svSampled_mass k ht ys
  have hp := C67_proper (n := n) (d := d) k ht ys
  have hav := fun δ (hδ : StepRange δ) => (hG.consistent δ hδ).averages.1 (svPosterior k tau ys) hp lawOf_ac
  rcases hform with h | ⟨stat, h⟩
  all_goals
    refine ⟨_, ker, h, fun δ hδ => ⟨hok δ hδ, hl, hZ, hp, ?_⟩⟩
    have := hav δ hδ
    rw [h] at this
    exact this

/-- Probability bounds for runs with frozen step sizes hold for the experiment, whose step sizes are random. -/
theorem sv_runs_le (ht : 0 < tau) (hR : sel_resampling resampling = .ok R) {ys : Traj (n + 1) d} (hG : SvGood N' k tau ys K) (target : ℤ) {delta_init : ℝ}
    (hd : 1e-5 ≤ delta_init ∧ delta_init ≤ 10) (adaptation : ℕ) {ε : ℝ≥0∞}
    (E : StepSize (n + 1) → ∀ n_samples, Run (strideLen n_samples 1) (n + 1) d → ℝ≥0∞) (hE : ∀ δ n_samples, Measurable (E δ n_samples))
    (h : ∀ δ, StepRange δ → ∀ ν : Measure (Traj (n + 1) d), IsProbabilityMeasure ν → ν ≪ svPosterior k tau ys → ∃ n0 : ℕ, ∀ (key : Key) (b n_samples : ℕ),
      n0 ≤ n_samples → ∫⁻ x, K.experiment_all key (K.init x) (fun k s => K.kernel k s (.perStep δ)) (n_samples + b)
        (fun r => E (.perStep δ) n_samples ((runOf _ r).drop b)) ∂ν ≤ ε) :
    ∃ n0 : ℕ, ∀ (data : SvData (n + 1) d), data.ys = ys → ∀ (M burnin n_samples : ℕ) (ki ka kb ks : Key), n0 ≤ n_samples →
      ∀ (ι : Type) [Fintype ι] (j : ι → Fin M) (F : StepSize (n + 1) → (Fin M → Run (strideLen n_samples 1) (n + 1) d) → ℝ≥0∞),
        (∀ δ, Measurable (F δ)) → (∀ δ c, F δ c ≤ ∑ i, E δ n_samples (c (j i))) →
        svRuns ki ka kb ks (svDynArgs tau d) data K R mv (svCfg target) delta_init adaptation burnin n_samples M
          (fun o => F o.1 o.2) ≤ Fintype.card ι * ε := by
  obtain ⟨Q, hQ⟩ := sv_mixture_all ht hR hG target hd adaptation
  obtain ⟨adapt, ker, hform, hok⟩ := sv_conv ht hG
  obtain ⟨hl, hZ⟩ := svSampled_mass (n := n) (d := d) k ht ys
  let _ := Q.fin
  choose n0 hn0 using fun i => h (Q.δ i) (Q.ok i) (Q.μ i) (Q.prob i) ((Q.ac i).trans (ac_lawOf hl hZ.2))
  refine ⟨Finset.univ.sup n0, fun data hdata M burnin n_samples ki ka kb ks hn ι _ j F hF hle => ?_⟩
  rw [hQ data hdata M burnin n_samples ki ka kb ks (fun _ => []) F hF]
  have hs := Q.sum
  have hi : ∀ i, ∫⁻ x, longRuns (fun _ : Fin M => []) K (K.init x) (.perStep (Q.δ i)) burnin n_samples (F (.perStep (Q.δ i))) ∂Q.μ i ≤
      Fintype.card ι * ε := fun i => by
    have h1 := fun _ : ι => hn0 i [] burnin n_samples ((Finset.le_sup (Finset.mem_univ i)).trans hn)
    rw [hform] at h1 ⊢
    refine (csmcSv_longRuns_le (hok _ (Q.ok i)).chains burnin n_samples (fun _ => []) [] j (hF _) (fun _ => hE _ _) (hle _) (Q.μ i)).trans ?_
    refine (Finset.sum_le_sum fun i _ => h1 i).trans (le_of_eq ?_)
    rw [Finset.sum_const, nsmul_eq_mul, Finset.card_univ]
  calc _ ≤ ∑ i, Q.w i * (Fintype.card ι * ε) := Finset.sum_le_sum fun i _ => mul_le_mul_right (hi i) _
    _ = _ := by rw [← Finset.sum_mul, hs, one_mul]

/-- The limits, for every last move that keeps the weights. -/
theorem sv_limits (ht : 0 < tau) {ys : Traj (n + 1) d} (hG : SvGood N' k tau ys K) {δ : Fin (n + 1) → ℝ} (hδ : StepRange δ) :
    (∀ lag, IsLagLaw K (.perStep δ) (svPosterior k tau ys) lag (lagLaw K (.perStep δ) (svPosterior k tau ys) lag)) ∧
    (∀ t i, autoCorr K (.perStep δ) (svPosterior k tau ys) t i 0 = 1) ∧
    ∀ t i lag, |autoCorr K (.perStep δ) (svPosterior k tau ys) t i lag| ≤ 1 := by
  obtain ⟨adapt, ker, hform, hok⟩ := sv_conv ht hG
  have hv := svPosterior_var_pos (n := n) (d := d) k ht ys
  have h := hok δ hδ
  rw [hform]
  have h1 : ∀ lag, IsLagLaw (csmcSv adapt ker) (.perStep δ) (svPosterior k tau ys) lag
      (lagLaw (csmcSv adapt ker) (.perStep δ) (svPosterior k tau ys) lag) := fun lag => by
    obtain ⟨Γ, hΓ, _⟩ := h.lag lag
    have e : lagLaw (csmcSv adapt ker) (.perStep δ) (svPosterior k tau ys) lag = Γ := hΓ.eq
    rw [e]
    exact hΓ
  refine ⟨h1, fun t i => ?_, fun t i lag => ?_⟩
  · unfold autoCorr
    rw [autoCov_zero (h1 0) h.keeps]
    exact div_self (hv t i).ne'
  · unfold autoCorr
    rw [abs_div, abs_of_pos (hv t i), div_le_one (hv t i)]
    obtain ⟨μ, hμ⟩ : ∃ μ, μ = ∫ x, x t i ∂svPosterior k tau ys := ⟨_, rfl⟩
    unfold autoCov
    rw [← hμ]
    have hm : Measurable fun x : Traj (n + 1) d => (x t i - μ) ^ 2 := by fun_prop
    have hi : Integrable (fun x => (x t i - μ) ^ 2) (svPosterior k tau ys) := by
      refine not_imp_comm.mp integral_undef ?_
      rw [hμ]
      exact (hv t i).ne'
    obtain ⟨i1, i2⟩ := (h1 lag).integrable h.keeps hm hi
    obtain ⟨e1, e2⟩ := (h1 lag).integral h.keeps hm
    refine abs_integral_le_integral_abs.trans ?_
    have h3 := integral_mono_of_nonneg (μ := lagLaw (csmcSv adapt ker) (.perStep δ) (svPosterior k tau ys) lag)
      (f := fun p => |(p.1 t i - μ) * (p.2 t i - μ)|) (g := fun p => ((p.1 t i - μ) ^ 2 + (p.2 t i - μ) ^ 2) / 2)
      (Filter.Eventually.of_forall fun p => abs_nonneg _) ((i1.add i2).div_const 2) (Filter.Eventually.of_forall fun p => by
        show |_| ≤ _
        rw [abs_le]
        constructor <;> nlinarith [sq_nonneg (p.1 t i - μ + (p.2 t i - μ)), sq_nonneg (p.1 t i - μ - (p.2 t i - μ))])
    refine h3.trans (le_of_eq ?_)
    rw [integral_div, integral_add i1 i2, e1, e2]
    ring

/-- **C98** (the limits exist): whatever the step sizes, the pairs of samples of a stationary run have a joint law that only depends on the
number of steps between them; the auto-correlations are at most one in absolute value, and one at lag zero. -/
theorem C98_limits (ht : 0 < tau) (hR : sel_resampling resampling = .ok R) (hm : sel_last_step "barker" = .ok mv) (hN : N ≠ 0)
    (hk : k.kernel_maker svd (svDynArgs tau d) style target_stat R mv backward = .ok make) (hstyle : style ≠ "smoothing")
    (hcsmc : k ≠ .TP ∧ k ≠ .MALA) (ys : Traj (n + 1) d) (htp : TpOK svd tau k style ys) {δ : Fin (n + 1) → ℝ} (hδ : StepRange δ) :
    (∀ lag, IsLagLaw (make ys) (.perStep δ) (svPosterior k tau ys) lag (lagLaw (make ys) (.perStep δ) (svPosterior k tau ys) lag)) ∧
    (∀ t i, autoCorr (make ys) (.perStep δ) (svPosterior k tau ys) t i 0 = 1) ∧
    ∀ t i lag, |autoCorr (make ys) (.perStep δ) (svPosterior k tau ys) t i lag| ≤ 1 :=
  sv_limits ht (sv_good (target_stat := target_stat) ht hR (.inl hm) hN hk hstyle hcsmc ys htp) hδ

open Classical in
/-- The reported acceptance rates, for every last move that keeps the weights. -/
theorem sv_acceptance (ht : 0 < tau) (hR : sel_resampling resampling = .ok R) {ys : Traj (n + 1) d} (hG : SvGood N' k tau ys K) (target : ℤ) {delta_init : ℝ}
    (hd : 1e-5 ≤ delta_init ∧ delta_init ≤ 10) (adaptation : ℕ) {η : ℝ} (hη : 0 < η) {ε : ℝ≥0∞} (hε : ε ≠ 0) :
    ∃ n0 : ℕ, ∀ (data : SvData (n + 1) d), data.ys = ys → ∀ (M burnin n_samples : ℕ) (ki ka kb ks : Key) (j : Fin M), n0 ≤ n_samples →
      sv_run ki ka kb ks (svDynArgs tau d) data K R mv (svCfg target) delta_init adaptation burnin n_samples M
        (fun o => if ∃ t, η < |o.final_pct j t - acceptProb K o.adapted_delta (svPosterior k tau ys) t| then 1 else 0) ≤ ε := by
  obtain ⟨adapt, ker, hform, hok⟩ := sv_conv ht hG
  obtain ⟨E, hE⟩ : ∃ E : StepSize (n + 1) → ∀ n_samples, Run (strideLen n_samples 1) (n + 1) d → ℝ≥0∞, E = fun δ n_samples =>
    Set.indicator {r : Run (strideLen n_samples 1) (n + 1) d | ∃ t, η < |(meanA fun k => r.2 k t) - acceptProb K δ (svPosterior k tau ys) t|} 1 := ⟨_, rfl⟩
  have hmean : ∀ n_samples t, Measurable fun r : Run (strideLen n_samples 1) (n + 1) d => meanA fun k => r.2 k t := fun n_samples t => by
    unfold meanA
    fun_prop
  have hEm : ∀ δ n_samples, Measurable (E δ n_samples) := fun δ n_samples => by
    rw [hE]
    refine measurable_one.indicator ?_
    rw [Set.ofPred_exists]
    refine MeasurableSet.iUnion fun t => ?_
    have := hmean n_samples t
    exact measurableSet_lt measurable_const (by fun_prop)
  obtain ⟨n0, h0⟩ := sv_runs_le ht hR hG target hd adaptation (ε := ε) E hEm fun δ hδ ν hν hν' => by
    rw [hE, hform]
    exact RunConv.all (ι := Fin (n + 1)) (hok δ hδ).chains (X := fun t _ r => meanA fun k => r.2 k t) (fun t n_samples => hmean n_samples t)
      (fun t => (hok δ hδ).flag t) ν hν hν' hη hε
  refine ⟨n0, fun data hdata M burnin n_samples ki ka kb ks j hn => ?_⟩
  have h1 := h0 data hdata M burnin n_samples ki ka kb ks hn Unit (fun _ => j) (fun δ c => E δ n_samples (c j))
    (fun δ => (hEm δ n_samples).comp (measurable_pi_apply j)) (fun δ c => by simp)
  rw [Fintype.card_unit, Nat.cast_one, one_mul] at h1
  refine le_trans (le_of_eq ?_) h1
  rw [hE]
  show svRuns ki ka kb ks (svDynArgs tau d) data K R mv (svCfg target) delta_init adaptation burnin n_samples M
    (fun o => if ∃ t, η < |meanA (fun k => (o.2 j).2 k t) * 1 - acceptProb K o.1 (svPosterior k tau ys) t| then 1 else 0) = _
  refine Ex.congr_fun' _ fun o => ?_
  simp only [mul_one, Set.indicator, Set.mem_ofPred_eq, Pi.one_apply]

open Classical in
/-- **C98** (acceptance rates): the acceptance rates that the experiment reports are consistent: with a probability as close to one as
desired, the rates that are reported for a chain are as close as desired, at all times, to the acceptance probabilities of a stationary run
with the step sizes that are reported, if the number of samples is large enough. -/
theorem C98_acceptance (ht : 0 < tau) (hR : sel_resampling resampling = .ok R) (hm : sel_last_step "barker" = .ok mv) (hN : N ≠ 0)
    (hk : k.kernel_maker svd (svDynArgs tau d) style target_stat R mv backward = .ok make) (hstyle : style ≠ "smoothing")
    (hcsmc : k ≠ .TP ∧ k ≠ .MALA) (ys : Traj (n + 1) d) (htp : TpOK svd tau k style ys) (target : ℤ) {delta_init : ℝ}
    (hd : 1e-5 ≤ delta_init ∧ delta_init ≤ 10) (adaptation : ℕ) {η : ℝ} (hη : 0 < η) {ε : ℝ≥0∞} (hε : ε ≠ 0) :
    ∃ n0 : ℕ, ∀ (data : SvData (n + 1) d), data.ys = ys → ∀ (M burnin n_samples : ℕ) (ki ka kb ks : Key) (j : Fin M), n0 ≤ n_samples →
      sv_run ki ka kb ks (svDynArgs tau d) data (make ys) R mv (svCfg target) delta_init adaptation burnin n_samples M
        (fun o => if ∃ t, η < |o.final_pct j t - acceptProb (make ys) o.adapted_delta (svPosterior k tau ys) t| then 1 else 0) ≤ ε :=
  sv_acceptance ht hR (sv_good (target_stat := target_stat) ht hR (.inl hm) hN hk hstyle hcsmc ys htp) target hd adaptation hη hε

open Classical in
/-- The reported auto-correlations, for every last move that keeps the weights. -/
theorem sv_acf (ht : 0 < tau) (hR : sel_resampling resampling = .ok R) {ys : Traj (n + 1) d} (hG : SvGood N' k tau ys K) (target : ℤ) {delta_init : ℝ}
    (hd : 1e-5 ≤ delta_init ∧ delta_init ≤ 10) (adaptation : ℕ) (hM : M ≠ 0) (n_lags : ℕ) {η : ℝ} (hη : 0 < η) {ε : ℝ≥0∞} (hε : ε ≠ 0) :
    ∃ n0 : ℕ, ∀ (data : SvData (n + 1) d), data.ys = ys → ∀ (burnin L : ℕ) (ki ka kb ks : Key), n0 ≤ L →
      svRuns ki ka kb ks (svDynArgs tau d) data K R mv (svCfg target) delta_init adaptation burnin (L + 1) M
        (fun o => if ∃ (lag : Fin (n_lags + 1)) (t : Fin (n + 1)) (i : Fin d),
          η < |samples_acf (fun (l : Fin (L + 1)) j => (o.2 j).1 ⟨l, by simp only [strideLen]; omega⟩ t i) lag - autoCorr K o.1 (svPosterior k tau ys) t i lag|
          then 1 else 0) ≤ ε := by
  obtain ⟨adapt, ker, hform, hok⟩ := sv_conv ht hG
  obtain ⟨X, hX⟩ : ∃ X : Fin (n_lags + 1) × Fin (n + 1) × Fin d → ∀ n_samples, Run (strideLen n_samples 1) (n + 1) d → ℝ, X = fun c n_samples r =>
    tfp_auto_corr (series r c.2.1 c.2.2 (n_samples - 1)) c.1 := ⟨_, rfl⟩
  have hXm : ∀ c n_samples, Measurable (X c n_samples) := fun c n_samples => by
    rw [hX]
    have hs : Measurable fun r : Run (strideLen n_samples 1) (n + 1) d => series r c.2.1 c.2.2 (n_samples - 1) :=
      measurable_pi_lambda _ fun j => measurable_series _ _ _ j
    exact ((measurable_tfp_auto_cov _).comp hs).div ((measurable_tfp_auto_cov _).comp hs)
  obtain ⟨E, hE⟩ : ∃ E : StepSize (n + 1) → ∀ n_samples, Run (strideLen n_samples 1) (n + 1) d → ℝ≥0∞, E = fun δ n_samples =>
    Set.indicator {r : Run (strideLen n_samples 1) (n + 1) d | ∃ c, η < |X c n_samples r - autoCorr K δ (svPosterior k tau ys) c.2.1 c.2.2 c.1|} 1 := ⟨_, rfl⟩
  have hEm : ∀ δ n_samples, Measurable (E δ n_samples) := fun δ n_samples => by
    rw [hE]
    refine measurable_one.indicator ?_
    rw [Set.ofPred_exists]
    refine MeasurableSet.iUnion fun c => ?_
    have := hXm c n_samples
    exact measurableSet_lt measurable_const (by fun_prop)
  have hM' : (M : ℝ≥0∞) ≠ 0 := Nat.cast_ne_zero.mpr hM
  have hε' : ε / M ≠ 0 := (ENNReal.div_pos hε (ENNReal.natCast_ne_top _)).ne'
  obtain ⟨n0, h0⟩ := sv_runs_le ht hR hG target hd adaptation (ε := ε / M) E hEm fun δ hδ ν hν hν' => by
    rw [hE, hform]
    refine RunConv.all (ι := Fin (n_lags + 1) × Fin (n + 1) × Fin d) (hok δ hδ).chains (X := X) hXm (fun c => ?_) ν hν hν' hη hε'
    rw [hX]
    exact (hok δ hδ).corr c.1 (svPosterior_int k ht ys _ _) (svPosterior_sq k ht ys _ _) (svPosterior_var_pos k ht ys _ _).ne'
  refine ⟨n0, fun data hdata burnin L ki ka kb ks hn => ?_⟩
  have hs : strideLen (L + 1) 1 = L + 1 := by simp [strideLen]
  have hser : ∀ (r : Run (strideLen (L + 1) 1) (n + 1) d) t i, (fun l : Fin (L + 1) => r.1 ⟨l, by simp only [strideLen]; omega⟩ t i) = series r t i L := fun r t i =>
    funext fun l => by
      unfold series
      rw [dif_pos (l.2.trans_eq hs.symm)]
  obtain ⟨F, hF⟩ : ∃ F : StepSize (n + 1) → (Fin M → Run (strideLen (L + 1) 1) (n + 1) d) → ℝ≥0∞, F = fun δ c =>
    Set.indicator {c : Fin M → Run (strideLen (L + 1) 1) (n + 1) d | ∃ p : Fin (n_lags + 1) × Fin (n + 1) × Fin d,
      η < |(meanA fun j => X p (L + 1) (c j)) - autoCorr K δ (svPosterior k tau ys) p.2.1 p.2.2 p.1|} 1 c := ⟨_, rfl⟩
  have hFm : ∀ δ, Measurable (F δ) := fun δ => by
    rw [hF]
    refine measurable_one.indicator ?_
    rw [Set.ofPred_exists]
    refine MeasurableSet.iUnion fun p => ?_
    have h1 : Measurable fun c : Fin M → Run (strideLen (L + 1) 1) (n + 1) d => meanA fun j => X p (L + 1) (c j) := by
      unfold meanA
      have := fun j : Fin M => (hXm p (L + 1)).comp (measurable_pi_apply (X := fun _ : Fin M => Run (strideLen (L + 1) 1) (n + 1) d) j)
      exact (Finset.measurable_sum _ fun j _ => this j).div_const _
    exact measurableSet_lt measurable_const (by fun_prop)
  have h1 := h0 data hdata M burnin (L + 1) ki ka kb ks (hn.trans (Nat.le_succ L)) (Fin M) id F hFm fun δ c => by
    rw [hF]
    dsimp only
    by_cases hc : c ∈ {c : Fin M → Run (strideLen (L + 1) 1) (n + 1) d | ∃ p : Fin (n_lags + 1) × Fin (n + 1) × Fin d,
        η < |(meanA fun j => X p (L + 1) (c j)) - autoCorr K δ (svPosterior k tau ys) p.2.1 p.2.2 p.1|}
    · rw [Set.indicator_of_mem hc]
      obtain ⟨p, hp⟩ := hc
      obtain ⟨j, hj⟩ : ∃ j, η < |X p (L + 1) (c j) - autoCorr K δ (svPosterior k tau ys) p.2.1 p.2.2 p.1| := by
        by_contra hcon
        push Not at hcon
        refine absurd hp (not_lt.mpr ?_)
        have hMr : (M : ℝ) ≠ 0 := Nat.cast_ne_zero.mpr hM
        have e : (meanA fun j => X p (L + 1) (c j)) - autoCorr K δ (svPosterior k tau ys) p.2.1 p.2.2 p.1 =
            (∑ j, (X p (L + 1) (c j) - autoCorr K δ (svPosterior k tau ys) p.2.1 p.2.2 p.1)) / M := by
          unfold meanA
          rw [Finset.sum_sub_distrib, Finset.sum_const, Finset.card_univ, Fintype.card_fin, nsmul_eq_mul]
          field_simp
        rw [e, abs_div, Nat.abs_cast, div_le_iff₀ (by positivity)]
        refine (Finset.abs_sum_le_sum_abs _ _).trans ((Finset.sum_le_sum fun j _ => hcon j).trans (le_of_eq ?_))
        rw [Finset.sum_const, Finset.card_univ, Fintype.card_fin, nsmul_eq_mul, mul_comm]
      refine le_trans (le_of_eq ?_) (Finset.single_le_sum (f := fun j => E δ (L + 1) (c (id j))) (fun _ _ => zero_le) (Finset.mem_univ j))
      rw [hE]
      exact (Set.indicator_of_mem (show c j ∈ {r : Run (strideLen (L + 1) 1) (n + 1) d | 
        ∃ p, η < |X p (L + 1) r - autoCorr K δ (svPosterior k tau ys) p.2.1 p.2.2 p.1|} from ⟨p, hj⟩)
        (1 : Run (strideLen (L + 1) 1) (n + 1) d → ℝ≥0∞)).symm
    · rw [Set.indicator_of_notMem hc]
      exact zero_le
  rw [Fintype.card_fin, ENNReal.mul_div_cancel hM' (ENNReal.natCast_ne_top _)] at h1
  refine le_trans (le_of_eq ?_) h1
  refine Ex.congr_fun' _ fun o => ?_
  rw [hF, hX]
  simp only [Set.indicator, Set.mem_ofPred_eq, Pi.one_apply, samples_acf, hser, Prod.exists]
  rfl

open Classical in
/-- **C98** (auto-correlations): the auto-correlations that the experiment reports (averages over the chains, at the lags `0` to `n_lags`) are
consistent: with a probability as close to one as desired, all of them are as close as desired to the auto-correlations of a stationary run
with the step sizes that are reported, if the number of samples is large enough. -/
theorem C98_acf (ht : 0 < tau) (hR : sel_resampling resampling = .ok R) (hm : sel_last_step "barker" = .ok mv) (hN : N ≠ 0)
    (hk : k.kernel_maker svd (svDynArgs tau d) style target_stat R mv backward = .ok make) (hstyle : style ≠ "smoothing")
    (hcsmc : k ≠ .TP ∧ k ≠ .MALA) (ys : Traj (n + 1) d) (htp : TpOK svd tau k style ys) (target : ℤ) {delta_init : ℝ}
    (hd : 1e-5 ≤ delta_init ∧ delta_init ≤ 10) (adaptation : ℕ) (hM : M ≠ 0) (n_lags : ℕ) {η : ℝ} (hη : 0 < η) {ε : ℝ≥0∞} (hε : ε ≠ 0) :
    ∃ n0 : ℕ, ∀ (data : SvData (n + 1) d), data.ys = ys → ∀ (burnin L : ℕ) (ki ka kb ks : Key), n0 ≤ L →
      svRuns ki ka kb ks (svDynArgs tau d) data (make ys) R mv (svCfg target) delta_init adaptation burnin (L + 1) M
        (fun o => if ∃ (lag : Fin (n_lags + 1)) (t : Fin (n + 1)) (i : Fin d),
          η < |samples_acf (fun (l : Fin (L + 1)) j => (o.2 j).1 ⟨l, by simp only [strideLen]; omega⟩ t i) lag - autoCorr (make ys) o.1 (svPosterior k tau ys) t i lag|
          then 1 else 0) ≤ ε :=
  sv_acf ht hR (sv_good (target_stat := target_stat) ht hR (.inl hm) hN hk hstyle hcsmc ys htp) target hd adaptation hM n_lags hη hε

/-- The script's own options for `TP_CSMC` and style `twisted` (`killing`, 32 particles, two dimensions, ten observations, 100 adaptation
steps, step size 0.01), with the Barker move: with probability 0.99, all the acceptance rates of the first of four chains are right to the
third digit, if there are enough samples. -/
example (ys : Traj 10 2) : ∃ R mv make, sel_resampling (N := 31) (m := Ex) "killing" = .ok R ∧ sel_last_step (N := 31) (m := Ex) "barker" = .ok mv ∧
    SvType.kernel_maker (n := 9) (diagSvd 2) .TP_CSMC (svDynArgs 10 2) "twisted" (.level 0.5) R mv true = .ok make ∧
    ∃ n0 : ℕ, ∀ data : SvData 10 2, data.ys = ys → ∀ n_samples, n0 ≤ n_samples → ∀ p : SvOut (strideLen n_samples 1) 4 10 2 → Prop,
      (∀ o, p o ↔ ∃ t, 1e-3 < |o.final_pct 0 t - acceptProb (make ys) o.adapted_delta (svPosterior .TP_CSMC 10 ys) t|) → ∀ [DecidablePred p],
      sv_run [1] [2] [3] [4] (svDynArgs 10 2) data (make ys) R mv (svCfg 75) 0.01 100 50 n_samples 4 (fun o => if p o then 1 else 0) ≤ 1 / 100 := by
  obtain ⟨R, hR⟩ : ∃ R, sel_resampling (N := 31) (m := Ex) "killing" = .ok R := ⟨_, rfl⟩
  obtain ⟨mv, hm⟩ : ∃ mv, sel_last_step (N := 31) (m := Ex) "barker" = .ok mv := ⟨_, rfl⟩
  refine ⟨R, mv, _, hR, hm, rfl, ?_⟩
  obtain ⟨n0, h0⟩ := C98_acceptance (n := 9) (k := .TP_CSMC) (tau := 10) (svd := diagSvd 2) (style := "twisted") (target_stat := .level 0.5)
    (backward := true) (N := 31) (by norm_num) hR hm (by norm_num) rfl (by decide) (by decide) ys
    (fun _ => ⟨by decide, fun h => absurd h (by decide)⟩) 75 (delta_init := 0.01) (by norm_num) 100 (η := 1e-3) (by norm_num) (ε := 1 / 100) (by simp)
  refine ⟨n0, fun data hdata n_samples hn p hp _ => ?_⟩
  refine le_trans (le_of_eq ?_) (h0 data hdata 4 50 n_samples [1] [2] [3] [4] 0 hn)
  refine Ex.congr_fun' _ fun o => ?_
  simp only [hp o]

/-- The same options: the auto-correlations at the lags 0 to 1000 of the script. -/
example (ys : Traj 10 2) : ∃ R mv make, sel_resampling (N := 31) (m := Ex) "killing" = .ok R ∧ sel_last_step (N := 31) (m := Ex) "barker" = .ok mv ∧
    SvType.kernel_maker (n := 9) (diagSvd 2) .TP_CSMC (svDynArgs 10 2) "twisted" (.level 0.5) R mv true = .ok make ∧
    ∃ n0 : ℕ, ∀ data : SvData 10 2, data.ys = ys → ∀ L, n0 ≤ L → ∀ p : StepSize 10 × (Fin 4 → Run (strideLen (L + 1) 1) 10 2) → Prop,
      (∀ o, p o ↔ ∃ (lag : Fin 1001) (t : Fin 10) (i : Fin 2), 1e-3 < |samples_acf (fun (l : Fin (L + 1)) j =>
        (o.2 j).1 ⟨l, by simp only [strideLen]; omega⟩ t i) lag - autoCorr (make ys) o.1 (svPosterior .TP_CSMC 10 ys) t i lag|) → ∀ [DecidablePred p],
      svRuns [1] [2] [3] [4] (svDynArgs 10 2) data (make ys) R mv (svCfg 75) 0.01 100 50 (L + 1) 4 (fun o => if p o then 1 else 0) ≤ 1 / 100 := by
  obtain ⟨R, hR⟩ : ∃ R, sel_resampling (N := 31) (m := Ex) "killing" = .ok R := ⟨_, rfl⟩
  obtain ⟨mv, hm⟩ : ∃ mv, sel_last_step (N := 31) (m := Ex) "barker" = .ok mv := ⟨_, rfl⟩
  refine ⟨R, mv, _, hR, hm, rfl, ?_⟩
  obtain ⟨n0, h0⟩ := C98_acf (n := 9) (M := 4) (k := .TP_CSMC) (tau := 10) (svd := diagSvd 2) (style := "twisted") (target_stat := .level 0.5)
    (backward := true) (N := 31) (by norm_num) hR hm (by norm_num) rfl (by decide) (by decide) ys
    (fun _ => ⟨by decide, fun h => absurd h (by decide)⟩) 75 (delta_init := 0.01) (by norm_num) 100 (by norm_num) 1000 (η := 1e-3) (by norm_num)
    (ε := 1 / 100) (by simp)
  refine ⟨n0, fun data hdata L hn p hp _ => ?_⟩
  refine le_trans (le_of_eq ?_) (h0 data hdata 50 L [1] [2] [3] [4] hn)
  refine Ex.congr_fun' _ fun o => ?_
  simp only [hp o]

end Verif.Props
