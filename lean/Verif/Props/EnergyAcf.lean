import Verif.Lemmas.EnergyAcf
import Verif.Lemmas.EnergyMoments
import Verif.Props.OneTrajRun

/-!
# C102: the auto-correlations of the energies that `results_analysis.py` draws

`one_experiment` returns the energies of the samples (`log_pdf` of the model, with the two matrices that `get_data` returns, which need not be
the right ones), and `results_analysis.py` estimates their auto-correlations from all the chains.
-/

open scoped ENNReal
open MeasureTheory ProbabilityTheory

namespace Verif.Props
open Verif Verif.Model Verif.Spec

variable {N N' n d M : ℕ} {resampling : String} {R : Resampling Ex N} {mv : AncestorMove Ex N}
  {svd : Mat d d → SvdOut d} {tau : ℤ} {k : SvType} {style : String} {target_stat : TargetStat} {backward : Bool}
  {make make' : Traj (n + 1) d → SvKernel Ex (n + 1) d} {K : SvKernel Ex (n + 1) d}

/-- The energy of a sample, as `one_experiment` computes it. -/
noncomputable def energyOf (tau : ℤ) (ys : Traj (n + 1) d) (A B : Mat d d) (x : Traj (n + 1) d) : ℝ :=
  sv_log_pdf x ys (svDynArgs tau d).m0 A (svDynArgs tau d).F B (svDynArgs tau d).b

/-- **C102** (moments): whatever the two matrices, all the powers of the energy have a mean under the law that a kernel of the experiment
samples from, and the energy is not constant. -/
theorem C102_moments (k : SvType) (ht : 0 < tau) (hd : d ≠ 0) (ys : Traj (n + 1) d) (A B : Mat d d) :
    (∀ p : ℕ, Integrable (fun x => |energyOf tau ys A B x| ^ p) (svPosterior k tau ys)) ∧
    0 < ∫ x, (energyOf tau ys A B x - ∫ x, energyOf tau ys A B x ∂svPosterior k tau ys) ^ 2 ∂svPosterior k tau ys :=
  ⟨(allInt_energy k ht ys ys _ A _ B _).pow, energy_var_pos k ht hd ys ys _ A _ B _⟩

example (ys : Traj 128 30) (A B : Mat 30 30) := C102_moments (tau := 10) .MALA (by norm_num) (by norm_num) ys A B

theorem measurable_cross {L : ℕ} (lag : ℕ) : Measurable fun s : Fin (L + 1) → Fin M → ℝ => cross_chains_autocorr s lag := by
  have h : ∀ lag', Measurable fun s : Fin (L + 1) → Fin M → ℝ => meanA fun i => tfp_auto_cov (fun k => s k i) lag' := fun lag' =>
    have h1 : ∀ i : Fin M, Measurable fun (s : Fin (L + 1) → Fin M → ℝ) (k : Fin (L + 1)) => s k i := fun i => by fun_prop
    have h2 : ∀ i : Fin M, Measurable fun s : Fin (L + 1) → Fin M → ℝ => tfp_auto_cov (fun k => s k i) lag' := fun i => (measurable_tfp_auto_cov lag').comp (h1 i)
    (Finset.measurable_sum Finset.univ fun i _ => h2 i).div_const _
  have h2 : Measurable fun s : Fin (L + 1) → Fin M → ℝ => tfp_variance fun i => meanA fun k => s k i := by
    unfold tfp_variance meanA
    fun_prop
  unfold cross_chains_autocorr approx_variance
  exact measurable_const.sub (((h 0).sub (h lag)).div ((h 0).add h2))

theorem measurableSet_acfOff (π : Measure (Traj (n + 1) d)) {f : Traj (n + 1) d → ℝ} (hf : Measurable f) (n_lags : ℕ) (η : ℝ) (δ : StepSize (n + 1)) (L : ℕ) :
    MeasurableSet {c : Fin M → Run (strideLen (L + 1) 1) (n + 1) d | AcfOff K π f n_lags η δ fun l j => f ((c j).1 l)} := by
  unfold AcfOff
  rw [Set.ofPred_exists]
  refine MeasurableSet.iUnion fun lag => ?_
  have h1 : Measurable fun (c : Fin M → Run (strideLen (L + 1) 1) (n + 1) d) (l : Fin (L + 1)) (j : Fin M) =>
      f ((c j).1 ⟨l, by simp only [strideLen]; omega⟩) := measurable_pi_lambda _ fun l => measurable_pi_lambda _ fun j => by fun_prop
  have h2 := (measurable_cross (M := M) (L := L) lag).comp h1
  exact measurableSet_lt measurable_const ((h2.sub measurable_const).abs)

open Classical in
/-- Auto-correlations that are estimated from all the chains, for a function of the samples and every last move that keeps the weights. -/
theorem sv_cross_acf (ht : 0 < tau) (hR : sel_resampling resampling = .ok R) {ys : Traj (n + 1) d} (hG : SvGood N' k tau ys K) (target : ℤ) {delta_init : ℝ}
    (hd : 1e-5 ≤ delta_init ∧ delta_init ≤ 10) (adaptation : ℕ) (hM : M ≠ 0) (n_lags : ℕ) {f : Traj (n + 1) d → ℝ} (hf : Measurable f)
    (hi : Integrable f (svPosterior k tau ys)) (hi2 : Integrable (fun x => f x ^ 2) (svPosterior k tau ys))
    (hv : ∫ x, (f x - ∫ x, f x ∂svPosterior k tau ys) ^ 2 ∂svPosterior k tau ys ≠ 0) {η : ℝ} (hη : 0 < η) {ε : ℝ≥0∞} (hε : ε ≠ 0) :
    ∃ n0 : ℕ, ∀ (data : SvData (n + 1) d), data.ys = ys → ∀ (burnin L : ℕ) (ki ka kb ks : Key), n0 ≤ L →
      svRuns ki ka kb ks (svDynArgs tau d) data K R mv (svCfg target) delta_init adaptation burnin (L + 1) M
        (fun o => if AcfOff K (svPosterior k tau ys) f n_lags η o.1 fun l j => f ((o.2 j).1 l) then 1 else 0) ≤ ε := by
  obtain ⟨adapt, ker, hform, hok⟩ := sv_conv ht hG
  obtain ⟨X, hX⟩ : ∃ X : Option (Option (Fin (n_lags + 1))) → ∀ n_samples, Run (strideLen n_samples 1) (n + 1) d → ℝ, X = fun c n_samples r =>
    match c with
    | none => sampleMean f r.1
    | some none => tfp_auto_cov (seriesOf f r (n_samples - 1)) 0
    | some (some lag) => tfp_auto_cov (seriesOf f r (n_samples - 1)) lag := ⟨_, rfl⟩
  obtain ⟨x, hx⟩ : ∃ x : StepSize (n + 1) → Option (Option (Fin (n_lags + 1))) → ℝ, x = fun δ c =>
    match c with
    | none => ∫ x, f x ∂svPosterior k tau ys
    | some none => ∫ x, (f x - ∫ x, f x ∂svPosterior k tau ys) ^ 2 ∂svPosterior k tau ys
    | some (some lag) => autoCovOf K δ (svPosterior k tau ys) f lag := ⟨_, rfl⟩
  have hcov : ∀ n_samples lag, Measurable fun r : Run (strideLen n_samples 1) (n + 1) d => tfp_auto_cov (seriesOf f r (n_samples - 1)) lag := fun n_samples lag =>
    (measurable_tfp_auto_cov lag).comp (measurable_pi_lambda _ fun j => measurable_seriesOf hf _ j)
  have hXm : ∀ c n_samples, Measurable (X c n_samples) := fun c n_samples => by
    rw [hX]
    rcases c with _ | _ | lag
    · show Measurable fun r : Run (strideLen n_samples 1) (n + 1) d => sampleMean f r.1
      unfold sampleMean
      fun_prop
    · exact hcov _ _
    · exact hcov _ _
  -- how near the chains have to be
  have hξ : ∀ δ, ∃ ξ, 0 < ξ ∧ ∀ (lag : Fin (n_lags + 1)) (L : ℕ) (s : Fin (L + 1) → Fin M → ℝ), (∀ j, |tfp_auto_cov (fun k => s k j) 0 - x δ (some none)| ≤ ξ) →
      (∀ j, |tfp_auto_cov (fun k => s k j) lag - x δ (some (some lag))| ≤ ξ) → (∀ j, |meanA (fun k => s k j) - x δ none| ≤ ξ) →
      |cross_chains_autocorr s lag - autoCorrOf K δ (svPosterior k tau ys) f lag| ≤ η := fun δ => by
    choose ξ hξ0 hξ using fun lag : Fin (n_lags + 1) => cross_near hM hv (autoCovOf K δ (svPosterior k tau ys) f lag) (∫ x, f x ∂svPosterior k tau ys) hη
    refine ⟨Finset.univ.inf' Finset.univ_nonempty ξ, (Finset.lt_inf'_iff _).mpr fun lag _ => hξ0 lag, fun lag L s h0 h1 h2 => ?_⟩
    have hle := Finset.inf'_le ξ (Finset.mem_univ lag)
    rw [hx] at h0 h1 h2
    exact hξ lag L lag s (fun j => (h0 j).trans hle) (fun j => (h1 j).trans hle) fun j => (h2 j).trans hle
  choose ξ hξ0 hξ using hξ
  obtain ⟨E, hE⟩ : ∃ E : StepSize (n + 1) → ∀ n_samples, Run (strideLen n_samples 1) (n + 1) d → ℝ≥0∞, E = fun δ n_samples =>
    Set.indicator {r : Run (strideLen n_samples 1) (n + 1) d | ∃ c, ξ δ < |X c n_samples r - x δ c|} 1 := ⟨_, rfl⟩
  have hEm : ∀ δ n_samples, Measurable (E δ n_samples) := fun δ n_samples => by
    rw [hE]
    refine measurable_one.indicator ?_
    rw [Set.ofPred_exists]
    refine MeasurableSet.iUnion fun c => ?_
    have := hXm c n_samples
    exact measurableSet_lt measurable_const (by fun_prop)
  have hM' : (M : ℝ≥0∞) ≠ 0 := Nat.cast_ne_zero.mpr hM
  have hε' : ε / M ≠ 0 := (ENNReal.div_pos hε (ENNReal.natCast_ne_top _)).ne'
  obtain ⟨n0, h0⟩ := sv_runs_le ht hR hG target hd adaptation (ε := ε / M) E hEm fun δ hδ ν hν hν' => by
    have hc := hok δ hδ
    rw [hE]
    dsimp only
    have hconv : ∀ c, RunConv (csmcSv adapt ker) (.perStep δ) (svPosterior k tau ys) (X c) (x (.perStep δ) c) := by
      rw [hX, hx]
      rintro (_ | _ | lag)
      · exact hc.mean hf hi
      · obtain ⟨Γ, hΓ, _⟩ := hc.lag 0
        have h1 := hc.covOf 0 hf hi hi2
        rw [autoCovOf_zero hΓ hc.keeps hf] at h1
        exact h1
      · rw [hform]
        exact hc.covOf lag hf hi hi2
    have h1 := RunConv.all (ι := Option (Option (Fin (n_lags + 1)))) hc.chains (X := X) hXm hconv ν hν hν' (hξ0 (.perStep δ)) hε'
    rw [hform]
    exact h1
  refine ⟨n0, fun data hdata burnin L ki ka kb ks hn => ?_⟩
  have hs : strideLen (L + 1) 1 = L + 1 := by simp [strideLen]
  have hser : ∀ r : Run (strideLen (L + 1) 1) (n + 1) d, (fun l : Fin (L + 1) => f (r.1 ⟨l, by simp only [strideLen]; omega⟩)) = seriesOf f r L := fun r =>
    funext fun l => by
      unfold seriesOf
      rw [dif_pos (l.2.trans_eq hs.symm)]
  have h1 := h0 data hdata M burnin (L + 1) ki ka kb ks (hn.trans (Nat.le_succ L)) (Fin M) id
    (fun δ => Set.indicator {c : Fin M → Run (strideLen (L + 1) 1) (n + 1) d | AcfOff K (svPosterior k tau ys) f n_lags η δ fun l j => f ((c j).1 l)} 1)
    (fun δ => measurable_one.indicator (measurableSet_acfOff _ hf _ _ _ _)) fun δ c => by
      by_cases hc : c ∈ {c : Fin M → Run (strideLen (L + 1) 1) (n + 1) d | AcfOff K (svPosterior k tau ys) f n_lags η δ fun l j => f ((c j).1 l)}
      · rw [Set.indicator_of_mem hc]
        obtain ⟨lag, hlag⟩ := hc
        obtain ⟨j, hj⟩ : ∃ j, ∃ e, ξ δ < |X e (L + 1) (c j) - x δ e| := by
          by_contra hcon
          push Not at hcon
          refine absurd (hξ δ lag L (fun l j => f ((c j).1 ⟨l, by simp only [strideLen]; omega⟩)) (fun j => ?_) (fun j => ?_) fun j => ?_) (not_le.mpr hlag)
          · have h := hcon j (some none)
            rw [hX] at h
            rw [hser]
            exact h
          · have h := hcon j (some (some lag))
            rw [hX] at h
            rw [hser]
            exact h
          · have h := hcon j none
            rw [hX] at h
            rw [hser, meanA_seriesOf]
            exact h
        refine le_trans (le_of_eq ?_) (Finset.single_le_sum (f := fun j => E δ (L + 1) (c (id j))) (fun _ _ => zero_le) (Finset.mem_univ j))
        rw [hE]
        exact (Set.indicator_of_mem (show c j ∈ {r : Run (strideLen (L + 1) 1) (n + 1) d | ∃ e, ξ δ < |X e (L + 1) r - x δ e|} from hj)
          (1 : Run (strideLen (L + 1) 1) (n + 1) d → ℝ≥0∞)).symm
      · rw [Set.indicator_of_notMem hc]
        exact zero_le
  rw [Fintype.card_fin, ENNReal.mul_div_cancel hM' (ENNReal.natCast_ne_top _)] at h1
  refine le_trans (le_of_eq ?_) h1
  refine Ex.congr_fun' _ fun o => ?_
  simp only [Set.indicator, Set.mem_ofPred_eq, Pi.one_apply]

/-- The limits, for a function of the samples and every last move that keeps the weights. -/
theorem sv_limitsOf (ht : 0 < tau) {ys : Traj (n + 1) d} (hG : SvGood N' k tau ys K) {f : Traj (n + 1) d → ℝ} (hf : Measurable f)
    (hv : ∫ x, (f x - ∫ x, f x ∂svPosterior k tau ys) ^ 2 ∂svPosterior k tau ys ≠ 0) {δ : Fin (n + 1) → ℝ} (hδ : StepRange δ) :
    autoCorrOf K (.perStep δ) (svPosterior k tau ys) f 0 = 1 ∧ ∀ lag, |autoCorrOf K (.perStep δ) (svPosterior k tau ys) f lag| ≤ 1 := by
  obtain ⟨adapt, ker, hform, hok⟩ := sv_conv ht hG
  have h := hok δ hδ
  have h1 := (sv_limits ht hG hδ).1
  rw [hform] at h1 ⊢
  obtain ⟨μ, hμ⟩ : ∃ μ, μ = ∫ x, f x ∂svPosterior k tau ys := ⟨_, rfl⟩
  have hv' : 0 < ∫ x, (f x - ∫ x, f x ∂svPosterior k tau ys) ^ 2 ∂svPosterior k tau ys :=
    lt_of_le_of_ne (integral_nonneg fun x => sq_nonneg _) hv.symm
  refine ⟨?_, fun lag => ?_⟩
  · unfold autoCorrOf
    rw [autoCovOf_zero (h1 0) h.keeps hf]
    exact div_self hv
  · unfold autoCorrOf
    rw [abs_div, abs_of_pos hv', div_le_one hv']
    unfold autoCovOf
    rw [← hμ] at hv ⊢
    have hm : Measurable fun x : Traj (n + 1) d => (f x - μ) ^ 2 := by fun_prop
    have hi : Integrable (fun x => (f x - μ) ^ 2) (svPosterior k tau ys) := not_imp_comm.mp integral_undef hv
    obtain ⟨i1, i2⟩ := (h1 lag).integrable h.keeps hm hi
    obtain ⟨e1, e2⟩ := (h1 lag).integral h.keeps hm
    refine abs_integral_le_integral_abs.trans ?_
    have h3 := integral_mono_of_nonneg (μ := lagLaw (csmcSv adapt ker) (.perStep δ) (svPosterior k tau ys) lag)
      (f := fun p => |(f p.1 - μ) * (f p.2 - μ)|) (g := fun p => ((f p.1 - μ) ^ 2 + (f p.2 - μ) ^ 2) / 2)
      (Filter.Eventually.of_forall fun p => abs_nonneg _) ((i1.add i2).div_const 2) (Filter.Eventually.of_forall fun p => by
        show |_| ≤ _
        rw [abs_le]
        constructor <;> nlinarith [sq_nonneg (f p.1 - μ + (f p.2 - μ)), sq_nonneg (f p.1 - μ - (f p.2 - μ))])
    refine h3.trans (le_of_eq ?_)
    rw [integral_div, integral_add i1 i2, e1, e2]
    ring

/-- **C102** (limits): the auto-correlations of the energies along a stationary run start at one and are at most one in absolute value. -/
theorem C102_limits (ht : 0 < tau) (hR : sel_resampling resampling = .ok R) (hm : sel_last_step "barker" = .ok mv) (hN : N ≠ 0)
    (hk : k.kernel_maker svd (svDynArgs tau d) style target_stat R mv backward = .ok make) (hstyle : style ≠ "smoothing")
    (hcsmc : k ≠ .TP ∧ k ≠ .MALA) (hd0 : d ≠ 0) (ys : Traj (n + 1) d) (htp : TpOK svd tau k style ys) (A B : Mat d d) {δ : Fin (n + 1) → ℝ} (hδ : StepRange δ) :
    autoCorrOf (make ys) (.perStep δ) (svPosterior k tau ys) (energyOf tau ys A B) 0 = 1 ∧
    ∀ lag, |autoCorrOf (make ys) (.perStep δ) (svPosterior k tau ys) (energyOf tau ys A B) lag| ≤ 1 :=
  sv_limitsOf ht (sv_good (target_stat := target_stat) ht hR (.inl hm) hN hk hstyle hcsmc ys htp) (allInt_energy k ht ys ys _ A _ B _).meas
    (C102_moments k ht hd0 ys A B).2.ne' hδ

open Classical in
/-- The energies that are reported, for every last move that keeps the weights. -/
theorem sv_energy_acf (ht : 0 < tau) (hR : sel_resampling resampling = .ok R) {ys : Traj (n + 1) d} (hG : SvGood N' k tau ys K) (target : ℤ) {delta_init : ℝ}
    (hd : 1e-5 ≤ delta_init ∧ delta_init ≤ 10) (adaptation : ℕ) (hM : M ≠ 0) (n_lags : ℕ) (hd0 : d ≠ 0) (A B : Mat d d) {η : ℝ} (hη : 0 < η)
    {ε : ℝ≥0∞} (hε : ε ≠ 0) :
    ∃ n0 : ℕ, ∀ (data : SvData (n + 1) d), data.ys = ys → ∀ (burnin L : ℕ) (ki ka kb ks : Key), n0 ≤ L →
      svRuns ki ka kb ks (svDynArgs tau d) data K R mv (svCfg target) delta_init adaptation burnin (L + 1) M
        (fun o => if AcfOff K (svPosterior k tau ys) (energyOf tau ys A B) n_lags η o.1 fun l j => energyOf tau ys A B ((o.2 j).1 l) then 1 else 0) ≤ ε :=
  have h := allInt_energy k ht ys ys (svDynArgs tau d).m0 A (svDynArgs tau d).F B (svDynArgs tau d).b
  sv_cross_acf ht hR hG target hd adaptation hM n_lags (f := energyOf tau ys A B) h.meas h.integrable h.sq (C102_moments k ht hd0 ys A B).2.ne' hη hε

open Classical in
/-- **C102** (Barker move): with a probability as close to one as desired, all the auto-correlations of the energies that are drawn (at the
lags `0` to `n_lags`, estimated from `M ≥ 2` chains) are as close as desired to those of a stationary run with the step sizes that are reported,
if the number of samples is large enough. -/
theorem C102_barker (ht : 0 < tau) (hR : sel_resampling resampling = .ok R) (hm : sel_last_step "barker" = .ok mv) (hN : N ≠ 0)
    (hk : k.kernel_maker svd (svDynArgs tau d) style target_stat R mv backward = .ok make) (hstyle : style ≠ "smoothing")
    (hcsmc : k ≠ .TP ∧ k ≠ .MALA) (hd0 : d ≠ 0) (ys : Traj (n + 1) d) (htp : TpOK svd tau k style ys) (A B : Mat d d) (target : ℤ) {delta_init : ℝ}
    (hd : 1e-5 ≤ delta_init ∧ delta_init ≤ 10) (adaptation : ℕ) (hM : 2 ≤ M) (n_lags : ℕ) {η : ℝ} (hη : 0 < η) {ε : ℝ≥0∞} (hε : ε ≠ 0) :
    ∃ n0 : ℕ, ∀ (data : SvData (n + 1) d), data.ys = ys → data.inv_chol_P0 = A → data.inv_chol_Q = B → ∀ (burnin L : ℕ) (ki ka kb ks : Key), n0 ≤ L →
      sv_run ki ka kb ks (svDynArgs tau d) data (make ys) R mv (svCfg target) delta_init adaptation burnin (L + 1) M
        (fun o => if AcfOff (make ys) (svPosterior k tau ys) (energyOf tau ys A B) n_lags η o.adapted_delta o.energy then 1 else 0) ≤ ε := by
  obtain ⟨n0, h0⟩ := sv_energy_acf (M := M) (mv := mv) ht hR (sv_good (target_stat := target_stat) ht hR (.inl hm) hN hk hstyle hcsmc ys htp) target hd adaptation
    (by omega) n_lags hd0 A B hη hε
  refine ⟨n0, ?_⟩
  rintro data rfl rfl rfl burnin L ki ka kb ks hn
  exact h0 data rfl burnin L ki ka kb ks hn

open Classical in
/-- **C102** (default move): with the default move, up to `3e-12` for each step of each chain, the same is true, the auto-correlations being those of
a stationary run of the kernel without the guard. -/
theorem C102_default (ht : 0 < tau) (hR : sel_resampling resampling = .ok R) (hm : sel_last_step "forced" = .ok mv) (hN : N ≠ 0)
    (hk : k.kernel_maker svd (svDynArgs tau d) style target_stat R mv backward = .ok make)
    (hk' : k.kernel_maker svd (svDynArgs tau d) style target_stat R exactMove backward = .ok make') (hstyle : style ≠ "smoothing")
    (hcsmc : k ≠ .TP ∧ k ≠ .MALA) (hd0 : d ≠ 0) (ys : Traj (n + 1) d) (htp : TpOK svd tau k style ys) (A B : Mat d d) (target : ℤ) {delta_init : ℝ}
    (hd : 1e-5 ≤ delta_init ∧ delta_init ≤ 10) (adaptation : ℕ) (hM : 2 ≤ M) (n_lags : ℕ) {η : ℝ} (hη : 0 < η) {ε : ℝ≥0∞} (hε : ε ≠ 0) :
    ∃ n0 : ℕ, ∀ (data : SvData (n + 1) d), data.ys = ys → data.inv_chol_P0 = A → data.inv_chol_Q = B → ∀ (burnin L : ℕ) (ki ka kb ks : Key), n0 ≤ L →
      sv_run ki ka kb ks (svDynArgs tau d) data (make ys) R mv (svCfg target) delta_init adaptation burnin (L + 1) M
        (fun o => if AcfOff (make' ys) (svPosterior k tau ys) (energyOf tau ys A B) n_lags η o.adapted_delta o.energy then 1 else 0) ≤
      ε + (adaptation + M * (burnin + (L + 1)) : ℕ) * ENNReal.ofReal 3e-12 := by
  obtain ⟨n0, h0⟩ := sv_energy_acf (M := M) (mv := exactMove) ht hR (sv_good (target_stat := target_stat) ht hR (.inr rfl) hN hk' hstyle hcsmc ys htp) target hd
    adaptation (by omega) n_lags hd0 A B hη hε
  refine ⟨n0, ?_⟩
  rintro data rfl rfl rfl burnin L ki ka kb ks hn
  have h1 := h0 data rfl burnin L ki ka kb ks hn
  have h2 := (C99_compare (target_stat := target_stat) (M := M) ht hR hm hk hk' hstyle hcsmc data.ys htp target hd data rfl adaptation burnin (L + 1) ki ka kb ks).1
    (fun δ c => if AcfOff (make' data.ys) (svPosterior k tau data.ys) (energyOf tau data.ys data.inv_chol_P0 data.inv_chol_Q) n_lags η δ
      fun l j => energyOf tau data.ys data.inv_chol_P0 data.inv_chol_Q ((c j).1 l) then 1 else 0)
    (fun δ => Measurable.ite (measurableSet_acfOff _ (allInt_energy k ht data.ys data.ys _ data.inv_chol_P0 _ data.inv_chol_Q _).meas _ _ _ _)
      measurable_const measurable_const)
    fun _ _ => ite_le_one le_rfl zero_le
  exact h2.1.trans (add_le_add_left h1 _)

theorem _root_.Verif.Embeds.autoCorrOf {ker : Key → VGState (n + 1) d → ℝ → Ex (VGState (n + 1) d × Bool)} {init : Traj (n + 1) d → VGState (n + 1) d}
    {emb : Key → (Fin (n + 1) → Vec d) → (Fin (n + 1) → Fin 2) → (Fin (n + 1) → ℝ) → Ex ((Fin (n + 1) → Vec d) × (Fin (n + 1) → Fin 2))}
    (h : Embeds ker init emb) (δ : ℝ) (π : Measure (Traj (n + 1) d)) (f : Traj (n + 1) d → ℝ) (lag : ℕ) :
    Spec.autoCorrOf (csmcSvPlain emb) (.perStep fun _ => δ) π f lag = Spec.autoCorrOf (vgSv ker init) (.scalar δ) π f lag := by
  unfold Spec.autoCorrOf autoCovOf
  rw [h.lagLaw]

open Classical in
/-- **C102** (`MALA` and `TP`): the same for the kernels that propose whole trajectories, whose last move is always the default one. -/
theorem C102_one (ht : 0 < tau) (hR : sel_resampling resampling = .ok R) (hN : N ≠ 0)
    (hk : k.kernel_maker svd (svDynArgs tau d) style target_stat R mv backward = .ok make) (hone : k = .TP ∨ k = .MALA)
    (hd0 : d ≠ 0) (ys : Traj (n + 1) d) (A B : Mat d d) (target : ℤ) {delta_init : ℝ} (hd : 1e-5 ≤ delta_init ∧ delta_init ≤ 10) (adaptation : ℕ)
    (hM : 2 ≤ M) (n_lags : ℕ) {η : ℝ} (hη : 0 < η) {ε : ℝ≥0∞} (hε : ε ≠ 0) :
    ∃ n0 : ℕ, ∀ (data : SvData (n + 1) d), data.ys = ys → data.inv_chol_P0 = A → data.inv_chol_Q = B → ∀ (burnin L : ℕ) (ki ka kb ks : Key), n0 ≤ L →
      sv_run ki ka kb ks (svDynArgs tau d) data (make ys) R mv (svCfg target) delta_init adaptation burnin (L + 1) M
        (fun o => if AcfOff (svGuardFree k tau N style ys) (svPosterior k tau ys) (energyOf tau ys A B) n_lags η o.adapted_delta o.energy then 1 else 0) ≤
      ε + (adaptation + M * (burnin + (L + 1)) : ℕ) * ENNReal.ofReal 3e-12 := by
  obtain ⟨C, ker, ker', init, _, h2, _, hE', hC⟩ := sv_one_form ht hk hone ys
  obtain ⟨n0, h0⟩ := sv_energy_acf (M := M) (mv := mv) ht hR (sv_one_good ht hN hC) target hd adaptation (by omega) n_lags hd0 A B hη hε
  refine ⟨n0, ?_⟩
  rintro data rfl rfl rfl burnin L ki ka kb ks hn
  have h3 := h0 data rfl burnin L ki ka kb ks hn
  obtain ⟨F, hF⟩ : ∃ F : SvKernel Ex (n + 1) d → StepSize (n + 1) → (Fin M → Run (strideLen (L + 1) 1) (n + 1) d) → ℝ≥0∞, F = fun K δ c =>
    if AcfOff K (svPosterior k tau data.ys) (energyOf tau data.ys data.inv_chol_P0 data.inv_chol_Q) n_lags η δ
      fun l j => energyOf tau data.ys data.inv_chol_P0 data.inv_chol_Q ((c j).1 l) then 1 else 0 := ⟨_, rfl⟩
  have hFm : ∀ K δ, Measurable (F K δ) := fun K δ => by
    rw [hF]
    exact Measurable.ite (measurableSet_acfOff _ (allInt_energy k ht data.ys data.ys _ data.inv_chol_P0 _ data.inv_chol_Q _).meas _ _ _ _)
      measurable_const measurable_const
  have h4 := (C100_compare (target_stat := target_stat) (M := M) ht hR hk hone target hd data adaptation burnin (L + 1) ki ka kb ks).1
    (F (svGuardFree k tau N style data.ys)) (hFm _) fun _ _ => by rw [hF]; exact ite_le_one le_rfl zero_le
  have e := sv_embeds (f := fun δ c => F (svGuardFree k tau N style data.ys) δ c)
    (g := fun δ c => F (csmcSvPlain (C.emb fun _ => liuMove)) δ c) hE' ki ka kb ks (svDynArgs tau d) data R mv (svCfg target) delta_init
    adaptation burnin (L + 1) fun δ c => by
      have e : AcfOff (vgSv ker' init) (svPosterior k tau data.ys) (energyOf tau data.ys data.inv_chol_P0 data.inv_chol_Q) n_lags η (.scalar δ)
            (fun l j => energyOf tau data.ys data.inv_chol_P0 data.inv_chol_Q ((c j).1 l)) =
          AcfOff (csmcSvPlain (C.emb fun _ => liuMove)) (svPosterior k tau data.ys) (energyOf tau data.ys data.inv_chol_P0 data.inv_chol_Q) n_lags η
            (.perStep fun _ => δ) (fun l j => energyOf tau data.ys data.inv_chol_P0 data.inv_chol_Q ((c j).1 l)) := by
        unfold AcfOff
        simp only [hE'.autoCorrOf]
      rw [hF, h2]
      simp only [e]
  rw [← h2] at e
  have h5 := (h4.of_eq rfl e.symm).1
  rw [hF] at h5
  exact h5.trans (add_le_add_left h3 _)

/-- The options with which the script runs if none are given (`MALA`, style `auxiliary`, 32 particles, 128 observations in dimension 30, four
chains), and the lags 0 to 400. -/
example (ys : Traj 128 30) (A B : Mat 30 30) : ∃ R mv make, sel_resampling (N := 31) (m := Ex) "killing" = .ok R ∧
    sel_last_step (N := 31) (m := Ex) "forced" = .ok mv ∧
    SvType.kernel_maker (n := 127) (diagSvd 30) .MALA (svDynArgs 10 30) "auxiliary" (.level 0.5) R mv true = .ok make ∧
    ∃ n0 : ℕ, ∀ data : SvData 128 30, data.ys = ys → data.inv_chol_P0 = A → data.inv_chol_Q = B → ∀ L, n0 ≤ L →
      ∀ p : SvOut (strideLen (L + 1) 1) 4 128 30 → Prop,
      (∀ o, p o ↔ AcfOff (svGuardFree .MALA 10 31 "auxiliary" ys) (svPosterior .MALA 10 ys) (energyOf 10 ys A B) 400 1e-3 o.adapted_delta o.energy) →
      ∀ [DecidablePred p],
      sv_run [1] [2] [3] [4] (svDynArgs 10 30) data (make ys) R mv (svCfg 75) 0.01 10000 5000 (L + 1) 4 (fun o => if p o then 1 else 0) ≤
        1 / 100 + (10000 + 4 * (5000 + (L + 1)) : ℕ) * ENNReal.ofReal 3e-12 := by
  obtain ⟨R, hR⟩ : ∃ R, sel_resampling (N := 31) (m := Ex) "killing" = .ok R := ⟨_, rfl⟩
  obtain ⟨mv, hm⟩ : ∃ mv, sel_last_step (N := 31) (m := Ex) "forced" = .ok mv := ⟨_, rfl⟩
  obtain ⟨make, hk⟩ : ∃ make, SvType.kernel_maker (n := 127) (diagSvd 30) .MALA (svDynArgs 10 30) "auxiliary" (.level 0.5) R mv true = .ok make :=
    ⟨_, by simp only [SvType.kernel_maker, sv_get_mala_kernel]; rw [if_neg (by decide), if_pos trivial]⟩
  refine ⟨R, mv, make, hR, hm, hk, ?_⟩
  obtain ⟨n0, h0⟩ := C102_one (n := 127) (M := 4) (k := .MALA) (tau := 10) (svd := diagSvd 30) (style := "auxiliary") (target_stat := .level 0.5)
    (backward := true) (N := 31) (by norm_num) hR (by norm_num) hk (.inr rfl) (by norm_num) ys A B 75 (delta_init := 0.01) (by norm_num) 10000 (by norm_num) 400
    (η := 1e-3) (by norm_num) (ε := 1 / 100) (by simp)
  refine ⟨n0, fun data h1 h2 h3 L hn p hp _ => ?_⟩
  refine le_trans (le_of_eq ?_) (h0 data h1 h2 h3 5000 L [1] [2] [3] [4] hn)
  refine Ex.congr_fun' _ fun o => ?_
  by_cases h : p o
  · rw [if_pos h, if_pos ((hp o).mp h)]
  · rw [if_neg h, if_neg fun h' => h ((hp o).mpr h')]

/-- The script's options for `TP_CSMC` and style `twisted`, with the Barker move, and the lags 0 to 400. -/
example (ys : Traj 10 2) (A B : Mat 2 2) : ∃ R mv make, sel_resampling (N := 31) (m := Ex) "killing" = .ok R ∧ sel_last_step (N := 31) (m := Ex) "barker" = .ok mv ∧
    SvType.kernel_maker (n := 9) (diagSvd 2) .TP_CSMC (svDynArgs 10 2) "twisted" (.level 0.5) R mv true = .ok make ∧
    ∃ n0 : ℕ, ∀ data : SvData 10 2, data.ys = ys → data.inv_chol_P0 = A → data.inv_chol_Q = B → ∀ L, n0 ≤ L → ∀ p : SvOut (strideLen (L + 1) 1) 4 10 2 → Prop,
      (∀ o, p o ↔ AcfOff (make ys) (svPosterior .TP_CSMC 10 ys) (energyOf 10 ys A B) 400 1e-3 o.adapted_delta o.energy) → ∀ [DecidablePred p],
      sv_run [1] [2] [3] [4] (svDynArgs 10 2) data (make ys) R mv (svCfg 75) 0.01 100 50 (L + 1) 4 (fun o => if p o then 1 else 0) ≤ 1 / 100 := by
  obtain ⟨R, hR⟩ : ∃ R, sel_resampling (N := 31) (m := Ex) "killing" = .ok R := ⟨_, rfl⟩
  obtain ⟨mv, hm⟩ : ∃ mv, sel_last_step (N := 31) (m := Ex) "barker" = .ok mv := ⟨_, rfl⟩
  refine ⟨R, mv, _, hR, hm, rfl, ?_⟩
  obtain ⟨n0, h0⟩ := C102_barker (n := 9) (M := 4) (k := .TP_CSMC) (tau := 10) (svd := diagSvd 2) (style := "twisted") (target_stat := .level 0.5)
    (backward := true) (N := 31) (by norm_num) hR hm (by norm_num) rfl (by decide) (by decide) (by norm_num) ys
    (fun _ => ⟨by decide, fun h => absurd h (by decide)⟩) A B 75 (delta_init := 0.01) (by norm_num) 100 (by norm_num) 400 (η := 1e-3) (by norm_num)
    (ε := 1 / 100) (by simp)
  refine ⟨n0, fun data h1 h2 h3 L hn p hp _ => ?_⟩
  refine le_trans (le_of_eq ?_) (h0 data h1 h2 h3 50 L [1] [2] [3] [4] hn)
  refine Ex.congr_fun' _ fun o => ?_
  by_cases h : p o
  · rw [if_pos h, if_pos ((hp o).mp h)]
  · rw [if_neg h, if_neg fun h' => h ((hp o).mpr h')]

end Verif.Props
