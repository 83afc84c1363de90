import Verif.Lemmas.NearRuns
import Verif.Props.Reported

/-!
# C99: the stochastic volatility experiment with its default last step

The default of the option `--last-step` is `forced`: the move `force_move`, which guards against a division by zero and so does not
quite keep the weights (C08). The experiment is compared with the one whose move has no guard (`exactMove`), step by step.
-/

open scoped ENNReal
open MeasureTheory ProbabilityTheory

namespace Verif.Props
open Verif Verif.Model Verif.Spec

variable {N n d M : ℕ} {resampling : String} {R : Resampling Ex N} {mv mv' : AncestorMove Ex N}
  {svd : Mat d d → SvdOut d} {tau : ℤ} {k : SvType} {style : String} {target_stat : TargetStat} {backward : Bool}
  {make make' : Traj (n + 1) d → SvKernel Ex (n + 1) d}

/-- Two probabilities differ by at most `ε`. -/
def NearBy (ε p q : ℝ≥0∞) : Prop := p ≤ q + ε ∧ q ≤ p + ε

theorem stepOK_of {ε : ℝ≥0∞} {l : (Fin (n + 1) → Vec d) → ℝ} {ker : Key → (Fin (n + 1) → Vec d) → (Fin (n + 1) → Fin (N + 1)) → (Fin (n + 1) → ℝ) →
      Ex ((Fin (n + 1) → Vec d) × (Fin (n + 1) → Fin (N + 1)))} (h : ∀ δ, StepRange δ → CsmcOK ε l fun key x b => ker key x b δ) :
    StepOK StepRange ker := ⟨fun δ hδ => (h δ hδ).markov, fun δ hδ => (h δ hδ).relabels, fun δ hδ => (h δ hδ).free⟩

theorem sv_twisted_near {ε c : ℝ≥0∞} (ys : Traj (n + 1) d) (hS : SelOK ε R mv) (hmm : MovesNear c mv mv') (backward : Bool)
    {delta : Fin (n + 1) → ℝ} (hd : ∀ t, 0 < delta t) {phi tau rho : ℝ} (hphi : phi ^ 2 < 1) (ht : 0 < tau) (h0 : 0 ≤ rho) (h1 : rho < 1)
    (stop : Bool) (key : Key) (x : Fin (n + 1) → Vec d) (b : Fin (n + 1) → Fin (N + 1)) :
    let D := get_dynamics 0 phi tau rho d
    TVLe c (outOf (sv_tp_csmc_twisted ys D stop R mv backward key x b delta)) (outOf (sv_tp_csmc_twisted ys D stop R mv' backward key x b delta)) := by
  intro D
  have hr := sv_reversal (d := d) ys hphi ht h0 h1 stop
  exact t_near (svLin_meas ys D stop) hr.final_posDef hr.posDef hd key delta hS.cond hmm backward x b

/-- The kernels of the experiment with two last moves that are close. -/
theorem sv_csmc_pair {ε ε' c : ℝ≥0∞} (ht : 0 < tau) (hS : SelOK ε R mv) (hS' : SelOK ε' R mv') (hmm : MovesNear c mv mv')
    (hk : k.kernel_maker svd (svDynArgs tau d) style target_stat R mv backward = .ok make)
    (hk' : k.kernel_maker svd (svDynArgs tau d) style target_stat R mv' backward = .ok make') (hstyle : style ≠ "smoothing")
    (hcsmc : k ≠ .TP ∧ k ≠ .MALA) (ys : Traj (n + 1) d) (htp : TpOK svd tau k style ys) :
    ∃ ker ker' : Key → (Fin (n + 1) → Vec d) → (Fin (n + 1) → Fin (N + 1)) → (Fin (n + 1) → ℝ) →
        Ex ((Fin (n + 1) → Vec d) × (Fin (n + 1) → Fin (N + 1))),
      ((make ys = csmcSvPlain ker ∧ make' ys = csmcSvPlain ker') ∨ ∃ stat, make ys = csmcSvTwisted stat ker ∧ make' ys = csmcSvTwisted stat ker') ∧
      StepOK StepRange ker ∧ StepOK StepRange ker' ∧ ∀ δ, StepRange δ → ∀ key x b, TVLe c (ker key x b δ) (ker' key x b δ) := by
  have hP := svDynArgs_P0 ht d
  have hQ := svDynArgs_Q ht d
  have h0 := (continuous_svGamma_0 ys hP).measurable
  have h := fun y => (continuous_svGamma_t (d := d) hQ y).measurable
  have hg : ∀ y : Vec d, Measurable fun p : Vec d × Vec d => jaxGrad (fun x => svGamma_t (svDynArgs tau d) p.1 x y) p.2 := fun y =>
    measurable_jaxGrad_param (f := fun x' x => svGamma_t (svDynArgs tau d) x' x y) (continuous_svGamma_t hQ y)
  have main : ∀ stop, sv_get_tp_csmc_kernel svd (svDynArgs tau d) style target_stat stop R mv backward = .ok make →
      sv_get_tp_csmc_kernel svd (svDynArgs tau d) style target_stat stop R mv' backward = .ok make' →
      style ≠ "filtering" → (style = "marginal" → ∀ δ, StepRange δ → ProposalOK svd (svGauss ys (svDynArgs tau d) stop) δ) →
      ∃ ker ker' : Key → (Fin (n + 1) → Vec d) → (Fin (n + 1) → Fin (N + 1)) → (Fin (n + 1) → ℝ) →
          Ex ((Fin (n + 1) → Vec d) × (Fin (n + 1) → Fin (N + 1))),
        ((make ys = csmcSvPlain ker ∧ make' ys = csmcSvPlain ker') ∨ ∃ stat, make ys = csmcSvTwisted stat ker ∧ make' ys = csmcSvTwisted stat ker') ∧
        StepOK StepRange ker ∧ StepOK StepRange ker' ∧ ∀ δ, StepRange δ → ∀ key x b, TVLe c (ker key x b δ) (ker' key x b δ) := by
    intro stop hk hk' h2 h1'
    unfold sv_get_tp_csmc_kernel at hk hk'
    by_cases h1 : style = "marginal"
    · rw [if_pos h1] at hk hk'
      cases hk
      cases hk'
      exact ⟨_, _, .inl ⟨rfl, rfl⟩, stepOK_of fun δ hδ => sv_tp_ok ys hS backward stop (h1' h1 δ hδ) hδ.pos,
        stepOK_of fun δ hδ => sv_tp_ok ys hS' backward stop (h1' h1 δ hδ) hδ.pos, fun δ hδ key x b =>
          tp_near (h1' h1 δ hδ) (svGauss_meas ys (svDynArgs tau d) stop) key δ hS.cond hmm backward x b⟩
    rw [if_neg h1, if_neg h2, if_neg hstyle] at hk hk'
    by_cases h4 : style = "twisted"
    · rw [if_pos h4] at hk hk'
      cases hs : statOf (k := n + 1) target_stat with
      | error e => rw [hs] at hk; cases hk
      | ok stat =>
        rw [hs] at hk hk'
        cases hk
        cases hk'
        exact ⟨_, _, .inr ⟨stat, rfl, rfl⟩,
          stepOK_of fun δ hδ => sv_twisted_ok ys hS backward hδ.pos (by norm_num) (sv_tau_pos ht) (by norm_num) (by norm_num) stop,
          stepOK_of fun δ hδ => sv_twisted_ok ys hS' backward hδ.pos (by norm_num) (sv_tau_pos ht) (by norm_num) (by norm_num) stop,
          fun δ hδ key x b => sv_twisted_near ys hS hmm backward hδ.pos (by norm_num) (sv_tau_pos ht) (by norm_num) (by norm_num) stop key x b⟩
    · rw [if_neg h4] at hk
      cases hk
  cases k with
  | TP => exact absurd rfl hcsmc.1
  | MALA => exact absurd rfl hcsmc.2
  | CSMC =>
    simp only [SvType.kernel_maker, sv_get_csmc_kernel] at hk hk'
    split_ifs at hk hk'
    cases hk
    cases hk'
    exact ⟨_, _, .inl ⟨rfl, rfl⟩, stepOK_of fun δ hδ => sv_csmc_ok ys hS hP hQ backward, stepOK_of fun δ hδ => sv_csmc_ok ys hS' hP hQ backward,
      fun δ hδ key x b => csmc_near key (C19_sv_proper ys hP hQ) (tailA ys) (tailA ys) hS.cond hmm backward x b⟩
  | RW_CSMC =>
    cases hk
    cases hk'
    exact ⟨_, _, .inl ⟨rfl, rfl⟩, stepOK_of fun δ hδ => sv_rw_ok ys hS hP hQ backward hδ.pos,
      stepOK_of fun δ hδ => sv_rw_ok ys hS' hP hQ backward hδ.pos,
      fun δ hδ key x b => rw_near key (tailA ys) h0 h hδ.pos hS.cond hmm backward x b⟩
  | MALA_CSMC =>
    simp only [SvType.kernel_maker, sv_get_mala_csmc_kernel] at hk hk'
    split_ifs at hk hk' <;> cases hk <;> cases hk'
    · exact ⟨_, _, .inl ⟨rfl, rfl⟩, stepOK_of fun δ hδ => sv_al_ok ys hS hP hQ backward hδ.pos,
        stepOK_of fun δ hδ => sv_al_ok ys hS' hP hQ backward hδ.pos,
        fun δ hδ key x b => al_near key (tailA ys) δ h0 h (measurable_jaxGrad _) hg hδ.pos hS.cond hmm backward x b⟩
    · exact ⟨_, _, .inl ⟨rfl, rfl⟩, stepOK_of fun δ hδ => sv_l_ok ys hS hP hQ backward hδ.pos,
        stepOK_of fun δ hδ => sv_l_ok ys hS' hP hQ backward hδ.pos,
        fun δ hδ key x b => l_near key (tailA ys) δ h0 h (measurable_jaxGrad _) hg hδ.pos hS.cond hmm backward x b⟩
  | TP_CSMC => exact main false hk hk' (htp (.inl rfl)).1 fun h δ hδ => (htp (.inl rfl)).2 h δ hδ false
  | ADAPTED_CSMC => exact main true hk hk' (htp (.inr rfl)).1 fun h δ hδ => (htp (.inr rfl)).2 h δ hδ true

/-- Two runs of the experiment with kernels that are close. -/
theorem sv_compare_pair {N' : ℕ} {K K' : SvKernel Ex (n + 1) d} {c : ℝ≥0∞} (ht : 0 < tau) (hR : sel_resampling resampling = .ok R)
    (hpair : ∃ ker ker' : Key → (Fin (n + 1) → Vec d) → (Fin (n + 1) → Fin (N' + 1)) → (Fin (n + 1) → ℝ) →
        Ex ((Fin (n + 1) → Vec d) × (Fin (n + 1) → Fin (N' + 1))),
      ((K = csmcSvPlain ker ∧ K' = csmcSvPlain ker') ∨ ∃ stat, K = csmcSvTwisted stat ker ∧ K' = csmcSvTwisted stat ker') ∧
      StepOK StepRange ker ∧ StepOK StepRange ker' ∧ ∀ δ, StepRange δ → ∀ key x b, TVLe c (ker key x b δ) (ker' key x b δ)) (target : ℤ) {delta_init : ℝ}
    (hd : 1e-5 ≤ delta_init ∧ delta_init ≤ 10) (data : SvData (n + 1) d) (adaptation burnin n_samples : ℕ)
    (ki ka kb ks : Key) :
    (∀ f : StepSize (n + 1) → (Fin M → Run (strideLen n_samples 1) (n + 1) d) → ℝ≥0∞, (∀ δ, Measurable (f δ)) → (∀ δ c, f δ c ≤ 1) →
      NearBy ((adaptation + M * (burnin + n_samples) : ℕ) * c)
        (svRuns ki ka kb ks (svDynArgs tau d) data K R mv (svCfg target) delta_init adaptation burnin n_samples M (fun o => f o.1 o.2))
        (svRuns ki ka kb ks (svDynArgs tau d) data K' R mv' (svCfg target) delta_init adaptation burnin n_samples M (fun o => f o.1 o.2))) ∧
    ∀ (f : StepSize (n + 1) → Run (strideLen n_samples 1) (n + 1) d → ℝ≥0∞) (j : Fin M), (∀ δ, Measurable (f δ)) → (∀ δ c, f δ c ≤ 1) →
      NearBy ((adaptation + burnin + n_samples : ℕ) * c)
        (svRuns ki ka kb ks (svDynArgs tau d) data K R mv (svCfg target) delta_init adaptation burnin n_samples M (fun o => f o.1 (o.2 j)))
        (svRuns ki ka kb ks (svDynArgs tau d) data K' R mv' (svCfg target) delta_init adaptation burnin n_samples M (fun o => f o.1 (o.2 j))) := by
  obtain ⟨ν, _, hν, _, hlaw⟩ := C95_sv_start (N := N) ht hR data.ys
  obtain ⟨ker, ker', hform, hok, hok', hnear⟩ := hpair
  have h0 : StepRange fun _ : Fin (n + 1) => delta_init * 1 := fun _ => by rwa [mul_one]
  have hle : ∀ δ, StepRange δ → ∀ key x b f, Measurable f → (∀ a, f a ≤ 1) → ker key x b δ f ≤ ker' key x b δ f + c := fun δ hδ key x b f hf h1 =>
    (hnear δ hδ key x b f hf h1).1
  have hle' : ∀ δ, StepRange δ → ∀ key x b f, Measurable f → (∀ a, f a ≤ 1) → ker' key x b δ f ≤ ker key x b δ f + c := fun δ hδ key x b f hf h1 =>
    (hnear δ hδ key x b f hf h1).2
  suffices h : (∀ f : StepSize (n + 1) → (Fin M → Run (strideLen n_samples 1) (n + 1) d) → ℝ≥0∞, (∀ δ, Measurable (f δ)) →
        Measurable (fun x => adaptedRuns K (svCfg target) svWindow delta_init adaptation burnin n_samples ka kb ks x (fun o => f o.1 o.2)) ∧
        Measurable (fun x => adaptedRuns K' (svCfg target) svWindow delta_init adaptation burnin n_samples ka kb ks x (fun o => f o.1 o.2))) ∧
      (∀ f : StepSize (n + 1) → (Fin M → Run (strideLen n_samples 1) (n + 1) d) → ℝ≥0∞, (∀ δ, Measurable (f δ)) → (∀ δ c, f δ c ≤ 1) → ∀ x,
        NearBy (adaptation * c + M * ((n_samples + burnin : ℕ) * c))
          (adaptedRuns K (svCfg target) svWindow delta_init adaptation burnin n_samples ka kb ks x (fun o => f o.1 o.2))
          (adaptedRuns K' (svCfg target) svWindow delta_init adaptation burnin n_samples ka kb ks x (fun o => f o.1 o.2))) ∧
      ∀ (f : StepSize (n + 1) → Run (strideLen n_samples 1) (n + 1) d → ℝ≥0∞) (j : Fin M), (∀ δ, Measurable (f δ)) → (∀ δ c, f δ c ≤ 1) → ∀ x,
        NearBy (adaptation * c + (n_samples + burnin : ℕ) * c)
          (adaptedRuns K (svCfg target) svWindow delta_init adaptation burnin n_samples ka kb ks x (fun o => f o.1 (o.2 j)))
          (adaptedRuns K' (svCfg target) svWindow delta_init adaptation burnin n_samples ka kb ks x (fun o => f o.1 (o.2 j))) by
    have hint : ∀ (f : StepSize (n + 1) → (Fin M → Run (strideLen n_samples 1) (n + 1) d) → ℝ≥0∞) (e : ℝ≥0∞), (∀ δ, Measurable (f δ)) →
        (∀ x, NearBy e (adaptedRuns K (svCfg target) svWindow delta_init adaptation burnin n_samples ka kb ks x (fun o => f o.1 o.2))
          (adaptedRuns K' (svCfg target) svWindow delta_init adaptation burnin n_samples ka kb ks x (fun o => f o.1 o.2))) →
        NearBy e
          (svRuns ki ka kb ks (svDynArgs tau d) data K R mv (svCfg target) delta_init adaptation burnin n_samples M (fun o => f o.1 o.2))
          (svRuns ki ka kb ks (svDynArgs tau d) data K' R mv' (svCfg target) delta_init adaptation burnin n_samples M (fun o => f o.1 o.2)) :=
      fun f e hf hx => by
        obtain ⟨h1, h2⟩ := h.1 f hf
        have e1 : svRuns ki ka kb ks (svDynArgs tau d) data K R mv (svCfg target) delta_init adaptation burnin n_samples M (fun o => f o.1 o.2) = _ :=
          hlaw ki mv data.xs _ h1
        have e2 : svRuns ki ka kb ks (svDynArgs tau d) data K' R mv' (svCfg target) delta_init adaptation burnin n_samples M (fun o => f o.1 o.2) = _ :=
          hlaw ki mv' data.xs _ h2
        rw [e1, e2]
        constructor
        · refine (lintegral_mono fun x => (hx x).1).trans (le_of_eq ?_)
          rw [lintegral_add_right _ measurable_const, lintegral_const, measure_univ, mul_one]
          rfl
        · refine (lintegral_mono fun x => (hx x).2).trans (le_of_eq ?_)
          rw [lintegral_add_right _ measurable_const, lintegral_const, measure_univ, mul_one]
          rfl
    refine ⟨fun f hf hf1 => ?_, fun f j hf hf1 => ?_⟩
    · have := hint f _ hf (h.2.1 f hf hf1)
      convert this using 1
      push_cast
      ring
    · have := hint (fun δ c => f δ (c j)) _ (fun δ => (hf δ).comp (measurable_pi_apply j)) (h.2.2 f j hf hf1)
      convert this using 1
      push_cast
      ring
  rcases hform with ⟨h, h'⟩ | ⟨stat, h, h'⟩
  · rw [h, h']
    have hA := adaptedRuns_le (M := M) (adapt := fun key xs bs k cfg W deltas n_steps => delta_adaptation_routine key xs bs k cfg W deltas n_steps)
      (W := svWindow) (upd := fun i a δ t => adaptDelta (svCfg target) svWindow i (nanmean (a t)) (δ t)) (fun _ _ _ _ _ _ => rfl)
      (fun i a δ => stepRange_adapt target svWindow i _ δ) h0 hok hok' hle adaptation burnin n_samples ka kb ks
    have hB := adaptedRuns_le (M := M) (adapt := fun key xs bs k cfg W deltas n_steps => delta_adaptation_routine key xs bs k cfg W deltas n_steps)
      (W := svWindow) (upd := fun i a δ t => adaptDelta (svCfg target) svWindow i (nanmean (a t)) (δ t)) (fun _ _ _ _ _ _ => rfl)
      (fun i a δ => stepRange_adapt target svWindow i _ δ) h0 hok' hok hle' adaptation burnin n_samples ka kb ks
    have hC := fun f (hf : ∀ δ, Measurable (f δ)) => adaptedRuns_measurable (M := M) (f := f) (adapt := fun key xs bs k cfg W deltas n_steps => delta_adaptation_routine key xs bs k cfg W deltas n_steps)
      (W := svWindow) (upd := fun i a δ t => adaptDelta (svCfg target) svWindow i (nanmean (a t)) (δ t)) (fun _ _ _ _ _ _ => rfl)
      (fun i a δ => stepRange_adapt target svWindow i _ δ) h0 hok adaptation burnin n_samples ka kb ks hf
    have hD := fun f (hf : ∀ δ, Measurable (f δ)) => adaptedRuns_measurable (M := M) (f := f) (adapt := fun key xs bs k cfg W deltas n_steps => delta_adaptation_routine key xs bs k cfg W deltas n_steps)
      (W := svWindow) (upd := fun i a δ t => adaptDelta (svCfg target) svWindow i (nanmean (a t)) (δ t)) (fun _ _ _ _ _ _ => rfl)
      (fun i a δ => stepRange_adapt target svWindow i _ δ) h0 hok' adaptation burnin n_samples ka kb ks hf
    exact ⟨fun f hf => ⟨hC f hf, hD f hf⟩, fun f hf hf1 x => ⟨(hA x).1 f hf hf1, (hB x).1 f hf hf1⟩,
      fun f j hf hf1 x => ⟨(hA x).2 f j hf hf1, (hB x).2 f j hf hf1⟩⟩
  · rw [h, h']
    have hA := adaptedRuns_le (M := M) (adapt := fun key xs bs k cfg W deltas n_steps => t_delta_adaptation_routine key xs bs k cfg stat W deltas n_steps)
      (W := svWindow) (upd := fun i a δ t => adaptDelta (svCfg target) svWindow i (stat fun t => nanmean (a t)) (δ t)) (fun _ _ _ _ _ _ => rfl)
      (fun i a δ => stepRange_adapt target svWindow i _ δ) h0 hok hok' hle adaptation burnin n_samples ka kb ks
    have hB := adaptedRuns_le (M := M) (adapt := fun key xs bs k cfg W deltas n_steps => t_delta_adaptation_routine key xs bs k cfg stat W deltas n_steps)
      (W := svWindow) (upd := fun i a δ t => adaptDelta (svCfg target) svWindow i (stat fun t => nanmean (a t)) (δ t)) (fun _ _ _ _ _ _ => rfl)
      (fun i a δ => stepRange_adapt target svWindow i _ δ) h0 hok' hok hle' adaptation burnin n_samples ka kb ks
    have hC := fun f (hf : ∀ δ, Measurable (f δ)) => adaptedRuns_measurable (M := M) (f := f) (adapt := fun key xs bs k cfg W deltas n_steps => t_delta_adaptation_routine key xs bs k cfg stat W deltas n_steps)
      (W := svWindow) (upd := fun i a δ t => adaptDelta (svCfg target) svWindow i (stat fun t => nanmean (a t)) (δ t)) (fun _ _ _ _ _ _ => rfl)
      (fun i a δ => stepRange_adapt target svWindow i _ δ) h0 hok adaptation burnin n_samples ka kb ks hf
    have hD := fun f (hf : ∀ δ, Measurable (f δ)) => adaptedRuns_measurable (M := M) (f := f) (adapt := fun key xs bs k cfg W deltas n_steps => t_delta_adaptation_routine key xs bs k cfg stat W deltas n_steps)
      (W := svWindow) (upd := fun i a δ t => adaptDelta (svCfg target) svWindow i (stat fun t => nanmean (a t)) (δ t)) (fun _ _ _ _ _ _ => rfl)
      (fun i a δ => stepRange_adapt target svWindow i _ δ) h0 hok' adaptation burnin n_samples ka kb ks hf
    exact ⟨fun f hf => ⟨hC f hf, hD f hf⟩, fun f hf hf1 x => ⟨(hA x).1 f hf hf1, (hB x).1 f hf hf1⟩,
      fun f j hf hf1 x => ⟨(hA x).2 f j hf hf1, (hB x).2 f j hf hf1⟩⟩

/-- Two runs of the experiment with last moves that are close. -/
theorem sv_compare {ε ε' c : ℝ≥0∞} (ht : 0 < tau) (hR : sel_resampling resampling = .ok R) (hS : SelOK ε R mv) (hS' : SelOK ε' R mv')
    (hmm : MovesNear c mv mv') (hk : k.kernel_maker svd (svDynArgs tau d) style target_stat R mv backward = .ok make)
    (hk' : k.kernel_maker svd (svDynArgs tau d) style target_stat R mv' backward = .ok make') (hstyle : style ≠ "smoothing")
    (hcsmc : k ≠ .TP ∧ k ≠ .MALA) (ys : Traj (n + 1) d) (htp : TpOK svd tau k style ys) (target : ℤ) {delta_init : ℝ}
    (hd : 1e-5 ≤ delta_init ∧ delta_init ≤ 10) (data : SvData (n + 1) d) (hdata : data.ys = ys) (adaptation burnin n_samples : ℕ)
    (ki ka kb ks : Key) :
    (∀ f : StepSize (n + 1) → (Fin M → Run (strideLen n_samples 1) (n + 1) d) → ℝ≥0∞, (∀ δ, Measurable (f δ)) → (∀ δ c, f δ c ≤ 1) →
      NearBy ((adaptation + M * (burnin + n_samples) : ℕ) * c)
        (svRuns ki ka kb ks (svDynArgs tau d) data (make ys) R mv (svCfg target) delta_init adaptation burnin n_samples M (fun o => f o.1 o.2))
        (svRuns ki ka kb ks (svDynArgs tau d) data (make' ys) R mv' (svCfg target) delta_init adaptation burnin n_samples M (fun o => f o.1 o.2))) ∧
    ∀ (f : StepSize (n + 1) → Run (strideLen n_samples 1) (n + 1) d → ℝ≥0∞) (j : Fin M), (∀ δ, Measurable (f δ)) → (∀ δ c, f δ c ≤ 1) →
      NearBy ((adaptation + burnin + n_samples : ℕ) * c)
        (svRuns ki ka kb ks (svDynArgs tau d) data (make ys) R mv (svCfg target) delta_init adaptation burnin n_samples M (fun o => f o.1 (o.2 j)))
        (svRuns ki ka kb ks (svDynArgs tau d) data (make' ys) R mv' (svCfg target) delta_init adaptation burnin n_samples M (fun o => f o.1 (o.2 j))) := by
  subst hdata
  exact sv_compare_pair ht hR (sv_csmc_pair ht hS hS' hmm hk hk' hstyle hcsmc data.ys htp) target hd data adaptation burnin n_samples ki ka kb ks

theorem sel_forced (hm : sel_last_step "forced" = .ok mv) : mv = forced := by
  cases hm
  rfl

theorem sel_ok_forced (hR : sel_resampling resampling = .ok R) (hm : sel_last_step "forced" = .ok mv) : SelOK forceErr R mv := by
  have := sel_ok hR hm
  rwa [if_neg (by decide)] at this

/-- **C99** (comparison): every event about the step sizes and the chains of a run of the experiment with the default move has the same
probability, up to `3e-12` for each step of the kernel, as in the run whose last move has no guard against a division by zero. An event about
one chain counts its own steps and those of the adaptation. -/
theorem C99_compare (ht : 0 < tau) (hR : sel_resampling resampling = .ok R) (hm : sel_last_step "forced" = .ok mv)
    (hk : k.kernel_maker svd (svDynArgs tau d) style target_stat R mv backward = .ok make)
    (hk' : k.kernel_maker svd (svDynArgs tau d) style target_stat R exactMove backward = .ok make') (hstyle : style ≠ "smoothing")
    (hcsmc : k ≠ .TP ∧ k ≠ .MALA) (ys : Traj (n + 1) d) (htp : TpOK svd tau k style ys) (target : ℤ) {delta_init : ℝ}
    (hd : 1e-5 ≤ delta_init ∧ delta_init ≤ 10) (data : SvData (n + 1) d) (hdata : data.ys = ys) (adaptation burnin n_samples : ℕ)
    (ki ka kb ks : Key) :
    (∀ f : StepSize (n + 1) → (Fin M → Run (strideLen n_samples 1) (n + 1) d) → ℝ≥0∞, (∀ δ, Measurable (f δ)) → (∀ δ c, f δ c ≤ 1) →
      NearBy ((adaptation + M * (burnin + n_samples) : ℕ) * ENNReal.ofReal 3e-12)
        (svRuns ki ka kb ks (svDynArgs tau d) data (make ys) R mv (svCfg target) delta_init adaptation burnin n_samples M (fun o => f o.1 o.2))
        (svRuns ki ka kb ks (svDynArgs tau d) data (make' ys) R exactMove (svCfg target) delta_init adaptation burnin n_samples M (fun o => f o.1 o.2))) ∧
    ∀ (f : StepSize (n + 1) → Run (strideLen n_samples 1) (n + 1) d → ℝ≥0∞) (j : Fin M), (∀ δ, Measurable (f δ)) → (∀ δ c, f δ c ≤ 1) →
      NearBy ((adaptation + burnin + n_samples : ℕ) * ENNReal.ofReal 3e-12)
        (svRuns ki ka kb ks (svDynArgs tau d) data (make ys) R mv (svCfg target) delta_init adaptation burnin n_samples M (fun o => f o.1 (o.2 j)))
        (svRuns ki ka kb ks (svDynArgs tau d) data (make' ys) R exactMove (svCfg target) delta_init adaptation burnin n_samples M (fun o => f o.1 (o.2 j))) :=
  sv_compare (target_stat := target_stat) (svd := svd) (k := k) (style := style) (backward := backward) ht hR (sel_ok_forced hR hm) (sel_ok_exact hR (.inr rfl))
    (by rw [sel_forced hm]; exact forced_near) hk hk' hstyle hcsmc ys htp target hd data hdata adaptation burnin n_samples ki ka kb ks

/-- The kernel without the guard exists for the same options. -/
theorem sv_maker_move (hk : k.kernel_maker svd (svDynArgs tau d) style target_stat R mv backward = .ok make) (hstyle : style ≠ "smoothing")
    (mv' : AncestorMove Ex N) :
    ∃ make' : Traj (n + 1) d → SvKernel Ex (n + 1) d, k.kernel_maker svd (svDynArgs tau d) style target_stat R mv' backward = .ok make' := by
  have main : ∀ stop, sv_get_tp_csmc_kernel svd (svDynArgs tau d) style target_stat stop R mv backward = .ok make →
      ∃ make', sv_get_tp_csmc_kernel (n := n) svd (svDynArgs tau d) style target_stat stop R mv' backward = .ok make' := by
    intro stop hk
    unfold sv_get_tp_csmc_kernel at hk ⊢
    by_cases h1 : style = "marginal"
    · rw [if_pos h1]; exact ⟨_, rfl⟩
    rw [if_neg h1] at hk ⊢
    by_cases h2 : style = "filtering"
    · rw [if_pos h2]; exact ⟨_, rfl⟩
    rw [if_neg h2, if_neg hstyle] at hk ⊢
    by_cases h4 : style = "twisted"
    · rw [if_pos h4] at hk ⊢
      cases hs : statOf (k := n + 1) target_stat with
      | error e => rw [hs] at hk; cases hk
      | ok stat => exact ⟨_, rfl⟩
    · rw [if_neg h4] at hk
      cases hk
  cases k with
  | TP => exact ⟨_, hk⟩
  | MALA => exact ⟨_, hk⟩
  | CSMC =>
    simp only [SvType.kernel_maker, sv_get_csmc_kernel] at hk ⊢
    split_ifs at hk ⊢
    exact ⟨_, rfl⟩
  | RW_CSMC => exact ⟨_, rfl⟩
  | MALA_CSMC =>
    simp only [SvType.kernel_maker, sv_get_mala_csmc_kernel] at hk ⊢
    split_ifs at hk ⊢ <;> exact ⟨_, rfl⟩
  | TP_CSMC => exact main false hk
  | ADAPTED_CSMC => exact main true hk

/-- **C99** (samples): with the default move too, the samples of the experiment come from the posterior in the long run, up to `3e-12` for
each step of the run. -/
theorem C99_samples (ht : 0 < tau) (hR : sel_resampling resampling = .ok R) (hm : sel_last_step "forced" = .ok mv) (hN : N ≠ 0)
    (hk : k.kernel_maker svd (svDynArgs tau d) style target_stat R mv backward = .ok make) (hstyle : style ≠ "smoothing")
    (hcsmc : k ≠ .TP ∧ k ≠ .MALA) (ys : Traj (n + 1) d) (htp : TpOK svd tau k style ys) (target : ℤ) {delta_init : ℝ}
    (hd : 1e-5 ≤ delta_init ∧ delta_init ≤ 10) (adaptation : ℕ) {ε : ℝ≥0∞} (hε : ε ≠ 0) :
    ∃ n0 : ℕ, ∀ (data : SvData (n + 1) d), data.ys = ys → ∀ (M burnin n_samples : ℕ) (ki ka kb ks : Key) (j : Fin M)
      (l : Fin (strideLen n_samples 1)), n0 ≤ burnin + l →
      TVLe (ε + (adaptation + burnin + n_samples : ℕ) * ENNReal.ofReal 3e-12)
        (fun f => svSamples ki ka kb ks (svDynArgs tau d) data (make ys) R mv (svCfg target) delta_init adaptation burnin n_samples M
          (fun c => f ((c j).1 l)))
        (fun f => ∫⁻ x, f x ∂svPosterior k tau ys) := by
  obtain ⟨make', hk'⟩ := sv_maker_move hk hstyle exactMove
  obtain ⟨n0, h0⟩ := sv_samples (mv := exactMove) ht hR (sv_good (target_stat := target_stat) ht hR (.inr rfl) hN hk' hstyle hcsmc ys htp) target hd adaptation hε
  refine ⟨n0, fun data hdata M burnin n_samples ki ka kb ks j l hl f hf hf1 => ?_⟩
  have h1 := h0 data hdata M burnin n_samples ki ka kb ks j l hl f hf hf1
  have h2 := (C99_compare (target_stat := target_stat) (M := M) ht hR hm hk hk' hstyle hcsmc ys htp target hd data hdata adaptation burnin n_samples ki ka kb ks).2
    (fun _ r => f (r.1 l)) j (fun _ => by fun_prop) fun _ _ => hf1 _
  constructor
  · exact (h2.1.trans (add_le_add_left h1.1 _)).trans (le_of_eq (by ring))
  · exact (h1.2.trans (add_le_add_left h2.2 _)).trans (le_of_eq (by rw [add_assoc, add_comm _ ε]; rfl))

open Classical in
theorem measurable_svOff {k' : ℕ} (k : SvType) (tau : ℤ) (ys : Traj (n + 1) d) (η : ℝ) : Measurable fun r : Run k' (n + 1) d =>
    if SvOff k tau ys η (fun t i => meanA fun k => r.1 k t i) (fun t i => stdA fun k => r.1 k t i) then (1 : ℝ≥0∞) else 0 := by
  refine Measurable.ite ?_ measurable_const measurable_const
  unfold SvOff
  simp only [Set.ofPred_exists]
  refine MeasurableSet.iUnion fun t => MeasurableSet.iUnion fun i => ?_
  have h1 : Measurable fun r : Run k' (n + 1) d => meanA fun k => r.1 k t i := by unfold meanA; fun_prop
  have h2 : Measurable fun r : Run k' (n + 1) d => stdA fun k => r.1 k t i := by unfold stdA meanA; fun_prop
  have h3 : ∀ c : ℝ, Measurable fun r : Run k' (n + 1) d => |(meanA fun k => r.1 k t i) - c| := fun c => by fun_prop
  have h4 : ∀ c : ℝ, Measurable fun r : Run k' (n + 1) d => |(stdA fun k => r.1 k t i) - c| := fun c => by fun_prop
  exact (measurableSet_lt measurable_const (h3 _)).union (measurableSet_lt measurable_const (h4 _))

open Classical in
/-- **C99** (reported moments): with the default move, the probability that a mean or a standard deviation that is reported for a chain is
off by more than `η` is at most as small as desired, plus `3e-12` for each step of the run, if the number of samples is large enough. -/
theorem C99_reported (ht : 0 < tau) (hR : sel_resampling resampling = .ok R) (hm : sel_last_step "forced" = .ok mv) (hN : N ≠ 0)
    (hk : k.kernel_maker svd (svDynArgs tau d) style target_stat R mv backward = .ok make) (hstyle : style ≠ "smoothing")
    (hcsmc : k ≠ .TP ∧ k ≠ .MALA) (ys : Traj (n + 1) d) (htp : TpOK svd tau k style ys) (target : ℤ) {delta_init : ℝ}
    (hd : 1e-5 ≤ delta_init ∧ delta_init ≤ 10) (adaptation : ℕ) {η : ℝ} (hη : 0 < η) {ε : ℝ≥0∞} (hε : ε ≠ 0) :
    ∃ n0 : ℕ, ∀ (data : SvData (n + 1) d), data.ys = ys → ∀ (M burnin n_samples : ℕ) (ki ka kb ks : Key) (j : Fin M), n0 ≤ n_samples →
      sv_run ki ka kb ks (svDynArgs tau d) data (make ys) R mv (svCfg target) delta_init adaptation burnin n_samples M
        (fun o => if SvOff k tau ys η (o.means j) (o.std_devs j) then 1 else 0) ≤ ε + (adaptation + burnin + n_samples : ℕ) * ENNReal.ofReal 3e-12 := by
  obtain ⟨make', hk'⟩ := sv_maker_move hk hstyle exactMove
  obtain ⟨n0, h0⟩ := sv_reported (mv := exactMove) ht hR (sv_good (target_stat := target_stat) ht hR (.inr rfl) hN hk' hstyle hcsmc ys htp) target hd adaptation hη hε
  refine ⟨n0, fun data hdata M burnin n_samples ki ka kb ks j hn => ?_⟩
  have h1 := h0 data hdata M burnin n_samples ki ka kb ks j hn
  have h2 := (C99_compare (target_stat := target_stat) (M := M) ht hR hm hk hk' hstyle hcsmc ys htp target hd data hdata adaptation burnin n_samples ki ka kb ks).2
    (fun _ r => if SvOff k tau ys η (fun t i => meanA fun k => r.1 k t i) (fun t i => stdA fun k => r.1 k t i) then 1 else 0) j
    (fun _ => measurable_svOff k tau ys η) fun _ _ => by split_ifs <;> simp
  exact h2.1.trans (add_le_add_left h1 _)

open Classical in
/-- **C99** (acceptance rates): with the default move, the acceptance rates that are reported for a chain are close to the acceptance
probabilities of a stationary run of the kernel without the guard, with the step sizes that are reported. -/
theorem C99_acceptance (ht : 0 < tau) (hR : sel_resampling resampling = .ok R) (hm : sel_last_step "forced" = .ok mv) (hN : N ≠ 0)
    (hk : k.kernel_maker svd (svDynArgs tau d) style target_stat R mv backward = .ok make)
    (hk' : k.kernel_maker svd (svDynArgs tau d) style target_stat R exactMove backward = .ok make') (hstyle : style ≠ "smoothing")
    (hcsmc : k ≠ .TP ∧ k ≠ .MALA) (ys : Traj (n + 1) d) (htp : TpOK svd tau k style ys) (target : ℤ) {delta_init : ℝ}
    (hd : 1e-5 ≤ delta_init ∧ delta_init ≤ 10) (adaptation : ℕ) {η : ℝ} (hη : 0 < η) {ε : ℝ≥0∞} (hε : ε ≠ 0) :
    ∃ n0 : ℕ, ∀ (data : SvData (n + 1) d), data.ys = ys → ∀ (M burnin n_samples : ℕ) (ki ka kb ks : Key) (j : Fin M), n0 ≤ n_samples →
      sv_run ki ka kb ks (svDynArgs tau d) data (make ys) R mv (svCfg target) delta_init adaptation burnin n_samples M
        (fun o => if ∃ t, η < |o.final_pct j t - acceptProb (make' ys) o.adapted_delta (svPosterior k tau ys) t| then 1 else 0) ≤
      ε + (adaptation + burnin + n_samples : ℕ) * ENNReal.ofReal 3e-12 := by
  obtain ⟨n0, h0⟩ := sv_acceptance (mv := exactMove) ht hR (sv_good (target_stat := target_stat) ht hR (.inr rfl) hN hk' hstyle hcsmc ys htp) target hd adaptation hη hε
  refine ⟨n0, fun data hdata M burnin n_samples ki ka kb ks j hn => ?_⟩
  have h1 := h0 data hdata M burnin n_samples ki ka kb ks j hn
  have h2 := (C99_compare (target_stat := target_stat) (M := M) ht hR hm hk hk' hstyle hcsmc ys htp target hd data hdata adaptation burnin n_samples ki ka kb ks).2
    (fun δ r => if ∃ t, η < |meanA (fun k => r.2 k t) * 1 - acceptProb (make' ys) δ (svPosterior k tau ys) t| then 1 else 0) j
    (fun δ => by
      refine Measurable.ite ?_ measurable_const measurable_const
      rw [Set.ofPred_exists]
      refine MeasurableSet.iUnion fun t => ?_
      have : Measurable fun r : Run (strideLen n_samples 1) (n + 1) d => meanA fun k => r.2 k t := by unfold meanA; fun_prop
      exact measurableSet_lt measurable_const (by fun_prop)) fun _ _ => by split_ifs <;> simp
  exact h2.1.trans (add_le_add_left h1 _)

theorem measurable_anyOff {Ω ι κ τ : Type} [MeasurableSpace Ω] [Countable ι] [Countable κ] [Countable τ] {η : ℝ} {X : ι → κ → τ → Ω → ℝ}
    (hX : ∀ i k t, Measurable (X i k t)) (a : ι → κ → τ → ℝ)
    [DecidablePred fun ω => ∃ i k t, η < |X i k t ω - a i k t|] : Measurable fun ω => if ∃ i k t, η < |X i k t ω - a i k t| then (1 : ℝ≥0∞) else 0 := by
  refine Measurable.ite ?_ measurable_const measurable_const
  simp only [Set.ofPred_exists]
  exact MeasurableSet.iUnion fun i => MeasurableSet.iUnion fun k => MeasurableSet.iUnion fun t =>
    measurableSet_lt measurable_const (((hX i k t).sub measurable_const).abs)

theorem measurable_acf {K L : ℕ} (lag : ℕ) (t : Fin (n + 1)) (i : Fin d) (h : ∀ l : Fin (L + 1), (l : ℕ) < K) :
    Measurable fun c : Fin M → Run K (n + 1) d => samples_acf (fun (l : Fin (L + 1)) j => (c j).1 ⟨l, h l⟩ t i) lag := by
  have h2 : ∀ j, Measurable fun (c : Fin M → Run K (n + 1) d) (l : Fin (L + 1)) => (c j).1 ⟨l, h l⟩ t i :=
    fun j => measurable_pi_lambda _ fun l => by fun_prop
  have h3 : ∀ j, Measurable fun c : Fin M → Run K (n + 1) d => tfp_auto_corr (fun l : Fin (L + 1) => (c j).1 ⟨l, h l⟩ t i) lag := fun j =>
    ((measurable_tfp_auto_cov (L := L) lag).comp (h2 j)).div ((measurable_tfp_auto_cov (L := L) 0).comp (h2 j))
  exact (Finset.measurable_sum _ fun j _ => h3 j).div_const _

open Classical in
/-- **C99** (auto-correlations): with the default move, the auto-correlations that are reported are close to those of a stationary run of the
kernel without the guard, with the step sizes that are reported. -/
theorem C99_acf (ht : 0 < tau) (hR : sel_resampling resampling = .ok R) (hm : sel_last_step "forced" = .ok mv) (hN : N ≠ 0)
    (hk : k.kernel_maker svd (svDynArgs tau d) style target_stat R mv backward = .ok make)
    (hk' : k.kernel_maker svd (svDynArgs tau d) style target_stat R exactMove backward = .ok make') (hstyle : style ≠ "smoothing")
    (hcsmc : k ≠ .TP ∧ k ≠ .MALA) (ys : Traj (n + 1) d) (htp : TpOK svd tau k style ys) (target : ℤ) {delta_init : ℝ}
    (hd : 1e-5 ≤ delta_init ∧ delta_init ≤ 10) (adaptation : ℕ) (hM : M ≠ 0) (n_lags : ℕ) {η : ℝ} (hη : 0 < η) {ε : ℝ≥0∞} (hε : ε ≠ 0) :
    ∃ n0 : ℕ, ∀ (data : SvData (n + 1) d), data.ys = ys → ∀ (burnin L : ℕ) (ki ka kb ks : Key), n0 ≤ L →
      svRuns ki ka kb ks (svDynArgs tau d) data (make ys) R mv (svCfg target) delta_init adaptation burnin (L + 1) M
        (fun o => if ∃ (lag : Fin (n_lags + 1)) (t : Fin (n + 1)) (i : Fin d),
          η < |samples_acf (fun (l : Fin (L + 1)) j => (o.2 j).1 ⟨l, by simp only [strideLen]; omega⟩ t i) lag - autoCorr (make' ys) o.1 (svPosterior k tau ys) t i lag|
          then 1 else 0) ≤ ε + (adaptation + M * (burnin + (L + 1)) : ℕ) * ENNReal.ofReal 3e-12 := by
  obtain ⟨n0, h0⟩ := sv_acf (mv := exactMove) ht hR (sv_good (target_stat := target_stat) ht hR (.inr rfl) hN hk' hstyle hcsmc ys htp) target hd adaptation hM n_lags hη hε
  refine ⟨n0, fun data hdata burnin L ki ka kb ks hn => ?_⟩
  obtain ⟨F, hF⟩ : ∃ F : StepSize (n + 1) → (Fin M → Run (strideLen (L + 1) 1) (n + 1) d) → ℝ≥0∞, F = fun δ c =>
    if ∃ (lag : Fin (n_lags + 1)) (t : Fin (n + 1)) (i : Fin d),
      η < |samples_acf (fun (l : Fin (L + 1)) j => (c j).1 ⟨l, by simp only [strideLen]; omega⟩ t i) lag - autoCorr (make' ys) δ (svPosterior k tau ys) t i lag|
      then 1 else 0 := ⟨_, rfl⟩
  have hFm : ∀ δ, Measurable (F δ) := fun δ => by
    rw [hF]
    exact measurable_anyOff (fun (lag : Fin (n_lags + 1)) t i => measurable_acf lag t i _) fun lag t i => autoCorr (make' ys) δ (svPosterior k tau ys) t i lag
  have hF1 : ∀ δ c, F δ c ≤ 1 := fun δ c => by
    rw [hF]
    exact ite_le_one le_rfl zero_le
  have h1 : svRuns ki ka kb ks (svDynArgs tau d) data (make' ys) R exactMove (svCfg target) delta_init adaptation burnin (L + 1) M (fun o => F o.1 o.2) ≤ ε := by
    rw [hF]
    exact h0 data hdata burnin L ki ka kb ks hn
  have h2 := (C99_compare (target_stat := target_stat) (M := M) ht hR hm hk hk' hstyle hcsmc ys htp target hd data hdata adaptation burnin (L + 1) ki ka kb ks).1
    F hFm hF1
  have h3 := h2.1.trans (add_le_add_left h1 _)
  rw [hF] at h3
  exact h3

/-- The script's own numbers (128 observations in dimension 30, 10000 adaptation steps, 5000 steps of burn-in, 45000 samples, 4 chains, 32
particles, `killing`, `forced`) with `MALA_CSMC` and style `filtering`: the guard changes the probability of any event about a chain by
at most `2e-7`. -/
example (data : SvData 128 30) : ∃ R mv make make', sel_resampling (N := 31) (m := Ex) "killing" = .ok R ∧
    sel_last_step (N := 31) (m := Ex) "forced" = .ok mv ∧
    SvType.kernel_maker (n := 127) (diagSvd 30) .MALA_CSMC (svDynArgs 10 30) "filtering" (.level 0.5) R mv true = .ok make ∧
    SvType.kernel_maker (n := 127) (diagSvd 30) .MALA_CSMC (svDynArgs 10 30) "filtering" (.level 0.5) R exactMove true = .ok make' ∧
    ∀ (j : Fin 4) (A : Set (Run (strideLen 45000 1) 128 30)), MeasurableSet A →
      svSamples [1] [2] [3] [4] (svDynArgs 10 30) data (make data.ys) R mv (svCfg 75) 0.01 10000 5000 45000 4 (fun c => A.indicator 1 (c j)) ≤
      svSamples [1] [2] [3] [4] (svDynArgs 10 30) data (make' data.ys) R exactMove (svCfg 75) 0.01 10000 5000 45000 4 (fun c => A.indicator 1 (c j)) +
        ENNReal.ofReal 2e-7 := by
  obtain ⟨R, hR⟩ : ∃ R, sel_resampling (N := 31) (m := Ex) "killing" = .ok R := ⟨_, rfl⟩
  obtain ⟨mv, hm⟩ : ∃ mv, sel_last_step (N := 31) (m := Ex) "forced" = .ok mv := ⟨_, rfl⟩
  obtain ⟨make, hk⟩ : ∃ make, SvType.kernel_maker (n := 127) (diagSvd 30) .MALA_CSMC (svDynArgs 10 30) "filtering" (.level 0.5) R mv true = .ok make := ⟨_, rfl⟩
  obtain ⟨make', hk'⟩ := sv_maker_move hk (by decide) exactMove
  refine ⟨R, mv, make, make', hR, hm, hk, hk', fun j A hA => ?_⟩
  have h := (C99_compare (n := 127) (M := 4) (k := .MALA_CSMC) (tau := 10) (svd := diagSvd 30) (style := "filtering") (target_stat := .level 0.5)
    (backward := true) (N := 31) (by norm_num) hR hm hk hk' (by decide) (by decide) data.ys
    (fun h => by rcases h with h | h <;> cases h) 75 (delta_init := 0.01) (by norm_num) data rfl 10000 5000 45000 [1] [2] [3] [4]).2
    (fun _ => A.indicator 1) j (fun _ => measurable_one.indicator hA) (fun _ _ => Set.indicator_le_self' (fun _ _ => zero_le) _)
  refine h.1.trans (add_le_add_right ?_ _)
  rw [← ENNReal.ofReal_natCast, ← ENNReal.ofReal_mul (Nat.cast_nonneg _)]
  exact ENNReal.ofReal_le_ofReal (by norm_num)

/-- The script's options for `TP_CSMC` and style `twisted` with the default move. -/
example (ys : Traj 10 2) : ∃ R mv make, sel_resampling (N := 31) (m := Ex) "killing" = .ok R ∧ sel_last_step (N := 31) (m := Ex) "forced" = .ok mv ∧
    SvType.kernel_maker (n := 9) (diagSvd 2) .TP_CSMC (svDynArgs 10 2) "twisted" (.level 0.5) R mv true = .ok make ∧
    ∃ n0 : ℕ, ∀ data : SvData 10 2, data.ys = ys → ∀ n_samples, n0 ≤ n_samples → ∀ p : SvOut (strideLen n_samples 1) 4 10 2 → Prop,
      (∀ o, p o ↔ SvOff .TP_CSMC 10 ys 1e-3 (o.means 0) (o.std_devs 0)) → ∀ [DecidablePred p],
      sv_run [1] [2] [3] [4] (svDynArgs 10 2) data (make ys) R mv (svCfg 75) 0.01 100 50 n_samples 4 (fun o => if p o then 1 else 0) ≤
        1 / 100 + (100 + 50 + n_samples : ℕ) * ENNReal.ofReal 3e-12 := by
  obtain ⟨R, hR⟩ : ∃ R, sel_resampling (N := 31) (m := Ex) "killing" = .ok R := ⟨_, rfl⟩
  obtain ⟨mv, hm⟩ : ∃ mv, sel_last_step (N := 31) (m := Ex) "forced" = .ok mv := ⟨_, rfl⟩
  refine ⟨R, mv, _, hR, hm, rfl, ?_⟩
  obtain ⟨n0, h0⟩ := C99_reported (n := 9) (k := .TP_CSMC) (tau := 10) (svd := diagSvd 2) (style := "twisted") (target_stat := .level 0.5)
    (backward := true) (N := 31) (by norm_num) hR hm (by norm_num) rfl (by decide) (by decide) ys
    (fun _ => ⟨by decide, fun h => absurd h (by decide)⟩) 75 (delta_init := 0.01) (by norm_num) 100 (η := 1e-3) (by norm_num) (ε := 1 / 100) (by simp)
  refine ⟨n0, fun data hdata n_samples hn p hp _ => ?_⟩
  refine le_trans (le_of_eq ?_) (h0 data hdata 4 50 n_samples [1] [2] [3] [4] 0 hn)
  refine Ex.congr_fun' _ fun o => ?_
  by_cases ho : p o
  · rw [if_pos ho, if_pos ((hp o).mp ho)]
  · rw [if_neg ho, if_neg fun h => ho ((hp o).mpr h)]

end Verif.Props
