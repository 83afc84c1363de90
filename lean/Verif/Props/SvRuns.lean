import Verif.Lemmas.SvStationary
import Verif.Props.ExpRuns
import Verif.Props.SvRunsKeys

/-!
# `experiments/stochastic_volatility/experiment.py`: the law of the chains (C66, C67)
-/

open scoped ENNReal
open MeasureTheory

namespace Verif.Props
open Verif Verif.Model Verif.Spec Matrix

variable {N n d M : ℕ}

/-! ## Kernels -/

section dyn
variable {tau : ℤ} (ht : 0 < tau)
include ht

theorem sv_tau_pos : (0 : ℝ) < (tau : ℝ) / 100 := div_pos (by exact_mod_cast ht) (by norm_num)

theorem svDynArgs_P0 (d : ℕ) : (svDynArgs tau d).P0.PosDef :=
  sv_P0_posDef 0 (by norm_num) (sv_tau_pos ht) (by norm_num) (by norm_num) d

theorem svDynArgs_Q (d : ℕ) : (svDynArgs tau d).Q.PosDef := sv_Q_posDef 0 _ (sv_tau_pos ht) (by norm_num) (by norm_num) d

end dyn

theorem measurable_svFullLogPdf {D : SvDyn d} (hP : D.P0.PosDef) (hQ : D.Q.PosDef) (ys : Traj (n + 1) d) :
    Measurable (svFullLogPdf ys D) := by
  obtain ⟨c, hc⟩ := C55_sv_mala_target hP hQ ys
  rw [funext hc]
  refine Measurable.add_const ?_ c
  have h := funext fun x => C55_sv_tp { D with F := diagonal D.b * D.F, b := 0 } ys x
  exact h ▸ measurable_mtTarget (svDyn { D with F := diagonal D.b * D.F, b := 0 } n) (measurable_sv_log_likelihood ys)

section makers
variable {svd : Mat d d → SvdOut d} {k : SvType} {tau : ℤ} {style resampling last_step : String} {target_stat : TargetStat}
  {R : Resampling Ex N} {mv : AncestorMove Ex N} {backward : Bool} {make : Traj (n + 1) d → SvKernel Ex (n + 1) d}

theorem sv_maker_ok (ht : 0 < tau) (hR : sel_resampling resampling = .ok R) (hm : sel_last_step last_step = .ok mv)
    (hk : k.kernel_maker svd (svDynArgs tau d) style target_stat R mv backward = .ok make) (hstyle : style ≠ "smoothing")
    (ys : Traj (n + 1) d) : SvOK N (make ys) := by
  have hS := sel_ok hR hm
  have hP := svDynArgs_P0 ht d
  have hQ := svDynArgs_Q ht d
  have htp : ∀ stop, sv_get_tp_csmc_kernel svd (svDynArgs tau d) style target_stat stop R mv backward = .ok make →
      SvOK N (make ys) := by
    intro stop hk
    unfold sv_get_tp_csmc_kernel at hk
    by_cases h1 : style = "marginal"
    · rw [if_pos h1] at hk
      cases hk
      exact .inl ⟨_, sv_tp_step ys hS backward svd _ stop, .inl rfl⟩
    rw [if_neg h1] at hk
    by_cases h2 : style = "filtering"
    · rw [if_pos h2] at hk
      cases hk
      exact .inl ⟨_, sv_atp_step ys hS backward svd _ stop, .inl rfl⟩
    rw [if_neg h2, if_neg hstyle] at hk
    by_cases h4 : style = "twisted"
    · rw [if_pos h4] at hk
      cases hs : statOf (k := n + 1) target_stat with
      | error e => rw [hs] at hk; cases hk
      | ok stat =>
        rw [hs] at hk
        cases hk
        exact .inl ⟨_, CsmcStepOK.of fun delta hd => sv_twisted_ok ys hS backward hd (by norm_num) (sv_tau_pos ht) (by norm_num)
          (by norm_num) stop, .inr ⟨stat, rfl⟩⟩
    · rw [if_neg h4] at hk
      cases hk
  cases k with
  | TP =>
    cases hk
    exact .inr ⟨_, _, tp_stepOK (D := svDyn (svDynArgs tau d) n) hP (fun _ => hQ) (measurable_sv_log_likelihood ys)
      (measurable_jaxGrad2 _) N, rfl⟩
  | MALA =>
    simp only [SvType.kernel_maker, sv_get_mala_kernel] at hk
    split_ifs at hk <;> cases hk
    · exact .inr ⟨_, _, mala_stepOK (measurable_svFullLogPdf hP hQ ys) (measurable_jaxGrad2 _) N false, rfl⟩
    · exact .inr ⟨_, _, mala_stepOK (measurable_svFullLogPdf hP hQ ys) (measurable_jaxGrad2 _) N true, rfl⟩
  | CSMC =>
    simp only [SvType.kernel_maker, sv_get_csmc_kernel] at hk
    split_ifs at hk
    cases hk
    exact .inl ⟨_, CsmcStepOK.of fun delta hd => sv_csmc_ok ys hS hP hQ backward, .inl rfl⟩
  | RW_CSMC =>
    cases hk
    exact .inl ⟨_, CsmcStepOK.of fun delta hd => sv_rw_ok ys hS hP hQ backward hd, .inl rfl⟩
  | MALA_CSMC =>
    simp only [SvType.kernel_maker, sv_get_mala_csmc_kernel] at hk
    split_ifs at hk <;> cases hk
    · exact .inl ⟨_, CsmcStepOK.of fun delta hd => sv_al_ok ys hS hP hQ backward hd, .inl rfl⟩
    · exact .inl ⟨_, CsmcStepOK.of fun delta hd => sv_l_ok ys hS hP hQ backward hd, .inl rfl⟩
  | TP_CSMC => exact htp false hk
  | ADAPTED_CSMC => exact htp true hk

/-! ## Restarts -/

theorem chains_longRuns {K : SvKernel Ex (n + 1) d} {delta : StepSize (n + 1)} {Good : K.S → Prop} (h : ChainsOK K delta Good)
    {s : K.S} (hs : Good s) (burnin n_samples : ℕ) :
    ∃ ν : Measure (Run (strideLen n_samples 1) (n + 1) d), IsProbabilityMeasure ν ∧
      ∀ M (keys : Fin M → Key) (F : (Fin M → Run (strideLen n_samples 1) (n + 1) d) → ℝ≥0∞), Measurable F →
        longRuns keys K s delta burnin n_samples F = ∫⁻ c, F c ∂Measure.pi (fun _ => ν) ∧
        ∀ burnin_key sample_key, sv_chains burnin_key sample_key K s delta burnin n_samples M (fun c => F fun i => runOf K (c i)) =
          longRuns keys K s delta burnin n_samples F := by
  obtain ⟨ν, hν, hlaw, hch⟩ := h.law hs burnin n_samples
  have e : ∀ M (keys : Fin M → Key) (F : (Fin M → Run (strideLen n_samples 1) (n + 1) d) → ℝ≥0∞), Measurable F →
      longRuns keys K s delta burnin n_samples F = ∫⁻ c, F c ∂Measure.pi (fun _ => ν) := fun M keys F hF =>
    vmapM_iid (g := fun key => K.experiment_all key s (fun k s => K.kernel k s delta) (n_samples + burnin) >>= fun r =>
      pure ((runOf K r).drop burnin)) (xs := keys) (μ := fun _ => ν) (fun i f hf => (hlaw (keys i) f hf).symm) hF
  exact ⟨ν, hν, fun M keys F hF => ⟨e M keys F hF, fun bk sk => (hch M bk sk F hF).trans (e M keys F hF).symm⟩⟩

/-- **C66** (restarts): whatever the kernel, the options, the data, the step sizes and the state `init x`, the `M` chains
that the script restarts after the burn-in have the joint law of `M` chains that are never restarted.  This law is that of
independent, identically distributed chains; it depends neither on the keys nor on how the burn-in is split from the
samples. -/
theorem C66_chains (ht : 0 < tau) (hR : sel_resampling resampling = .ok R) (hm : sel_last_step last_step = .ok mv)
    (hk : k.kernel_maker svd (svDynArgs tau d) style target_stat R mv backward = .ok make) (hstyle : style ≠ "smoothing")
    (ys x : Traj (n + 1) d) {delta : StepSize (n + 1)} (hd : PosSteps delta) (burnin n_samples : ℕ) :
    ∃ ν : Measure (Run (strideLen n_samples 1) (n + 1) d), IsProbabilityMeasure ν ∧
      ∀ M (keys : Fin M → Key) (F : (Fin M → Run (strideLen n_samples 1) (n + 1) d) → ℝ≥0∞), Measurable F →
        longRuns keys (make ys) ((make ys).init x) delta burnin n_samples F = ∫⁻ c, F c ∂Measure.pi (fun _ => ν) ∧
        ∀ burnin_key sample_key, sv_chains burnin_key sample_key (make ys) ((make ys).init x) delta burnin n_samples M
          (fun c => F fun i => runOf (make ys) (c i)) = longRuns keys (make ys) ((make ys).init x) delta burnin n_samples F := by
  obtain ⟨Good, h, hg⟩ := (sv_maker_ok ht hR hm hk hstyle ys).chains hd
  exact chains_longRuns h (hg x) burnin n_samples

/-- `one_experiment` (given the data) with chains that are not restarted after the burn-in. -/
noncomputable def svStraightRun (init_key adaptation_key : Key) (keys : Fin M → Key) (D : SvDyn d) (data : SvData (n + 1) d)
    (K : SvKernel Ex (n + 1) d) (R : Resampling Ex N) (mv : AncestorMove Ex N) (cfg : AdaptCfg) (delta_init : ℝ)
    (adaptation burnin n_samples : ℕ) : Ex (SvOut (strideLen n_samples 1) M (n + 1) d) := do
  let init_xs ← sv_init init_key data.ys D R mv data.xs
  let r ← K.adaptation_loop adaptation_key (K.init init_xs) K.kernel cfg svWindow delta_init adaptation
  let chains ← longRuns keys K r.1 r.2 burnin n_samples
  pure (sv_summary (fun flags t => flags t) data D init_xs r.2 chains)

/-- **C66** (whole run): what `one_experiment` returns (given the data) has the law it would have if the chains went on from
the adapted state, index vectors, cached log-densities and gradients included, instead of being restarted after the
burn-in.  All the states that the adaptation can leave are covered: the step sizes are positive, and the cached values of
`TP` and `MALA` are those of their trajectory. -/
theorem C66_run (ht : 0 < tau) (hR : sel_resampling resampling = .ok R) (hm : sel_last_step last_step = .ok mv)
    (hk : k.kernel_maker svd (svDynArgs tau d) style target_stat R mv backward = .ok make) (hstyle : style ≠ "smoothing")
    (data : SvData (n + 1) d) (target : ℤ) {delta_init : ℝ} (hd : 0 < delta_init) (adaptation burnin n_samples : ℕ)
    (init_key adaptation_key burnin_key sample_key : Key) (keys : Fin M → Key)
    (F : SvOut (strideLen n_samples 1) M (n + 1) d → ℝ≥0∞)
    (hF : ∀ xs delta, Measurable fun c : Fin M → Run (strideLen n_samples 1) (n + 1) d =>
      F (sv_summary (fun flags t => flags t) data (svDynArgs tau d) xs delta c)) :
    sv_run init_key adaptation_key burnin_key sample_key (svDynArgs tau d) data (make data.ys) R mv (svCfg target) delta_init
      adaptation burnin n_samples M F =
    svStraightRun init_key adaptation_key keys (svDynArgs tau d) data (make data.ys) R mv (svCfg target) delta_init
      adaptation burnin n_samples F := by
  have hK := sv_maker_ok ht hR hm hk hstyle data.ys
  generalize make data.ys = K at hK
  show (sv_init init_key data.ys (svDynArgs tau d) R mv data.xs : Ex _) (fun xs => K.adaptation_loop adaptation_key (K.init xs) K.kernel
      (svCfg target) svWindow delta_init adaptation fun r => sv_chains burnin_key sample_key K r.1 r.2 burnin n_samples M fun c =>
        F (sv_summary K.pct data (svDynArgs tau d) xs r.2 c)) =
    (sv_init init_key data.ys (svDynArgs tau d) R mv data.xs : Ex _) (fun xs => K.adaptation_loop adaptation_key (K.init xs) K.kernel
      (svCfg target) svWindow delta_init adaptation fun r => longRuns keys K r.1 r.2 burnin n_samples fun c =>
        F (sv_summary (fun flags t => flags t) data (svDynArgs tau d) xs r.2 c))
  refine Ex.congr_fun' _ fun xs => ?_
  refine hK.adapt (by norm_num [svCfg]) (by norm_num [svCfg]) adaptation_key xs svWindow hd adaptation _ _ ?_
  rintro r ⟨_, Good, hg, hs⟩
  obtain ⟨ν, _, h⟩ := chains_longRuns hg hs burnin n_samples
  exact (h M keys _ (hF xs r.2)).2 burnin_key sample_key

/-- **C66** (`one_experiment`): the same with the data drawn. -/
theorem C66_experiment {args : SvArgs} {R : Resampling Ex args.N} {mv : AncestorMove Ex args.N} {svd : Mat args.D args.D → SvdOut args.D}
    {make : Traj (n + 1) args.D → SvKernel Ex (n + 1) args.D} (ht : 0 < args.tau) (hd : 0 < args.delta_init)
    (hR : sel_resampling args.resampling = .ok R) (hm : sel_last_step args.last_step = .ok mv)
    (hk : k.kernel_maker svd (svDynArgs args.tau args.D) args.style target_stat R mv args.backward = .ok make)
    (hstyle : args.style ≠ "smoothing") (key : Key) (keys : Fin args.M → Key)
    (F : SvOut (strideLen args.n_samples 1) args.M (n + 1) args.D → ℝ≥0∞)
    (hF : ∀ data xs delta, Measurable fun c : Fin args.M → Run (strideLen args.n_samples 1) (n + 1) args.D =>
      F (sv_summary (fun flags t => flags t) data (svDynArgs args.tau args.D) xs delta c)) :
    sv_one_experiment key n args R mv make F =
    (sv_get_data (m := Ex) (splitKey key 5 0) 0 0.90 ((args.tau : ℝ) / 100) 0.25 args.D (n + 1) >>= fun data =>
      svStraightRun (splitKey key 5 1) (splitKey key 5 2) keys (svDynArgs args.tau args.D) data (make data.ys) R mv
        (svCfg args.target) args.delta_init args.adaptation args.burnin args.n_samples) F :=
  Ex.congr_fun' (sv_get_data (m := Ex) (splitKey key 5 0) 0 0.90 ((args.tau : ℝ) / 100) 0.25 args.D (n + 1)) fun data =>
    C66_run ht hR hm hk hstyle data args.target hd args.adaptation args.burnin args.n_samples _ _ _ _ keys F (hF data)

/-! ## Stationarity -/

/-- The log-density that the kernels of the experiment sample from: that of the model, but for `MALA`, whose log-density
has no dynamics (C55, C56). -/
noncomputable def svSampled (k : SvType) (tau : ℤ) (ys : Traj (n + 1) d) : Traj (n + 1) d → ℝ :=
  let D := svDynArgs tau d
  if k = .MALA then svIndependent D.P0 D.Q ys else svTarget D.m0 D.P0 D.F D.Q D.b ys

/-- The error of one step: zero for the conditional SMC kernels with `barker_move`, that of `force_move` otherwise (`TP` and
`MALA` always use `force_move`). -/
noncomputable def svErr (k : SvType) (last_step : String) : ℝ≥0∞ :=
  if k = .TP ∨ k = .MALA then forceErr else if last_step = "barker" then 0 else forceErr

theorem svIndependent_eq (tau : ℤ) (ys : Traj (n + 1) d) : svIndependent (svDynArgs tau d).P0 (svDynArgs tau d).Q ys =
    svTarget (svDynArgs tau d).m0 (svDynArgs tau d).P0 0 (svDynArgs tau d).Q 0 ys := by
  have hm : (svDynArgs tau d).m0 = 0 := funext fun _ => zero_mul _
  funext x
  simp only [svTarget, svIndependent, gaussPathLog, pathLogDensity, hm, zero_mulVec, add_zero]

/-- The log-densities sampled from are measurable and have finite, positive mass. -/
theorem svSampled_mass (k : SvType) (ht : 0 < tau) (ys : Traj (n + 1) d) :
    Measurable (svSampled k tau ys) ∧ (∫⁻ x, ENNReal.ofReal (Real.exp (svSampled k tau ys x)) ∂trajVol (n + 1) d ≠ 0 ∧
      ∫⁻ x, ENNReal.ofReal (Real.exp (svSampled k tau ys x)) ∂trajVol (n + 1) d ≠ ∞) := by
  have hP := svDynArgs_P0 ht d
  have hQ := svDynArgs_Q ht d
  unfold svSampled
  dsimp only
  split_ifs
  · rw [svIndependent_eq]
    have hl := measurable_svTarget (D := { svDynArgs tau d with F := 0, b := 0 }) ys hP hQ
    exact ⟨hl, svTarget_mass _ 0 hP hQ 0 ys hl⟩
  · have hl := measurable_svTarget (D := svDynArgs tau d) ys hP hQ
    exact ⟨hl, svTarget_mass _ _ hP hQ _ ys hl⟩

/-- The posterior of the experiment (for `MALA`: the law it samples from). -/
noncomputable def svPosterior (k : SvType) (tau : ℤ) (ys : Traj (n + 1) d) : Measure (Traj (n + 1) d) :=
  lawOf (trajVol (n + 1) d) (svSampled k tau ys)

/-- **C67** (proper posterior): with `tau > 0`, the posterior of the stochastic volatility model exists, for all
observations (zero observations included, for which the likelihood is unbounded). -/
theorem C67_proper (k : SvType) (ht : 0 < tau) (ys : Traj (n + 1) d) : IsProbabilityMeasure (svPosterior k tau ys) :=
  lawOf_isProb (svSampled_mass k ht ys).2 (svSampled_mass k ht ys).1

/-- **C67** (chains): once the step sizes are frozen, a chain of any of the kernels that starts from a draw of the posterior
stays within `(k + 1) svErr` of it, `svErr` being zero for `barker` and the rounding of `force_move` otherwise.
For `TP_CSMC` and `ADAPTED_CSMC` with style `marginal`, the factorisation has to be right; style `filtering` is left out:
it does not keep the posterior (C34). -/
theorem C67_stationary (ht : 0 < tau) (hR : sel_resampling resampling = .ok R) (hm : sel_last_step last_step = .ok mv)
    (hk : k.kernel_maker svd (svDynArgs tau d) style target_stat R mv backward = .ok make) (hstyle : style ≠ "smoothing")
    (ys : Traj (n + 1) d) {delta : StepSize (n + 1)} (hd : PosSteps delta)
    (htp : k = .TP_CSMC ∨ k = .ADAPTED_CSMC → style ≠ "filtering" ∧ (style = "marginal" → ∀ stop,
      ProposalOK svd (svGauss ys (svDynArgs tau d) stop) delta.at)) :
    KeepsLaw (svErr k last_step) (svPosterior k tau ys) (make ys) delta := by
  have hS := sel_ok hR hm
  have hP := svDynArgs_P0 ht d
  have hQ := svDynArgs_Q ht d
  obtain ⟨hl, hZ⟩ := svSampled_mass k ht ys
  have main : ∀ stop, sv_get_tp_csmc_kernel svd (svDynArgs tau d) style target_stat stop R mv backward = .ok make →
      style ≠ "filtering" → (style = "marginal" → ProposalOK svd (svGauss ys (svDynArgs tau d) stop) delta.at) →
      (svSampled k tau ys = svTarget (svDynArgs tau d).m0 (svDynArgs tau d).P0 (svDynArgs tau d).F (svDynArgs tau d).Q
        (svDynArgs tau d).b ys) →
      KeepsLaw (if last_step = "barker" then 0 else forceErr) (svPosterior k tau ys) (make ys) delta := by
    intro stop hk h2 h1' e
    unfold svPosterior
    rw [e] at hl hZ ⊢
    unfold sv_get_tp_csmc_kernel at hk
    by_cases h1 : style = "marginal"
    · rw [if_pos h1] at hk
      cases hk
      exact csmcSv_keeps (sv_tp_ok ys hS backward stop (h1' h1) hd) hl hZ
    rw [if_neg h1, if_neg h2, if_neg hstyle] at hk
    by_cases h4 : style = "twisted"
    · rw [if_pos h4] at hk
      cases hs : statOf (k := n + 1) target_stat with
      | error e => rw [hs] at hk; cases hk
      | ok stat =>
        rw [hs] at hk
        cases hk
        exact csmcSv_keeps (sv_twisted_ok ys hS backward hd (by norm_num) (sv_tau_pos ht) (by norm_num)
          (by norm_num) stop) hl hZ
    · rw [if_neg h4] at hk
      cases hk
  cases k with
  | TP =>
    cases hk
    exact vgSv_keeps (tp_stepOK (D := svDyn (svDynArgs tau d) n) hP (fun _ => hQ) (measurable_sv_log_likelihood ys)
      (measurable_jaxGrad2 _) N) (num_pos hd) hl hZ fun key => C44_sv_tp ys hP hQ (num_pos hd) key N
  | MALA =>
    simp only [SvType.kernel_maker, sv_get_mala_kernel] at hk
    split_ifs at hk <;> cases hk
    · exact vgSv_keeps (mala_stepOK (measurable_svFullLogPdf hP hQ ys) (measurable_jaxGrad2 _) N false) (num_pos hd) hl hZ
        fun key => C44_sv_mala_experiment (by norm_num) (sv_tau_pos ht) (by norm_num) (by norm_num) ys (num_pos hd) false key N
    · exact vgSv_keeps (mala_stepOK (measurable_svFullLogPdf hP hQ ys) (measurable_jaxGrad2 _) N true) (num_pos hd) hl hZ
        fun key => C44_sv_mala_experiment (by norm_num) (sv_tau_pos ht) (by norm_num) (by norm_num) ys (num_pos hd) true key N
  | CSMC =>
    simp only [SvType.kernel_maker, sv_get_csmc_kernel] at hk
    split_ifs at hk
    cases hk
    exact csmcSv_keeps (sv_csmc_ok ys hS hP hQ backward) hl hZ
  | RW_CSMC =>
    cases hk
    exact csmcSv_keeps (sv_rw_ok ys hS hP hQ backward hd) hl hZ
  | MALA_CSMC =>
    simp only [SvType.kernel_maker, sv_get_mala_csmc_kernel] at hk
    split_ifs at hk <;> cases hk
    · exact csmcSv_keeps (sv_al_ok ys hS hP hQ backward hd) hl hZ
    · exact csmcSv_keeps (sv_l_ok ys hS hP hQ backward hd) hl hZ
  | TP_CSMC => exact main false hk (htp (Or.inl rfl)).1 (fun h => (htp (Or.inl rfl)).2 h false) rfl
  | ADAPTED_CSMC => exact main true hk (htp (Or.inr rfl)).1 (fun h => (htp (Or.inr rfl)).2 h true) rfl

end makers

/-! ## Examples -/

/-- The twisted kernel, `T = 10`, `D = 2`: four chains of 450 samples after 50 steps of burn-in. -/
example (ys x : Traj 10 2) : ∃ make, SvType.kernel_maker (m := Ex) (N := 31) (diagSvd 2) .TP_CSMC (svDynArgs 10 2) "twisted"
    (.level 0.5) (fun key w i j c => killing key w i j c) (fun key w k => barker_move key w k) true = .ok make ∧
    KeepsLaw 0 (svPosterior .TP_CSMC 10 ys) (make ys) (.perStep fun _ => 0.01) ∧
    ∃ ν : Measure (Run 450 10 2), IsProbabilityMeasure ν ∧ ∀ F : (Fin 4 → Run 450 10 2) → ℝ≥0∞, Measurable F →
      sv_chains [3] [4] (make ys) ((make ys).init x) (.perStep fun _ => 0.01) 50 450 4 (fun c => F fun i => runOf (make ys) (c i)) =
        ∫⁻ c, F c ∂Measure.pi (fun _ => ν) := by
  have hR : sel_resampling (N := 31) (m := Ex) "killing" = .ok fun key w i j c => killing key w i j c := rfl
  have hm : sel_last_step (N := 31) (m := Ex) "barker" = .ok fun key w k => barker_move key w k := rfl
  have hd : PosSteps (.perStep fun _ : Fin 10 => (0.01 : ℝ)) := fun _ => by norm_num [StepSize.at]
  refine ⟨_, rfl, ?_, ?_⟩
  · have h := C67_stationary (n := 9) (k := .TP_CSMC) (tau := 10) (svd := (diagSvd 2)) (style := "twisted") (target_stat := .level 0.5)
      (backward := true) (by norm_num) hR hm rfl (by decide) ys hd fun _ => ⟨by decide, fun h => absurd h (by decide)⟩
    have e : svErr .TP_CSMC "barker" = 0 := by simp [svErr]
    rwa [e] at h
  · obtain ⟨ν, hν, h⟩ := C66_chains (n := 9) (k := .TP_CSMC) (tau := 10) (svd := (diagSvd 2)) (style := "twisted") (target_stat := .level 0.5)
      (backward := true) (by norm_num) hR hm rfl (by decide) ys x hd 50 450
    exact ⟨ν, hν, fun F hF => ((h 4 (splitKey [] 4) F hF).2 [3] [4]).trans (h 4 (splitKey [] 4) F hF).1⟩

/-- A full run of the script's `one_experiment` (`D = 2`, `T = 10`, four chains): the expected posterior mean reported for
chain 0, time 3, component 1 (its positive part). -/
example (keys : Fin 4 → Key) : ∃ R mv make, sel_resampling (N := 31) (m := Ex) "killing" = .ok R ∧
    sel_last_step (N := 31) (m := Ex) "barker" = .ok mv ∧
    SvType.kernel_maker (n := 9) (diagSvd 2) .TP_CSMC (svDynArgs 10 2) "twisted" (.level 0.5) R mv true = .ok make ∧
    sv_one_experiment [7] 9 svExampleArgs R mv make (fun o => ENNReal.ofReal (o.means (0 : Fin 4) 3 (1 : Fin 2))) =
    (sv_get_data (m := Ex) (splitKey [7] 5 0) 0 0.90 (((10 : ℤ) : ℝ) / 100) 0.25 2 10 >>= fun data =>
      svStraightRun (splitKey [7] 5 1) (splitKey [7] 5 2) keys (svDynArgs 10 2) data (make data.ys) R mv
        (svCfg 75) 0.01 100 50 450) (fun o => ENNReal.ofReal (o.means 0 3 1)) := by
  refine ⟨_, _, _, rfl, rfl, rfl, ?_⟩
  refine C66_experiment (n := 9) (args := svExampleArgs) (k := .TP_CSMC) (svd := diagSvd 2) (target_stat := .level 0.5) (by decide)
    (by norm_num [svExampleArgs]) rfl rfl rfl (by decide) [7] keys _ fun data xs delta => ?_
  simp only [sv_summary, meanA]
  fun_prop

end Verif.Props
