import Verif.Lemmas.LongAverages
import Verif.Lemmas.SvMoments
import Verif.Props.Smc

/-!
# C96: the whole run of the stochastic volatility experiment

From the particle filter that draws the first trajectory, through the adaptation of the step sizes and the burn-in, to the samples.
-/

open scoped ENNReal
open MeasureTheory ProbabilityTheory

namespace Verif.Props
open Verif Verif.Model Verif.Spec

variable {N N' n d M : ℕ} {resampling : String} {R : Resampling Ex N} {mv : AncestorMove Ex N}
  {svd : Mat d d → SvdOut d} {tau : ℤ} {k : SvType} {style : String} {target_stat : TargetStat} {backward : Bool}
  {make : Traj (n + 1) d → SvKernel Ex (n + 1) d} {K : SvKernel Ex (n + 1) d}

/-- The chains of `one_experiment` (given the data): their samples and their acceptance flags. -/
noncomputable def svSamples (init_key adaptation_key burnin_key sample_key : Key) (D : SvDyn d) (data : SvData (n + 1) d)
    (K : SvKernel Ex (n + 1) d) (R : Resampling Ex N) (mv : AncestorMove Ex N) (cfg : AdaptCfg) (delta_init : ℝ)
    (adaptation burnin n_samples M : ℕ) : Ex (Fin M → Run (strideLen n_samples 1) (n + 1) d) := do
  let init_xs ← sv_init init_key data.ys D R mv data.xs
  let r ← K.adaptation_loop adaptation_key (K.init init_xs) K.kernel cfg svWindow delta_init adaptation
  let chains ← sv_chains burnin_key sample_key K r.1 r.2 burnin n_samples M
  pure fun i => runOf K (chains i)

/-- **C96** (same program): the means, standard deviations, acceptance rates and energies that `one_experiment` returns are those of
the samples and flags of these chains. -/
theorem C96_same (init_key adaptation_key burnin_key sample_key : Key) (D : SvDyn d) (data : SvData (n + 1) d)
    (K : SvKernel Ex (n + 1) d) (R : Resampling Ex N) (mv : AncestorMove Ex N) (cfg : AdaptCfg) (delta_init : ℝ)
    (adaptation burnin n_samples : ℕ)
    (F : (Fin M → Fin (n + 1) → Vec d) → (Fin M → Fin (n + 1) → Vec d) → (Fin M → Fin (n + 1) → ℝ) → (Fin (strideLen n_samples 1) → Fin M → ℝ) → ℝ≥0∞) :
    sv_run init_key adaptation_key burnin_key sample_key D data K R mv cfg delta_init adaptation burnin n_samples M
      (fun o => F o.means o.std_devs o.final_pct o.energy) =
    svSamples init_key adaptation_key burnin_key sample_key D data K R mv cfg delta_init adaptation burnin n_samples M
      (fun c => F (fun i t j => meanA fun k => (c i).1 k t j) (fun i t j => stdA fun k => (c i).1 k t j)
        (fun i t => meanA (fun k => (c i).2 k t) * 1)
        (fun k i => sv_log_pdf ((c i).1 k) data.ys D.m0 data.inv_chol_P0 D.F data.inv_chol_Q D.b)) := rfl

/-- The step sizes that the adaptation keeps to. -/
def StepRange (δ : Fin (n + 1) → ℝ) : Prop := ∀ t, 1e-5 ≤ δ t ∧ δ t ≤ 10

theorem StepRange.pos {δ : Fin (n + 1) → ℝ} (h : StepRange δ) (t : Fin (n + 1)) : 0 < δ t := lt_of_lt_of_le (by norm_num) (h t).1

theorem stepRange_adapt (target : ℤ) (W i : ℕ) (acc : Fin (n + 1) → Option ℝ) (δ : Fin (n + 1) → ℝ) :
    StepRange fun t => adaptDelta (svCfg target) W i (acc t) (δ t) := fun t => by
  constructor
  · exact le_min (le_max_right _ _) (by norm_num [svCfg])
  · refine (min_le_right _ _).trans ?_
    norm_num [svCfg]

/-- What the options `TP_CSMC` and `ADAPTED_CSMC` need: another style than `filtering`, and a right factorisation. -/
def TpOK (svd : Mat d d → SvdOut d) (tau : ℤ) (k : SvType) (style : String) (ys : Traj (n + 1) d) : Prop :=
  k = .TP_CSMC ∨ k = .ADAPTED_CSMC → style ≠ "filtering" ∧ (style = "marginal" → ∀ δ : Fin (n + 1) → ℝ, StepRange δ → ∀ stop,
      ProposalOK svd (svGauss ys (svDynArgs tau d) stop) δ)

/-- The conditional SMC kernels of the experiment. -/
theorem sv_csmc_form (ht : 0 < tau) (hR : sel_resampling resampling = .ok R) (hm : ExactSel mv)
    (hk : k.kernel_maker svd (svDynArgs tau d) style target_stat R mv backward = .ok make) (hstyle : style ≠ "smoothing")
    (hcsmc : k ≠ .TP ∧ k ≠ .MALA) (ys : Traj (n + 1) d) (htp : TpOK svd tau k style ys) :
    ∃ ker : Key → (Fin (n + 1) → Vec d) → (Fin (n + 1) → Fin (N + 1)) → (Fin (n + 1) → ℝ) →
        Ex ((Fin (n + 1) → Vec d) × (Fin (n + 1) → Fin (N + 1))),
      (make ys = csmcSvPlain ker ∨ ∃ stat, make ys = csmcSvTwisted stat ker) ∧
      ∀ δ, StepRange δ → CsmcOK 0 (svSampled k tau ys) fun key x b => ker key x b δ := by
  have hS := sel_ok_exact hR hm
  have hP := svDynArgs_P0 ht d
  have hQ := svDynArgs_Q ht d
  have main : ∀ stop, sv_get_tp_csmc_kernel svd (svDynArgs tau d) style target_stat stop R mv backward = .ok make →
      style ≠ "filtering" → (style = "marginal" → ∀ δ, StepRange δ → ProposalOK svd (svGauss ys (svDynArgs tau d) stop) δ) →
      ∃ ker : Key → (Fin (n + 1) → Vec d) → (Fin (n + 1) → Fin (N + 1)) → (Fin (n + 1) → ℝ) →
          Ex ((Fin (n + 1) → Vec d) × (Fin (n + 1) → Fin (N + 1))),
        (make ys = csmcSvPlain ker ∨ ∃ stat, make ys = csmcSvTwisted stat ker) ∧
        ∀ δ, StepRange δ → CsmcOK 0 (svTarget (svDynArgs tau d).m0 (svDynArgs tau d).P0 (svDynArgs tau d).F (svDynArgs tau d).Q
          (svDynArgs tau d).b ys) fun key x b => ker key x b δ := by
    intro stop hk h2 h1'
    unfold sv_get_tp_csmc_kernel at hk
    by_cases h1 : style = "marginal"
    · rw [if_pos h1] at hk
      cases hk
      exact ⟨_, .inl rfl, fun δ hδ => sv_tp_ok ys hS backward stop (h1' h1 δ hδ) hδ.pos⟩
    rw [if_neg h1, if_neg h2, if_neg hstyle] at hk
    by_cases h4 : style = "twisted"
    · rw [if_pos h4] at hk
      cases hs : statOf (k := n + 1) target_stat with
      | error e => rw [hs] at hk; cases hk
      | ok stat =>
        rw [hs] at hk
        cases hk
        exact ⟨_, .inr ⟨stat, rfl⟩, fun δ hδ => sv_twisted_ok ys hS backward hδ.pos (by norm_num) (sv_tau_pos ht) (by norm_num)
          (by norm_num) stop⟩
    · rw [if_neg h4] at hk
      cases hk
  cases k with
  | TP => exact absurd rfl hcsmc.1
  | MALA => exact absurd rfl hcsmc.2
  | CSMC =>
    simp only [SvType.kernel_maker, sv_get_csmc_kernel] at hk
    split_ifs at hk
    cases hk
    exact ⟨_, .inl rfl, fun δ hδ => sv_csmc_ok ys hS hP hQ backward⟩
  | RW_CSMC =>
    cases hk
    exact ⟨_, .inl rfl, fun δ hδ => sv_rw_ok ys hS hP hQ backward hδ.pos⟩
  | MALA_CSMC =>
    simp only [SvType.kernel_maker, sv_get_mala_csmc_kernel] at hk
    split_ifs at hk <;> cases hk
    · exact ⟨_, .inl rfl, fun δ hδ => sv_al_ok ys hS hP hQ backward hδ.pos⟩
    · exact ⟨_, .inl rfl, fun δ hδ => sv_l_ok ys hS hP hQ backward hδ.pos⟩
  | TP_CSMC => exact main false hk (htp (.inl rfl)).1 fun h δ hδ => (htp (.inl rfl)).2 h δ hδ false
  | ADAPTED_CSMC => exact main true hk (htp (.inr rfl)).1 fun h δ hδ => (htp (.inr rfl)).2 h δ hδ true

/-- What is used of a kernel of the experiment: it has the routines of the conditional SMC kernels, and with frozen step sizes it keeps the
posterior and its runs are consistent. -/
structure SvGood (N : ℕ) (k : SvType) (tau : ℤ) (ys : Traj (n + 1) d) (K : SvKernel Ex (n + 1) d) : Prop where
  form : ∃ ker : Key → (Fin (n + 1) → Vec d) → (Fin (n + 1) → Fin (N + 1)) → (Fin (n + 1) → ℝ) →
      Ex ((Fin (n + 1) → Vec d) × (Fin (n + 1) → Fin (N + 1))),
    (K = csmcSvPlain ker ∨ ∃ stat, K = csmcSvTwisted stat ker) ∧
    ∀ δ, StepRange δ → CsmcOK 0 (svSampled k tau ys) fun key x b => ker key x b δ
  consistent : ∀ δ, StepRange δ → RunsConsistent (trajVol (n + 1) d) (svPosterior k tau ys) K (.perStep δ)

theorem sv_good (ht : 0 < tau) (hR : sel_resampling resampling = .ok R) (hm : ExactSel mv) (hN : N ≠ 0)
    (hk : k.kernel_maker svd (svDynArgs tau d) style target_stat R mv backward = .ok make) (hstyle : style ≠ "smoothing")
    (hcsmc : k ≠ .TP ∧ k ≠ .MALA) (ys : Traj (n + 1) d) (htp : TpOK svd tau k style ys) : SvGood N k tau ys (make ys) :=
  ⟨sv_csmc_form ht hR hm hk hstyle hcsmc ys htp, fun δ hδ => sv_consistent ht hR hm hN hk hstyle hcsmc ys (delta := .perStep δ)
    (fun t => hδ.pos t) fun h => ⟨(htp h).1, fun h' stop => (htp h).2 h' _ hδ stop⟩⟩

/-- The adapted step sizes and the chains of `one_experiment` (given the data). -/
noncomputable def svRuns (init_key adaptation_key burnin_key sample_key : Key) (D : SvDyn d) (data : SvData (n + 1) d)
    (K : SvKernel Ex (n + 1) d) (R : Resampling Ex N) (mv : AncestorMove Ex N) (cfg : AdaptCfg) (delta_init : ℝ)
    (adaptation burnin n_samples M : ℕ) : Ex (StepSize (n + 1) × (Fin M → Run (strideLen n_samples 1) (n + 1) d)) := do
  let init_xs ← sv_init init_key data.ys D R mv data.xs
  let r ← K.adaptation_loop adaptation_key (K.init init_xs) K.kernel cfg svWindow delta_init adaptation
  let chains ← sv_chains burnin_key sample_key K r.1 r.2 burnin n_samples M
  pure (r.2, fun i => runOf K (chains i))

/-- The law of the chains of the experiment is a finite mixture of the laws of runs with frozen step sizes, from starts with a density. -/
theorem sv_mixture_all (ht : 0 < tau) (hR : sel_resampling resampling = .ok R) {ys : Traj (n + 1) d} (hG : SvGood N' k tau ys K) (target : ℤ) {delta_init : ℝ}
    (hd : 1e-5 ≤ delta_init ∧ delta_init ≤ 10) (adaptation : ℕ) :
    ∃ Q : Mixture (trajVol (n + 1) d) StepRange, ∀ (data : SvData (n + 1) d), data.ys = ys → ∀ (M burnin n_samples : ℕ)
      (ki ka kb ks : Key) (keys : Fin M → Key) (f : StepSize (n + 1) → (Fin M → Run (strideLen n_samples 1) (n + 1) d) → ℝ≥0∞), (∀ δ, Measurable (f δ)) →
      svRuns ki ka kb ks (svDynArgs tau d) data K R mv (svCfg target) delta_init adaptation burnin n_samples M (fun o => f o.1 o.2) =
        (letI := Q.fin; ∑ i, Q.w i * ∫⁻ x, longRuns keys K (K.init x) (.perStep (Q.δ i)) burnin n_samples
          (f (.perStep (Q.δ i))) ∂Q.μ i) := by
  obtain ⟨ν, _, hν, _, hlaw⟩ := C95_sv_start (N := N) ht hR ys
  obtain ⟨ker, hform, hok⟩ := hG.form
  have hl := (svSampled_mass k ht ys).1
  have hK : AdaptOK (trajVol (n + 1) d) StepRange fun key s δ => ker key s.1 s.2 δ :=
    ⟨fun δ hδ => (hok δ hδ).markov [], fun δ hδ key x b f hf => (hok δ hδ).free key [] x b f hf, fun δ hδ b A hA h0 => (hok δ hδ).null hl b hA h0⟩
  have h0 : StepRange fun _ : Fin (n + 1) => delta_init * 1 := fun _ => by rwa [mul_one]
  suffices ∃ Q : Mixture (trajVol (n + 1) d) StepRange, ∀ (M burnin n_samples : ℕ) (ka kb ks : Key) (keys : Fin M → Key)
      (f : StepSize (n + 1) → (Fin M → Run (strideLen n_samples 1) (n + 1) d) → ℝ≥0∞), (∀ δ, Measurable (f δ)) →
      (Measurable fun x => adaptedRuns K (svCfg target) svWindow delta_init adaptation burnin n_samples ka kb ks x (fun o => f o.1 o.2)) ∧
      ∫⁻ x, adaptedRuns K (svCfg target) svWindow delta_init adaptation burnin n_samples ka kb ks x (fun o => f o.1 o.2) ∂ν =
        (letI := Q.fin; ∑ i, Q.w i * ∫⁻ x, longRuns keys K (K.init x) (.perStep (Q.δ i)) burnin n_samples
          (f (.perStep (Q.δ i))) ∂Q.μ i) by
    obtain ⟨Q, hQ⟩ := this
    refine ⟨Q, ?_⟩
    rintro data rfl M burnin n_samples ki ka kb ks keys f hf
    obtain ⟨h1, h2⟩ := hQ M burnin n_samples ka kb ks keys f hf
    exact (hlaw ki mv data.xs _ h1).trans h2
  rcases hform with h | ⟨stat, h⟩
  · rw [h]
    exact csmcSv_mixture (W := svWindow) (upd := fun i a δ t => adaptDelta (svCfg target) svWindow i (nanmean (a t)) (δ t)) (fun _ _ _ _ _ => rfl)
      (fun i a δ => stepRange_adapt target svWindow i _ δ) h0 hK
      (fun δ hδ => csmcSv_chainsOK (hok δ hδ).markov (hok δ hδ).relabels (hok δ hδ).free) hν adaptation
  · rw [h]
    exact csmcSv_mixture (W := svWindow) (upd := fun i a δ t => adaptDelta (svCfg target) svWindow i (stat fun t => nanmean (a t)) (δ t)) (fun _ _ _ _ _ => rfl)
      (fun i a δ => stepRange_adapt target svWindow i _ δ) h0 hK
      (fun δ hδ => csmcSv_chainsOK (hok δ hδ).markov (hok δ hδ).relabels (hok δ hδ).free) hν adaptation

/-- The law of one chain of the experiment is a finite mixture of the laws of runs with frozen step sizes, from starts with a density. -/
theorem sv_mixture (ht : 0 < tau) (hR : sel_resampling resampling = .ok R) {ys : Traj (n + 1) d} (hG : SvGood N' k tau ys K) (target : ℤ) {delta_init : ℝ}
    (hd : 1e-5 ≤ delta_init ∧ delta_init ≤ 10) (adaptation : ℕ) :
    ∃ Q : Mixture (trajVol (n + 1) d) StepRange, ∀ (data : SvData (n + 1) d), data.ys = ys → ∀ (M burnin n_samples : ℕ)
      (ki ka kb ks key : Key) (j : Fin M) f, Measurable f →
      svSamples ki ka kb ks (svDynArgs tau d) data K R mv (svCfg target) delta_init adaptation burnin n_samples M (fun c => f (c j)) =
        (letI := Q.fin; ∑ i, Q.w i * ∫⁻ x, K.experiment_all key (K.init x)
          (fun k s => K.kernel k s (.perStep (Q.δ i))) (n_samples + burnin) (fun r => f ((runOf _ r).drop burnin)) ∂Q.μ i) := by
  obtain ⟨Q, hQ⟩ := sv_mixture_all ht hR hG target hd adaptation
  obtain ⟨ker, hform, hok⟩ := hG.form
  refine ⟨Q, fun data hdata M burnin n_samples ki ka kb ks key j f hf => ?_⟩
  refine (hQ data hdata M burnin n_samples ki ka kb ks (fun _ => key) (fun _ c => f (c j)) fun _ => by fun_prop).trans ?_
  let _ := Q.fin
  refine Finset.sum_congr rfl fun i _ => congrArg _ (lintegral_congr fun x => ?_)
  have hch := fun adapt => csmcSv_chainsOK (adapt := adapt) (delta := .perStep (Q.δ i)) (hok _ (Q.ok i)).markov (hok _ (Q.ok i)).relabels (hok _ (Q.ok i)).free
  rcases hform with h | ⟨stat, h⟩ <;> rw [h]
  all_goals
    obtain ⟨ρ, _, h1, h2, _⟩ := csmcSv_longRuns (hch _) burnin n_samples x
    exact ((h2 M _ _ (by fun_prop)).trans ((measurePreserving_eval (fun _ : Fin M => ρ) j).lintegral_comp hf)).trans (h1 key f hf).symm

/-- The samples of the experiment, for every last move that keeps the weights. -/
theorem sv_samples (ht : 0 < tau) (hR : sel_resampling resampling = .ok R) {ys : Traj (n + 1) d} (hG : SvGood N' k tau ys K) (target : ℤ) {delta_init : ℝ}
    (hd : 1e-5 ≤ delta_init ∧ delta_init ≤ 10) (adaptation : ℕ) {ε : ℝ≥0∞} (hε : ε ≠ 0) :
    ∃ n0 : ℕ, ∀ (data : SvData (n + 1) d), data.ys = ys → ∀ (M burnin n_samples : ℕ) (ki ka kb ks : Key) (j : Fin M)
      (l : Fin (strideLen n_samples 1)), n0 ≤ burnin + l →
      TVLe ε (fun f => svSamples ki ka kb ks (svDynArgs tau d) data K R mv (svCfg target) delta_init adaptation burnin n_samples M
          (fun c => f ((c j).1 l)))
        (fun f => ∫⁻ x, f x ∂svPosterior k tau ys) := by
  obtain ⟨Q, hQ⟩ := sv_mixture ht hR hG target hd adaptation
  let _ := Q.fin
  have hc : ∀ i, RunsConsistent (trajVol (n + 1) d) (svPosterior k tau ys) K (.perStep (Q.δ i)) := fun i =>
    hG.consistent _ (Q.ok i)
  choose n0 hn0 using fun i => (hc i).samples.1 (Q.μ i) (Q.prob i) (Q.ac i) ε hε
  refine ⟨Finset.univ.sup n0, fun data hdata M burnin n_samples ki ka kb ks j l hl f hf hf1 => ?_⟩
  have e := hQ data hdata M burnin n_samples ki ka kb ks [] j (fun r => f (r.1 l)) (by fun_prop)
  beta_reduce
  rw [e]
  have hl' : (l : ℕ) + burnin < strideLen (n_samples + burnin) 1 := by
    have := l.2
    simp only [strideLen] at this ⊢
    omega
  have h1 := fun i => hn0 i [] (n_samples + burnin) ⟨l + burnin, hl'⟩
    ((Finset.le_sup (Finset.mem_univ i)).trans (by show _ ≤ (l : ℕ) + burnin; omega)) f hf hf1
  have hs := Q.sum
  constructor
  · calc _ ≤ ∑ i, Q.w i * (∫⁻ x, f x ∂svPosterior k tau ys + ε) := Finset.sum_le_sum fun i _ => mul_le_mul_right (h1 i).1 _
      _ = _ := by rw [← Finset.sum_mul, hs, one_mul]
  · calc ∫⁻ x, f x ∂svPosterior k tau ys = ∑ i, Q.w i * ∫⁻ x, f x ∂svPosterior k tau ys := by rw [← Finset.sum_mul, hs, one_mul]
      _ ≤ ∑ i, Q.w i * (_ + ε) := Finset.sum_le_sum fun i _ => mul_le_mul_right (h1 i).2 _
      _ = _ := by simp only [mul_add, Finset.sum_add_distrib]; rw [← Finset.sum_mul, hs, one_mul]; rfl

/-- **C96** (samples): the samples of the experiment come from the posterior in the long run. For every number of adaptation steps and
every accuracy there is a number of steps after which every sample of every chain has the posterior law up to this accuracy, in total
variation, whatever the keys, the length of the burn-in, the number of samples and chains and the true trajectory. Conditional SMC
kernels with the Barker move and at least two particles. -/
theorem C96_samples (ht : 0 < tau) (hR : sel_resampling resampling = .ok R) (hm : sel_last_step "barker" = .ok mv) (hN : N ≠ 0)
    (hk : k.kernel_maker svd (svDynArgs tau d) style target_stat R mv backward = .ok make) (hstyle : style ≠ "smoothing")
    (hcsmc : k ≠ .TP ∧ k ≠ .MALA) (ys : Traj (n + 1) d) (htp : TpOK svd tau k style ys) (target : ℤ) {delta_init : ℝ}
    (hd : 1e-5 ≤ delta_init ∧ delta_init ≤ 10) (adaptation : ℕ) {ε : ℝ≥0∞} (hε : ε ≠ 0) :
    ∃ n0 : ℕ, ∀ (data : SvData (n + 1) d), data.ys = ys → ∀ (M burnin n_samples : ℕ) (ki ka kb ks : Key) (j : Fin M)
      (l : Fin (strideLen n_samples 1)), n0 ≤ burnin + l →
      TVLe ε (fun f => svSamples ki ka kb ks (svDynArgs tau d) data (make ys) R mv (svCfg target) delta_init adaptation burnin n_samples M
          (fun c => f ((c j).1 l)))
        (fun f => ∫⁻ x, f x ∂svPosterior k tau ys) :=
  sv_samples ht hR (sv_good (target_stat := target_stat) ht hR (.inl hm) hN hk hstyle hcsmc ys htp) target hd adaptation hε

/-- A probability bound for one chain, for all step sizes that can come out of the adaptation, holds for the experiment. -/
theorem sv_mixture_le (ht : 0 < tau) (hR : sel_resampling resampling = .ok R) {ys : Traj (n + 1) d} (hG : SvGood N' k tau ys K) (target : ℤ) {delta_init : ℝ}
    (hd : 1e-5 ≤ delta_init ∧ delta_init ≤ 10) (adaptation : ℕ) {ε : ℝ≥0∞} (E : ∀ k, Run k (n + 1) d → ℝ≥0∞) (hE : ∀ k, Measurable (E k))
    (h : ∀ δ, StepRange δ → ∀ ν : Measure (Traj (n + 1) d), IsProbabilityMeasure ν → ν ≪ trajVol (n + 1) d → ∃ n0 : ℕ, ∀ (key : Key) (b n_samples : ℕ),
      n0 ≤ n_samples → ∫⁻ x, K.experiment_all key (K.init x) (fun k s => K.kernel k s (.perStep δ)) (n_samples + b)
        (fun r => E _ ((runOf _ r).drop b)) ∂ν ≤ ε) :
    ∃ n0 : ℕ, ∀ (data : SvData (n + 1) d), data.ys = ys → ∀ (M burnin n_samples : ℕ) (ki ka kb ks : Key) (j : Fin M), n0 ≤ n_samples →
      svSamples ki ka kb ks (svDynArgs tau d) data K R mv (svCfg target) delta_init adaptation burnin n_samples M
        (fun c => E _ (c j)) ≤ ε := by
  obtain ⟨Q, hQ⟩ := sv_mixture ht hR hG target hd adaptation
  let _ := Q.fin
  choose n0 hn0 using fun i => h (Q.δ i) (Q.ok i) (Q.μ i) (Q.prob i) (Q.ac i)
  refine ⟨Finset.univ.sup n0, fun data hdata M burnin n_samples ki ka kb ks j hn => ?_⟩
  rw [hQ data hdata M burnin n_samples ki ka kb ks [] j (E _) (hE _)]
  have hs := Q.sum
  calc _ ≤ ∑ i, Q.w i * ε := Finset.sum_le_sum fun i _ =>
        mul_le_mul_right (hn0 i [] burnin n_samples ((Finset.le_sup (Finset.mem_univ i)).trans hn)) _
    _ = ε := by rw [← Finset.sum_mul, hs, one_mul]

/-- The averages of one chain with frozen step sizes. -/
theorem sv_run_average (ht : 0 < tau) {ys : Traj (n + 1) d} (hG : SvGood N' k tau ys K) {δ : Fin (n + 1) → ℝ} (hδ : StepRange δ)
    {f : Traj (n + 1) d → ℝ} (hf : Measurable f) (hi : Integrable f (svPosterior k tau ys)) {ν : Measure (Traj (n + 1) d)}
    [IsProbabilityMeasure ν] (hν : ν ≪ trajVol (n + 1) d) {η : ℝ} (hη : 0 < η) {ε : ℝ≥0∞} (hε : ε ≠ 0) :
    ∃ n0 : ℕ, ∀ (key : Key) (b n_samples : ℕ), n0 ≤ n_samples →
      ∫⁻ x, K.experiment_all key (K.init x) (fun k s => K.kernel k s (.perStep δ)) (n_samples + b)
        (fun r => Set.indicator {r : Run (strideLen n_samples 1) (n + 1) d | η < |sampleMean f r.1 - ∫ x, f x ∂svPosterior k tau ys|} 1
          ((runOf _ r).drop b)) ∂ν ≤ ε := by
  obtain ⟨ker, hform, hok⟩ := hG.form
  obtain ⟨hl, hZ⟩ := svSampled_mass k ht ys
  have := C67_proper (n := n) (d := d) k ht ys
  have hc := hG.consistent δ hδ
  have hν' : ν ≪ svPosterior k tau ys := hν.trans (ac_lawOf hl hZ.2)
  have hav := hc.averages.1 (svPosterior k tau ys) this lawOf_ac
  rcases hform with h | ⟨stat, h⟩ <;> rw [h] at hav ⊢
  all_goals
    exact run_average (π := svPosterior k tau ys) (csmcSv_chainsOK (delta := .perStep δ) (hok δ hδ).markov (hok δ hδ).relabels (hok δ hδ).free)
      (csmcSv_keeps (delta := .perStep δ) (hok δ hδ) hl hZ)
      (fun key b f hf hf1 => csmcSv_last (delta := .perStep δ) (hok δ hδ) hl hZ key b hf hf1) hav hf hi hν' hη hε

/-- The averages of the experiment, for every last move that keeps the weights. -/
theorem sv_averages (ht : 0 < tau) (hR : sel_resampling resampling = .ok R) {ys : Traj (n + 1) d} (hG : SvGood N' k tau ys K) (target : ℤ) {delta_init : ℝ}
    (hd : 1e-5 ≤ delta_init ∧ delta_init ≤ 10) (adaptation : ℕ) {f : Traj (n + 1) d → ℝ} (hf : Measurable f)
    (hi : Integrable f (svPosterior k tau ys)) {η : ℝ} (hη : 0 < η) {ε : ℝ≥0∞} (hε : ε ≠ 0) :
    ∃ n0 : ℕ, ∀ (data : SvData (n + 1) d), data.ys = ys → ∀ (M burnin n_samples : ℕ) (ki ka kb ks : Key) (j : Fin M), n0 ≤ n_samples →
      svSamples ki ka kb ks (svDynArgs tau d) data K R mv (svCfg target) delta_init adaptation burnin n_samples M
        (fun c => Set.indicator {r : Run (strideLen n_samples 1) (n + 1) d | η < |sampleMean f r.1 - ∫ x, f x ∂svPosterior k tau ys|} 1 (c j)) ≤ ε := by
  refine sv_mixture_le ht hR hG target hd adaptation
    (E := fun k' => Set.indicator {r : Run k' (n + 1) d | η < |sampleMean f r.1 - ∫ x, f x ∂svPosterior k tau ys|} 1) (fun k' => ?_)
    fun δ hδ ν hν ha => sv_run_average ht hG hδ hf hi ha hη hε
  refine measurable_one.indicator (measurableSet_lt measurable_const ?_)
  unfold sampleMean
  fun_prop

/-- **C96** (averages): the averages over the samples of a chain of the experiment converge in probability to the posterior mean, for
every function with a posterior mean: the number of samples needed depends on nothing but the options, the observations, the function
and the accuracy. -/
theorem C96_averages (ht : 0 < tau) (hR : sel_resampling resampling = .ok R) (hm : sel_last_step "barker" = .ok mv) (hN : N ≠ 0)
    (hk : k.kernel_maker svd (svDynArgs tau d) style target_stat R mv backward = .ok make) (hstyle : style ≠ "smoothing")
    (hcsmc : k ≠ .TP ∧ k ≠ .MALA) (ys : Traj (n + 1) d) (htp : TpOK svd tau k style ys) (target : ℤ) {delta_init : ℝ}
    (hd : 1e-5 ≤ delta_init ∧ delta_init ≤ 10) (adaptation : ℕ) {f : Traj (n + 1) d → ℝ} (hf : Measurable f)
    (hi : Integrable f (svPosterior k tau ys)) {η : ℝ} (hη : 0 < η) {ε : ℝ≥0∞} (hε : ε ≠ 0) :
    ∃ n0 : ℕ, ∀ (data : SvData (n + 1) d), data.ys = ys → ∀ (M burnin n_samples : ℕ) (ki ka kb ks : Key) (j : Fin M), n0 ≤ n_samples →
      svSamples ki ka kb ks (svDynArgs tau d) data (make ys) R mv (svCfg target) delta_init adaptation burnin n_samples M
        (fun c => Set.indicator {r : Run (strideLen n_samples 1) (n + 1) d | η < |sampleMean f r.1 - ∫ x, f x ∂svPosterior k tau ys|} 1 (c j)) ≤ ε :=
  sv_averages ht hR (sv_good (target_stat := target_stat) ht hR (.inl hm) hN hk hstyle hcsmc ys htp) target hd adaptation hf hi hη hε

/-- The posterior standard deviation of component `i` of the state at time `t`. -/
noncomputable def svStd (k : SvType) (tau : ℤ) (ys : Traj (n + 1) d) (t : Fin (n + 1)) (i : Fin d) : ℝ :=
  Real.sqrt (∫ x, (x t i - ∫ x, x t i ∂svPosterior k tau ys) ^ 2 ∂svPosterior k tau ys)

/-- The event that a reported mean or standard deviation is off by more than `η`. -/
def SvOff (k : SvType) (tau : ℤ) (ys : Traj (n + 1) d) (η : ℝ) (means std_devs : Fin (n + 1) → Vec d) : Prop :=
  ∃ t i, η < |means t i - ∫ x, x t i ∂svPosterior k tau ys| ∨ η < |std_devs t i - svStd k tau ys t i|

/-- The event of `SvOff`, in terms of averages. -/
theorem svOff_sub (ht : 0 < tau) (k : SvType) (ys : Traj (n + 1) d) {η : ℝ} (hη : 0 < η) (t : Fin (n + 1)) (i : Fin d) :
    ∃ θ : ℝ, 0 < θ ∧ ∀ {k' : ℕ} (x : Fin k' → Traj (n + 1) d),
      η < |(meanA fun k => x k t i) - ∫ x, x t i ∂svPosterior k tau ys| ∨ η < |(stdA fun k => x k t i) - svStd k tau ys t i| →
      θ < |sampleMean (fun x => x t i) x - ∫ x, x t i ∂svPosterior k tau ys| ∨
        θ < |sampleMean (fun x => x t i ^ 2) x - ∫ x, x t i ^ 2 ∂svPosterior k tau ys| := by
  have := C67_proper (n := n) (d := d) k ht ys
  obtain ⟨μ, hμ⟩ : ∃ μ, μ = ∫ x, x t i ∂svPosterior k tau ys := ⟨_, rfl⟩
  obtain ⟨s, hs⟩ : ∃ s, s = ∫ x, x t i ^ 2 ∂svPosterior k tau ys := ⟨_, rfl⟩
  have h1 := svPosterior_int k ht ys t i
  have h2 := svPosterior_sq k ht ys t i
  have hV : ∫ x, (x t i - μ) ^ 2 ∂svPosterior k tau ys = s - μ ^ 2 := by
    simp only [sub_sq]
    have h3 : Integrable (fun x => 2 * x t i * μ) (svPosterior k tau ys) := (h1.const_mul 2).mul_const μ
    have h4 : Integrable (fun x => x t i ^ 2 - 2 * x t i * μ) (svPosterior k tau ys) := h2.sub h3
    rw [integral_add h4 (integrable_const _), integral_sub h2 h3, integral_mul_const, integral_const_mul, ← hμ, ← hs]
    simp
    ring
  have hV0 : 0 ≤ s - μ ^ 2 := hV ▸ integral_nonneg fun x => sq_nonneg _
  refine ⟨min (min η 1) (η ^ 2 / (2 * (|μ| + 1))), lt_min (lt_min hη one_pos) (by positivity), fun {k'} x h => ?_⟩
  rw [← hμ] at h ⊢
  rw [← hs]
  by_contra hc
  rw [not_or, not_lt, not_lt] at hc
  obtain ⟨hc1, hc2⟩ := hc
  have e1 : sampleMean (fun x => x t i) x = meanA fun k => x k t i := rfl
  have e2 : sampleMean (fun x => x t i ^ 2) x = meanA fun k => x k t i ^ 2 := rfl
  rw [e1] at hc1
  rw [e2] at hc2
  obtain ⟨m, hm⟩ : ∃ m, m = meanA fun k => x k t i := ⟨_, rfl⟩
  obtain ⟨q, hq⟩ : ∃ q, q = meanA fun k => x k t i ^ 2 := ⟨_, rfl⟩
  rw [← hm] at hc1 h
  rw [← hq] at hc2
  have hθη := hc1.trans ((min_le_left _ _).trans (min_le_left _ _))
  have hθ1 := hc1.trans ((min_le_left _ _).trans (min_le_right _ _))
  have hθ2 := hc1.trans (min_le_right _ _)
  have hθ3 := hc2.trans (min_le_right _ _)
  rcases h with h | h
  · exact absurd h (not_lt.mpr hθη)
  refine absurd h (not_lt.mpr ?_)
  unfold svStd stdA
  rw [← hμ, hV]
  refine abs_sqrt_le ?_ hV0 hη.le ?_
  · unfold meanA
    positivity
  rw [meanA_sq, ← hm, ← hq]
  have hd : 0 < 2 * (|μ| + 1) := by positivity
  rw [le_div_iff₀ hd] at hθ2 hθ3
  have e : q - m ^ 2 - (s - μ ^ 2) = (q - s) - (m - μ) * (m - μ + 2 * μ) := by ring
  rw [e]
  have h3 : |(m - μ) * (m - μ + 2 * μ)| ≤ |m - μ| * (1 + 2 * |μ|) := by
    rw [abs_mul]
    gcongr
    refine (abs_add_le _ _).trans (add_le_add hθ1 ?_)
    rw [abs_mul, abs_two]
  have h4 := abs_sub (q - s) ((m - μ) * (m - μ + 2 * μ))
  nlinarith [abs_nonneg μ, abs_nonneg (m - μ), abs_nonneg (q - s), mul_nonneg (abs_nonneg μ) (abs_nonneg (q - s))]

open Classical in
/-- The reported moments, for every last move that keeps the weights. -/
theorem sv_reported (ht : 0 < tau) (hR : sel_resampling resampling = .ok R) {ys : Traj (n + 1) d} (hG : SvGood N' k tau ys K) (target : ℤ) {delta_init : ℝ}
    (hd : 1e-5 ≤ delta_init ∧ delta_init ≤ 10) (adaptation : ℕ) {η : ℝ} (hη : 0 < η) {ε : ℝ≥0∞} (hε : ε ≠ 0) :
    ∃ n0 : ℕ, ∀ (data : SvData (n + 1) d), data.ys = ys → ∀ (M burnin n_samples : ℕ) (ki ka kb ks : Key) (j : Fin M), n0 ≤ n_samples →
      sv_run ki ka kb ks (svDynArgs tau d) data K R mv (svCfg target) delta_init adaptation burnin n_samples M
        (fun o => if SvOff k tau ys η (o.means j) (o.std_devs j) then 1 else 0) ≤ ε := by
  obtain ⟨ker, hform, hok⟩ := hG.form
  choose θ hθ hsub using fun p : Fin (n + 1) × Fin d => svOff_sub ht k ys hη p.1 p.2
  obtain ⟨fs, hfs⟩ : ∃ fs : Bool → Fin (n + 1) × Fin d → Traj (n + 1) d → ℝ, fs = fun c p x => if c then x p.1 p.2 else x p.1 p.2 ^ 2 := ⟨_, rfl⟩
  have hfm : ∀ c p, Measurable (fs c p) := fun c p => by
    rw [hfs]
    cases c <;> dsimp only <;> simp <;> fun_prop
  have hfi : ∀ c p, Integrable (fs c p) (svPosterior k tau ys) := fun c p => by
    rw [hfs]
    cases c
    · simpa using svPosterior_sq k ht ys p.1 p.2
    · simpa using svPosterior_int k ht ys p.1 p.2
  obtain ⟨Es, hEs⟩ : ∃ Es : ∀ k', Bool × Fin (n + 1) × Fin d → Run k' (n + 1) d → ℝ≥0∞, Es = fun k' c =>
    Set.indicator {r : Run k' (n + 1) d | θ c.2 < |sampleMean (fs c.1 c.2) r.1 - ∫ x, fs c.1 c.2 x ∂svPosterior k tau ys|} 1 := ⟨_, rfl⟩
  have hEsm : ∀ k' c, Measurable (Es k' c) := fun k' c => by
    rw [hEs]
    refine measurable_one.indicator (measurableSet_lt measurable_const ?_)
    have := hfm c.1 c.2
    unfold sampleMean
    fun_prop
  obtain ⟨E, hE⟩ : ∃ E : ∀ k', Run k' (n + 1) d → ℝ≥0∞, E = fun k' r =>
    if SvOff k tau ys η (fun t i => meanA fun k => r.1 k t i) (fun t i => stdA fun k => r.1 k t i) then 1 else 0 := ⟨_, rfl⟩
  have hEm : ∀ k', Measurable (E k') := fun k' => by
    rw [hE]
    refine Measurable.ite ?_ measurable_const measurable_const
    unfold SvOff
    simp only [Set.ofPred_exists]
    refine MeasurableSet.iUnion fun t => MeasurableSet.iUnion fun i => ?_
    have h1 : Measurable fun r : Run k' (n + 1) d => meanA fun k => r.1 k t i := by unfold meanA; fun_prop
    have h2 : Measurable fun r : Run k' (n + 1) d => stdA fun k => r.1 k t i := by unfold stdA meanA; fun_prop
    have h3 : ∀ c : ℝ, Measurable fun r : Run k' (n + 1) d => |(meanA fun k => r.1 k t i) - c| := fun c => by fun_prop
    have h4 : ∀ c : ℝ, Measurable fun r : Run k' (n + 1) d => |(stdA fun k => r.1 k t i) - c| := fun c => by fun_prop
    exact (measurableSet_lt measurable_const (h3 _)).union (measurableSet_lt measurable_const (h4 _))
  have hle : ∀ k' (r : Run k' (n + 1) d), E k' r ≤ ∑ c, Es k' c r := fun k' r => by
    rw [hE]
    dsimp only
    split_ifs with h
    · obtain ⟨t, i, h⟩ := h
      have h1 : ∃ c : Bool × Fin (n + 1) × Fin d, 1 ≤ Es k' c r := by
        rcases hsub (t, i) r.1 h with h2 | h2
        · refine ⟨(true, t, i), le_of_eq ?_⟩
          rw [hEs, hfs]
          exact (Set.indicator_of_mem (show r ∈ {r : Run k' (n + 1) d | _} by simpa using h2) 1).symm
        · refine ⟨(false, t, i), le_of_eq ?_⟩
          rw [hEs, hfs]
          exact (Set.indicator_of_mem (show r ∈ {r : Run k' (n + 1) d | _} by simpa using h2) 1).symm
      obtain ⟨c, hc⟩ := h1
      exact hc.trans (Finset.single_le_sum (f := fun c => Es k' c r) (fun _ _ => zero_le) (Finset.mem_univ c))
    · exact zero_le
  have hcard : ε / (Fintype.card (Bool × Fin (n + 1) × Fin d) + 1 : ℕ) ≠ 0 := (ENNReal.div_pos hε (ENNReal.natCast_ne_top _)).ne'
  obtain ⟨n0, h0⟩ := sv_mixture_le ht hR hG target hd adaptation (ε := ε) E hEm
    fun δ hδ ν hν ha => by
      choose n0 h0 using fun c : Bool × Fin (n + 1) × Fin d =>
        sv_run_average ht hG hδ (hfm c.1 c.2) (hfi c.1 c.2) ha (hθ c.2) hcard
      refine ⟨Finset.univ.sup n0, fun key b n_samples hn => ?_⟩
      have hch : ChainsOK K (.perStep δ) fun _ => True := by
        rcases hform with h | ⟨stat, h⟩ <;> rw [h]
        all_goals exact csmcSv_chainsOK (delta := .perStep δ) (hok δ hδ).markov (hok δ hδ).relabels (hok δ hδ).free
      refine (run_union hch ν key b n_samples (Es _) (hEm _) (hEsm _) (hle _)).trans ?_
      have h2 : ∀ c, ∫⁻ x, K.experiment_all key (K.init x) (fun k s => K.kernel k s (.perStep δ)) (n_samples + b)
          (fun r => Es _ c ((runOf _ r).drop b)) ∂ν ≤ ε / (Fintype.card (Bool × Fin (n + 1) × Fin d) + 1 : ℕ) := fun c => by
        rw [hEs]
        exact h0 c key b n_samples ((Finset.le_sup (Finset.mem_univ c)).trans hn)
      refine (Finset.sum_le_sum fun c _ => h2 c).trans ?_
      rw [Finset.sum_const, nsmul_eq_mul, Finset.card_univ]
      calc _ ≤ ((Fintype.card (Bool × Fin (n + 1) × Fin d) + 1 : ℕ) : ℝ≥0∞) * (ε / (Fintype.card (Bool × Fin (n + 1) × Fin d) + 1 : ℕ)) := by
            refine mul_le_mul_left ((Nat.cast_le (α := ℝ≥0∞)).mpr (Nat.le_succ (Fintype.card (Bool × Fin (n + 1) × Fin d)))) _
        _ = ε := ENNReal.mul_div_cancel (by exact_mod_cast Nat.succ_ne_zero (Fintype.card (Bool × Fin (n + 1) × Fin d))) (ENNReal.natCast_ne_top _)
  refine ⟨n0, fun data hdata M burnin n_samples ki ka kb ks j hn => ?_⟩
  have h1 := h0 data hdata M burnin n_samples ki ka kb ks j hn
  rw [hE] at h1
  have h2 := C96_same (M := M) ki ka kb ks (svDynArgs tau d) data K R mv (svCfg target) delta_init adaptation burnin n_samples
    fun means std_devs _ _ => if SvOff k tau ys η (means j) (std_devs j) then 1 else 0
  exact (le_of_eq h2).trans h1

open Classical in
/-- **C97**: the posterior means and standard deviations that the stochastic volatility experiment reports are consistent: with a
probability as close to one as desired, all the means and standard deviations reported for a chain are as close as desired to those of the
posterior, if the number of samples is large enough (whatever the keys, the burn-in, the number of chains and the true trajectory). -/
theorem C97_reported (ht : 0 < tau) (hR : sel_resampling resampling = .ok R) (hm : sel_last_step "barker" = .ok mv) (hN : N ≠ 0)
    (hk : k.kernel_maker svd (svDynArgs tau d) style target_stat R mv backward = .ok make) (hstyle : style ≠ "smoothing")
    (hcsmc : k ≠ .TP ∧ k ≠ .MALA) (ys : Traj (n + 1) d) (htp : TpOK svd tau k style ys) (target : ℤ) {delta_init : ℝ}
    (hd : 1e-5 ≤ delta_init ∧ delta_init ≤ 10) (adaptation : ℕ) {η : ℝ} (hη : 0 < η) {ε : ℝ≥0∞} (hε : ε ≠ 0) :
    ∃ n0 : ℕ, ∀ (data : SvData (n + 1) d), data.ys = ys → ∀ (M burnin n_samples : ℕ) (ki ka kb ks : Key) (j : Fin M), n0 ≤ n_samples →
      sv_run ki ka kb ks (svDynArgs tau d) data (make ys) R mv (svCfg target) delta_init adaptation burnin n_samples M
        (fun o => if SvOff k tau ys η (o.means j) (o.std_devs j) then 1 else 0) ≤ ε :=
  sv_reported ht hR (sv_good (target_stat := target_stat) ht hR (.inl hm) hN hk hstyle hcsmc ys htp) target hd adaptation hη hε

theorem scanM_supp {C I O : Type} {body : C → I → Ex (C × O)} {Inv : C → Prop} {k : ℕ} (inp : Fin k → I)
    (hb : ∀ c j, Inv c → Supp (body c (inp j)) fun r => Inv r.1) (c : C) (hc : Inv c) : Supp (scanM body c inp) fun r => Inv r.1 := by
  induction k generalizing c with
  | zero => exact supp_pure hc
  | succ k ih =>
    rw [scanM_succ]
    refine supp_bind (hb c 0 hc) fun r hr => ?_
    exact supp_bind (ih (tailA inp) (fun c j => hb c j.succ) r.1 hr) fun r' hr' => supp_pure hr'

theorem warm_delta (target : ℤ) {i : ℕ} (hi : i < 101) (acc : Option ℝ) {delta : ℝ} (hd : 1e-5 ≤ delta ∧ delta ≤ 10) :
    adaptDelta (svCfg target) svWindow i acc delta = delta := by
  rw [C47_frozen _ (by show i ≤ 99 + 1; omega)]
  show min (max delta 1e-5) 1e1 = delta
  rw [max_eq_left hd.1, min_eq_left (by norm_num; exact hd.2)]

/-- The step sizes do not change while the window of the adaptation fills up. -/
def WarmOK (K : SvKernel Ex (n + 1) d) (target : ℤ) : Prop :=
  ∀ (key : Key) (s : K.S) (delta_init : ℝ), 1e-5 ≤ delta_init ∧ delta_init ≤ 10 → ∀ adaptation ≤ 101,
    Supp (K.adaptation_loop key s K.kernel (svCfg target) svWindow delta_init adaptation) fun r => ∀ t, r.2.at t = delta_init

theorem warm_plain (target : ℤ) (ker : Key → (Fin (n + 1) → Vec d) → (Fin (n + 1) → Fin (N + 1)) → (Fin (n + 1) → ℝ) →
      Ex ((Fin (n + 1) → Vec d) × (Fin (n + 1) → Fin (N + 1)))) : WarmOK (csmcSvPlain ker) target := by
  intro key s delta_init hd adaptation ha
  refine supp_bind (R := fun r => ∀ t, r.2 t = delta_init) ?_ fun r hr => supp_pure hr
  refine supp_bind (scanM_supp (Inv := fun c : AdaptCarry (Vec d) (Fin (N + 1)) (n + 1) svWindow => ∀ t, c.deltas t = delta_init) _ ?_ _
    fun t => mul_one delta_init) fun r hr => supp_pure hr
  intro c j hc
  refine supp_bind' fun r => supp_pure fun t => ?_
  show adaptDelta (svCfg target) svWindow j _ (c.deltas t) = delta_init
  rw [hc t]
  exact warm_delta target (by omega) _ hd

theorem warm_twisted (target : ℤ) (stat : (Fin (n + 1) → Option ℝ) → Option ℝ)
    (ker : Key → (Fin (n + 1) → Vec d) → (Fin (n + 1) → Fin (N + 1)) → (Fin (n + 1) → ℝ) →
      Ex ((Fin (n + 1) → Vec d) × (Fin (n + 1) → Fin (N + 1)))) : WarmOK (csmcSvTwisted stat ker) target := by
  intro key s delta_init hd adaptation ha
  refine supp_bind (R := fun r => ∀ t, r.2 t = delta_init) ?_ fun r hr => supp_pure hr
  refine supp_bind (scanM_supp (Inv := fun c : AdaptCarry (Vec d) (Fin (N + 1)) (n + 1) svWindow => ∀ t, c.deltas t = delta_init) _ ?_ _
    fun t => mul_one delta_init) fun r hr => supp_pure hr
  intro c j hc
  refine supp_bind' fun r => supp_pure fun t => ?_
  show adaptDelta (svCfg target) svWindow j _ (c.deltas t) = delta_init
  rw [hc t]
  exact warm_delta target (by omega) _ hd

theorem warm_vg (target : ℤ) (ker : Key → VGState (n + 1) d → ℝ → Ex (VGState (n + 1) d × Bool)) (init : Traj (n + 1) d → VGState (n + 1) d) :
    WarmOK (vgSv ker init) target := by
  intro key s delta_init hd adaptation ha
  refine supp_bind (R := fun r => r.2 = delta_init) ?_ fun r hr => supp_pure fun _ => hr
  refine supp_bind (scanM_supp (Inv := fun c : TpCarry (VGState (n + 1) d) svWindow => c.delta = delta_init) _ ?_ _ rfl)
    fun r hr => supp_pure hr
  intro c j hc
  refine supp_bind' fun r => supp_pure ?_
  show adaptDelta (svCfg target) svWindow j _ c.delta = delta_init
  rw [hc]
  exact warm_delta target (by omega) _ hd

theorem sv_warm (hk : k.kernel_maker svd (svDynArgs tau d) style target_stat R mv backward = .ok make) (target : ℤ) (ys : Traj (n + 1) d) :
    WarmOK (make ys) target := by
  have main : ∀ stop, sv_get_tp_csmc_kernel svd (svDynArgs tau d) style target_stat stop R mv backward = .ok make → WarmOK (make ys) target := by
    intro stop hk
    unfold sv_get_tp_csmc_kernel at hk
    split_ifs at hk
    · cases hk; exact warm_plain _ _
    · cases hk; exact warm_plain _ _
    · rcases n with _ | _ | n
      · cases hk
      · cases hk
      · cases hk; exact warm_plain _ _
    · cases hs : statOf (k := n + 1) target_stat with
      | error e => rw [hs] at hk; cases hk
      | ok stat =>
        rw [hs] at hk
        cases hk
        exact warm_twisted _ _ _
  cases k with
  | TP => cases hk; exact warm_vg _ _ _
  | MALA =>
    simp only [SvType.kernel_maker, sv_get_mala_kernel] at hk
    split_ifs at hk <;> cases hk <;> exact warm_vg _ _ _
  | CSMC =>
    simp only [SvType.kernel_maker, sv_get_csmc_kernel] at hk
    split_ifs at hk
    cases hk
    exact warm_plain _ _
  | RW_CSMC => cases hk; exact warm_plain _ _
  | MALA_CSMC =>
    simp only [SvType.kernel_maker, sv_get_mala_csmc_kernel] at hk
    split_ifs at hk
    · cases hk; exact warm_plain _ _
    · rcases n with _ | _ | n
      · cases hk
      · cases hk
      · cases hk; exact warm_plain _ _
    · cases hk; exact warm_plain _ _
  | TP_CSMC => exact main false hk
  | ADAPTED_CSMC => exact main true hk

/-- **C96** (warm-up): an experiment with at most 101 adaptation steps adapts nothing, whatever the kernel: the step sizes that it samples
with, and that it reports, are `delta_init`. -/
theorem C96_warmup (hk : k.kernel_maker svd (svDynArgs tau d) style target_stat R mv backward = .ok make) (target : ℤ) {delta_init : ℝ}
    (hd : 1e-5 ≤ delta_init ∧ delta_init ≤ 10) {adaptation : ℕ} (ha : adaptation ≤ 101) (ki ka kb ks : Key) (data : SvData (n + 1) d)
    (burnin n_samples M : ℕ) :
    Supp (sv_run ki ka kb ks (svDynArgs tau d) data (make data.ys) R mv (svCfg target) delta_init adaptation burnin n_samples M)
      fun o => ∀ t, o.adapted_delta.at t = delta_init :=
  supp_bind' fun _ => supp_bind (sv_warm hk target data.ys ka _ delta_init hd adaptation ha) fun _ hr => supp_bind' fun _ => supp_pure hr

/-- **C96** (adaptation after the warm-up): the next step, number 101 from zero, does change them; if all the 100 last proposals
were accepted and the target is 75 percent, then by the factor `1 + 0.5 / √102 / 3`. -/
theorem C96_first_adaptation : adaptDelta (svCfg 75) svWindow 101 (some 1) 0.01 = 0.01 * (1 + 0.5 / Real.sqrt 102 / 3) := by
  rw [C47_update (svCfg 75) (W := svWindow) (by decide) (by norm_num [svCfg])]
  have h1 : Real.sqrt 102 ≤ 11 := Real.sqrt_le_iff.mpr ⟨by norm_num, by norm_num⟩
  have h2 : (1 : ℝ) ≤ Real.sqrt 102 := Real.one_le_sqrt.mpr (by norm_num)
  have h3 : (0.5 : ℝ) / 11 ≤ 0.5 / Real.sqrt 102 := by gcongr
  have h4 : (0.5 : ℝ) / Real.sqrt 102 ≤ 0.5 / 1 := by gcongr
  have e : ((101 : ℕ) : ℝ) + 1 = 102 := by norm_num
  rw [e]
  show min (max (0.01 + max 1e-3 (0.5 / Real.sqrt 102) * 0.01 * (1 - ((75 : ℤ) : ℝ) / 100) / (((75 : ℤ) : ℝ) / 100)) 1e-5) 1e1 = _
  rw [max_eq_right (a := (1e-3 : ℝ)) (by linarith)]
  generalize (0.5 : ℝ) / Real.sqrt 102 = u at h3 h4
  have e2 : (0.01 : ℝ) + u * 0.01 * (1 - ((75 : ℤ) : ℝ) / 100) / (((75 : ℤ) : ℝ) / 100) = 0.01 * (1 + u / 3) := by push_cast; ring
  rw [e2, max_eq_left (by nlinarith), min_eq_left (by norm_num; nlinarith)]

/-- The script's own options for `TP_CSMC` and style `twisted` (`killing`, 32 particles, two dimensions, ten observations, 100 adaptation
steps, step size 0.01), with the Barker move: with probability 0.99, all means and standard deviations of the first of four chains
are right to the third digit, if there are enough samples. -/
example (ys : Traj 10 2) : ∃ R mv make, sel_resampling (N := 31) (m := Ex) "killing" = .ok R ∧ sel_last_step (N := 31) (m := Ex) "barker" = .ok mv ∧
    SvType.kernel_maker (n := 9) (diagSvd 2) .TP_CSMC (svDynArgs 10 2) "twisted" (.level 0.5) R mv true = .ok make ∧
    ∃ n0 : ℕ, ∀ data : SvData 10 2, data.ys = ys → ∀ n_samples, n0 ≤ n_samples → ∀ p : SvOut (strideLen n_samples 1) 4 10 2 → Prop,
      (∀ o, ¬ p o → ∀ t i, |o.means 0 t i - ∫ x, x t i ∂svPosterior .TP_CSMC 10 ys| ≤ 1e-3 ∧
        |o.std_devs 0 t i - svStd .TP_CSMC 10 ys t i| ≤ 1e-3) →
      (∀ o, p o → ∃ t i, 1e-3 < |o.means 0 t i - ∫ x, x t i ∂svPosterior .TP_CSMC 10 ys| ∨
        1e-3 < |o.std_devs 0 t i - svStd .TP_CSMC 10 ys t i|) → ∀ [DecidablePred p],
      sv_run [1] [2] [3] [4] (svDynArgs 10 2) data (make ys) R mv (svCfg 75) 0.01 100 50 n_samples 4 (fun o => if p o then 1 else 0) ≤ 1 / 100 := by
  obtain ⟨R, hR⟩ : ∃ R, sel_resampling (N := 31) (m := Ex) "killing" = .ok R := ⟨_, rfl⟩
  obtain ⟨mv, hm⟩ : ∃ mv, sel_last_step (N := 31) (m := Ex) "barker" = .ok mv := ⟨_, rfl⟩
  refine ⟨R, mv, _, hR, hm, rfl, ?_⟩
  obtain ⟨n0, h0⟩ := C97_reported (n := 9) (k := .TP_CSMC) (tau := 10) (svd := diagSvd 2) (style := "twisted") (target_stat := .level 0.5)
    (backward := true) (N := 31) (by norm_num) hR hm (by norm_num) rfl (by decide) (by decide) ys
    (fun _ => ⟨by decide, fun h => absurd h (by decide)⟩) 75 (delta_init := 0.01) (by norm_num) 100 (η := 1e-3) (by norm_num) (ε := 1 / 100) (by simp)
  refine ⟨n0, fun data hdata n_samples hn p hp1 hp2 _ => ?_⟩
  refine le_trans (le_of_eq ?_) (h0 data hdata 4 50 n_samples [1] [2] [3] [4] 0 hn)
  refine Ex.congr_fun' _ fun o => ?_
  by_cases ho : p o
  · rw [if_pos ho, if_pos (show SvOff _ _ _ _ _ _ from hp2 o ho)]
  · rw [if_neg ho, if_neg]
    rintro ⟨t, i, h | h⟩
    · exact absurd (hp1 o ho t i).1 (not_le.mpr h)
    · exact absurd (hp1 o ho t i).2 (not_le.mpr h)

/-- The same options: all samples of all four chains have the posterior law up to 0.001, after enough steps. -/
example (ys : Traj 10 2) : ∃ R mv make, sel_resampling (N := 31) (m := Ex) "killing" = .ok R ∧ sel_last_step (N := 31) (m := Ex) "barker" = .ok mv ∧
    SvType.kernel_maker (n := 9) (diagSvd 2) .TP_CSMC (svDynArgs 10 2) "twisted" (.level 0.5) R mv true = .ok make ∧
    ∃ n0 : ℕ, ∀ data : SvData 10 2, data.ys = ys → ∀ burnin n_samples (j : Fin 4) (l : Fin (strideLen n_samples 1)), n0 ≤ burnin + l →
      TVLe (1 / 1000) (fun f => svSamples [1] [2] [3] [4] (svDynArgs 10 2) data (make ys) R mv (svCfg 75) 0.01 100 burnin n_samples 4
          (fun c => f ((c j).1 l)))
        (fun f => ∫⁻ x, f x ∂svPosterior .TP_CSMC 10 ys) := by
  obtain ⟨R, hR⟩ : ∃ R, sel_resampling (N := 31) (m := Ex) "killing" = .ok R := ⟨_, rfl⟩
  obtain ⟨mv, hm⟩ : ∃ mv, sel_last_step (N := 31) (m := Ex) "barker" = .ok mv := ⟨_, rfl⟩
  refine ⟨R, mv, _, hR, hm, rfl, ?_⟩
  obtain ⟨n0, h0⟩ := C96_samples (n := 9) (k := .TP_CSMC) (tau := 10) (svd := diagSvd 2) (style := "twisted") (target_stat := .level 0.5)
    (backward := true) (N := 31) (by norm_num) hR hm (by norm_num) rfl (by decide) (by decide) ys
    (fun _ => ⟨by decide, fun h => absurd h (by decide)⟩) 75 (delta_init := 0.01) (by norm_num) 100 (ε := 1 / 1000) (by simp)
  exact ⟨n0, fun data hdata burnin n_samples j l hl => h0 data hdata 4 burnin n_samples [1] [2] [3] [4] j l hl⟩

end Verif.Props
