import Verif.Lemmas.FlatSteps
import Verif.Props.SmallSteps
import Verif.Lemmas.MarkovKernels

/-!
# Small steps of the particle kernels with backward sampling (C106)
-/

open scoped ENNReal Topology
open MeasureTheory Filter

namespace Verif.Props
open Verif Verif.Model Verif.Spec

variable {N n d : ℕ} {G : Type}

theorem smallSteps_tendsto (t : Fin (n + 1)) : Tendsto (fun δ : Fin (n + 1) → ℝ => δ t) (smallSteps n) (𝓝 0) :=
  tendsto_nhdsWithin_of_tendsto_nhds ((continuous_apply t).tendsto 0)

theorem smallSteps_pos : ∀ᶠ δ in smallSteps n, ∀ t, 0 < δ t := eventually_mem_nhdsWithin

instance : (smallSteps n).IsCountablyGenerated := by unfold smallSteps; infer_instance

/-- Limits at all times, from the generic ones. -/
theorem flat_all {K : AncestorMove Ex N → (Fin (n + 1) → ℝ) → Ex (KOut (Vec d) N n)} {b : Fin (n + 1) → Fin (N + 1)}
    (h1 : ∀ mv, (∀ key, MoveKer (moveIndex mv key)) → (∀ key, MoveMass (moveIndex mv key)) → ∀ t : Fin n,
      Tendsto (fun δ => moveProb (K mv δ) t.castSucc (b t.castSucc)) (smallSteps n) (𝓝 (ENNReal.ofReal (N / (N + 1)))))
    (h2 : Tendsto (fun δ => moveProb (K (fun key w => barker_move key w) δ) (Fin.last n) (b (Fin.last n))) (smallSteps n) (𝓝 (ENNReal.ofReal (N / (N + 1)))))
    (h3 : Tendsto (fun δ => moveProb (K (fun key w => force_move key w) δ) (Fin.last n) (b (Fin.last n))) (smallSteps n) (𝓝 1))
    {last_step : String} {mv : AncestorMove Ex N} (hmv : sel_last_step last_step = .ok mv) (t : Fin (n + 1)) :
    Tendsto (fun δ => moveProb (K mv δ) t (b t)) (smallSteps n) (𝓝 (flatLimit N last_step t)) := by
  unfold flatLimit
  unfold sel_last_step at hmv
  induction t using Fin.lastCases with
  | last =>
    split_ifs at hmv with ha hb
    · obtain rfl := Except.ok.inj hmv
      rw [if_pos ⟨ha, rfl⟩]
      exact h3
    · obtain rfl := Except.ok.inj hmv
      rw [if_neg fun h => ha h.1]
      exact h2
  | cast t =>
    rw [if_neg fun h => (Fin.castSucc_lt_last t).ne h.2]
    split_ifs at hmv with ha hb
    · obtain rfl := Except.ok.inj hmv
      exact h1 _ (fun key => force_moveKer key) (fun key w hw k => force_mass key hw k) t
    · obtain rfl := Except.ok.inj hmv
      exact h1 _ (fun key => (barker_moveInvariant key).ker) (fun key w hw k => barker_mass key hw k) t

section
variable {resampling : Resampling Ex N} (hR : GoodResampling resampling) (key : Key)
  (xstar : Fin (n + 1) → Vec d) (bstar : Fin (n + 1) → Fin (N + 1)) (Gp : Fin n → G)
  {Γ0 : Vec d → ℝ} {Γ : Vec d → Vec d → G → ℝ} (h0 : Continuous Γ0) (hΓ : ∀ y, Continuous fun p : Vec d × Vec d => Γ p.1 p.2 y)
  {last_step : String} {mv : AncestorMove Ex N} (hmv : sel_last_step last_step = .ok mv) (hN : 1 ≤ N) (t : Fin (n + 1))
include hR h0 hΓ hmv hN

/-- **C106** (`rw_csmc.py`): with backward sampling and continuous potentials, as the step sizes vanish the probability that the step moves at time `t`
tends to `N / (N + 1)`, at every time, whatever the trajectory, the indices and the resampling; with a forced last step it tends to one at the last time. -/
theorem C106_rw : Tendsto (fun δ => moveProb (rw_kernel (fun _ => true) key xstar bstar Γ0 Γ Gp δ resampling mv true) t (bstar t)) (smallSteps n)
    (𝓝 (flatLimit N last_step t)) := by
  have h := rw_auxFlat (l := smallSteps n) (δ := fun δ => δ) hR key xstar bstar Gp smallSteps_tendsto h0 hΓ
  refine flat_all (K := fun mv δ => rw_kernel (fun _ => true) key xstar bstar Γ0 Γ Gp δ resampling mv true) (fun mv hk hm t => ?_) ?_ ?_ hmv t
  · simp only [rw_avg]
    exact h.limit _ hk hm _ t
  · simp only [rw_avg]
    exact h.barker _ _
  · simp only [rw_avg]
    exact h.force _ hN _

variable {g0 : Vec d → Vec d} {g : Vec d → Vec d → G → Vec d} (hg0 : Continuous g0) (hg : ∀ y, Continuous fun p : Vec d × Vec d => g p.1 p.2 y)
include hg0 hg

/-- **C106** (`al_csmc_f.py`): the same, with the step sizes of the gradient equal to those of the auxiliary variables, whatever continuous functions are used
as gradients. -/
theorem C106_al : Tendsto (fun δ => moveProb (al_kernel key xstar bstar Γ0 g0 Γ g Gp δ δ resampling mv true) t (bstar t)) (smallSteps n)
    (𝓝 (flatLimit N last_step t)) := by
  have h := al_auxFlat (l := smallSteps n) (δ := fun δ => δ) hR key xstar bstar Gp smallSteps_tendsto h0 hΓ hg0 hg smallSteps_pos
  refine flat_all (K := fun mv δ => al_kernel key xstar bstar Γ0 g0 Γ g Gp δ δ resampling mv true) (fun mv hk hm t => ?_) ?_ ?_ hmv t
  · simp only [al_avg]
    exact h.limit _ hk hm _ t
  · simp only [al_avg]
    exact h.barker _ _
  · simp only [al_avg]
    exact h.force _ hN _

/-- **C106** (`l_csmc_f.py`). -/
theorem C106_l : Tendsto (fun δ => moveProb (l_kernel key xstar bstar Γ0 g0 Γ g Gp δ δ resampling mv true) t (bstar t)) (smallSteps n)
    (𝓝 (flatLimit N last_step t)) := by
  have h := l_auxFlat (l := smallSteps n) (δ := fun δ => δ) hR key xstar bstar Gp smallSteps_tendsto h0 hΓ hg0 hg smallSteps_pos
  refine flat_all (K := fun mv δ => l_kernel key xstar bstar Γ0 g0 Γ g Gp δ δ resampling mv true) (fun mv hk hm t => ?_) ?_ ?_ hmv t
  · simp only [l_avg]
    exact h.limit _ hk hm _ t
  · simp only [l_avg]
    exact h.barker _ _
  · simp only [l_avg]
    exact h.force _ hN _

end

/-! ## The experiments -/

theorem continuous_jaxGrad {f : Vec d → ℝ} (hf : ContDiff ℝ 1 f) : Continuous (jaxGrad f) :=
  continuous_pi fun j => (hf.continuous_fderiv one_ne_zero).clm_apply continuous_const

theorem continuous_jaxGrad_snd {f : Vec d → Vec d → ℝ} (hf : ContDiff ℝ 1 fun p : Vec d × Vec d => f p.1 p.2) :
    Continuous fun p : Vec d × Vec d => jaxGrad (fun x => f p.1 x) p.2 := by
  have h : ContDiff ℝ 0 fun p : Vec d × Vec d => fderiv ℝ (fun x => f p.1 x) p.2 :=
    ContDiff.fderiv (f := fun (p : Vec d × Vec d) x => f p.1 x) (m := 1) (hf.comp (contDiff_fst.fst.prodMk contDiff_snd)) contDiff_snd (by norm_num)
  exact continuous_pi fun j => h.continuous.clm_apply continuous_const

theorem contDiff_lgGamma_0 (ys : Traj (n + 1) d) (sigma : ℝ) : ContDiff ℝ 1 (lgGamma_0 ys sigma) := by
  unfold lgGamma_0 lg_log_potential
  exact (contDiff_sumNorm contDiff_const contDiff_id).add (contDiff_sumNorm contDiff_id contDiff_const)

theorem contDiff_lgGamma_t (sigma : ℝ) (y : Vec d) : ContDiff ℝ 1 fun p : Vec d × Vec d => lgGamma_t sigma p.1 p.2 y := by
  unfold lgGamma_t lg_log_potential
  exact (contDiff_sumNorm contDiff_const contDiff_snd).add (contDiff_sumNorm contDiff_snd contDiff_fst)

theorem contDiff_sv_log_potential {E : Type} [NormedAddCommGroup E] [NormedSpace ℝ E] {a : E → Vec d} (ha : ContDiff ℝ 1 a) (y : Vec d) :
    ContDiff ℝ 1 fun p => sv_log_potential (a p) y := by
  unfold sv_log_potential
  simp only [norm_logpdf, if_true]
  refine ContDiff.sum fun j _ => ?_
  have he : ContDiff ℝ 1 fun p => Real.exp (0.5 * a p j) ^ 2 := ((contDiff_const.mul (contDiff_pi.mp ha j)).exp).pow 2
  exact ((ContDiff.add (ContDiff.log (contDiff_const.mul he) fun xs => by positivity) (contDiff_const.div he fun xs => by positivity)).neg).div_const _

theorem contDiff_svGamma_0 (ys : Traj (n + 1) d) (D : SvDyn d) : ContDiff ℝ 1 (svGamma_0 ys D) := by
  unfold svGamma_0
  exact (contDiff_sv_log_potential contDiff_id _).add (contDiff_mvn_inv contDiff_id contDiff_const)

theorem contDiff_svGamma_t (D : SvDyn d) (y : Vec d) : ContDiff ℝ 1 fun p : Vec d × Vec d => svGamma_t D p.1 p.2 y := by
  unfold svGamma_t
  refine (contDiff_sv_log_potential contDiff_snd _).add (contDiff_mvn_inv contDiff_snd (contDiff_pi.mpr fun i => ?_))
  simp only [Pi.add_apply, Matrix.mulVec, dotProduct]
  exact (ContDiff.sum fun j _ => contDiff_const.mul (contDiff_pi.mp contDiff_fst j)).add contDiff_const

section exps
variable (ys : Traj (n + 1) d) {resampling : Resampling Ex N} (hR : GoodResampling resampling) (key : Key) (x : Fin (n + 1) → Vec d)
  (b : Fin (n + 1) → Fin (N + 1)) {last_step : String} {mv : AncestorMove Ex N} (hmv : sel_last_step last_step = .ok mv) (hN : 1 ≤ N) (t : Fin (n + 1))
include hR hmv hN

/-- **C106** (linear Gaussian experiment): `RW_CSMC` and `MALA_CSMC` in styles `filtering` and `marginal`, for every value of `sigma` and all data. -/
theorem C106_lgssm (sigma : ℝ) :
    Tendsto (fun δ => moveProb (lg_rw_csmc (fun _ => true) ys sigma resampling mv true key x b δ) t (b t)) (smallSteps n) (𝓝 (flatLimit N last_step t)) ∧
    Tendsto (fun δ => moveProb (lg_mala_csmc_filtering ys sigma resampling mv true key x b δ) t (b t)) (smallSteps n) (𝓝 (flatLimit N last_step t)) ∧
    Tendsto (fun δ => moveProb (lg_mala_csmc_marginal ys sigma resampling mv true key x b δ) t (b t)) (smallSteps n) (𝓝 (flatLimit N last_step t)) := by
  have h0 := contDiff_lgGamma_0 ys sigma
  have h := contDiff_lgGamma_t (d := d) sigma
  exact ⟨C106_rw hR key x b (tailA ys) h0.continuous (fun y => (h y).continuous) hmv hN t,
    C106_al hR key x b (tailA ys) h0.continuous (fun y => (h y).continuous) hmv hN t (continuous_jaxGrad h0) fun y => continuous_jaxGrad_snd (f := fun x' x => lgGamma_t sigma x' x y) (h y),
    C106_l hR key x b (tailA ys) h0.continuous (fun y => (h y).continuous) hmv hN t (continuous_jaxGrad h0) fun y => continuous_jaxGrad_snd (f := fun x' x => lgGamma_t sigma x' x y) (h y)⟩

/-- **C106** (stochastic volatility): the same kernels, for all parameters of the dynamics. -/
theorem C106_sv_step (D : SvDyn d) :
    Tendsto (fun δ => moveProb (sv_rw_csmc (fun _ => true) ys D resampling mv true key x b δ) t (b t)) (smallSteps n) (𝓝 (flatLimit N last_step t)) ∧
    Tendsto (fun δ => moveProb (sv_mala_csmc_filtering ys D resampling mv true key x b δ) t (b t)) (smallSteps n) (𝓝 (flatLimit N last_step t)) ∧
    Tendsto (fun δ => moveProb (sv_mala_csmc_marginal ys D resampling mv true key x b δ) t (b t)) (smallSteps n) (𝓝 (flatLimit N last_step t)) := by
  have h0 := contDiff_svGamma_0 ys D
  have h := contDiff_svGamma_t (d := d) D
  exact ⟨C106_rw hR key x b (tailA ys) h0.continuous (fun y => (h y).continuous) hmv hN t,
    C106_al hR key x b (tailA ys) h0.continuous (fun y => (h y).continuous) hmv hN t (continuous_jaxGrad h0) fun y => continuous_jaxGrad_snd (f := fun x' x => svGamma_t D x' x y) (h y),
    C106_l hR key x b (tailA ys) h0.continuous (fun y => (h y).continuous) hmv hN t (continuous_jaxGrad h0) fun y => continuous_jaxGrad_snd (f := fun x' x => svGamma_t D x' x y) (h y)⟩

end exps

/-! ## Acceptance rates of the runs -/

theorem move_average {K : (Fin (n + 1) → Vec d) → (Fin (n + 1) → Fin (N + 1)) → (Fin (n + 1) → ℝ) → Ex (KOut (Vec d) N n)}
    (hK : ∀ δ : Fin (n + 1) → ℝ, (∀ t, 0 < δ t) → MarkovStep fun x b => K x b δ >>= fun r => pure (r.xs, r.Bs)) {L : ℝ≥0∞} {t : Fin (n + 1)}
    (h : ∀ x, Tendsto (fun δ => moveProb (K x (fun _ => 0) δ) t 0) (smallSteps n) (𝓝 L)) (π : Measure (Traj (n + 1) d)) [IsProbabilityMeasure π] :
    Tendsto (fun δ => ∫⁻ x, moveProb (K x (fun _ => 0) δ) t 0 ∂π) (smallSteps n) (𝓝 L) := by
  have hf : Measurable fun r : (Fin (n + 1) → Vec d) × (Fin (n + 1) → Fin (N + 1)) => if r.2 t ≠ 0 then (1 : ℝ≥0∞) else 0 :=
    Measurable.ite ((measurableSet_eq_fun ((measurable_pi_apply t).comp measurable_snd) measurable_const).compl) measurable_const measurable_const
  have h1 := tendsto_lintegral_filter_of_dominated_convergence (μ := π) (l := smallSteps n) (F := fun δ x => moveProb (K x (fun _ => 0) δ) t 0) (f := fun _ => L)
    (fun _ => 1) (smallSteps_pos.mono fun δ hδ => ?_) (smallSteps_pos.mono fun δ hδ => .of_forall fun x => ?_) (by simp) (.of_forall h)
  · simpa using h1
  · exact ((hK δ hδ).ker.measurable' hf).comp (by fun_prop : Measurable fun x : Traj (n + 1) d => (x, fun _ : Fin (n + 1) => (0 : Fin (N + 1))))
  · refine le_trans ((hK δ hδ).ker.mono (x, fun _ => 0) hf measurable_const fun r => ?_) ((hK δ hδ).mass x _).le
    split_ifs <;> simp

section runs
variable {tau : ℤ} (svd : Mat d d → SvdOut d) {k : SvType} {style : String}
    (hk : k = .RW_CSMC ∨ k = .MALA_CSMC ∧ (style = "filtering" ∨ style = "marginal")) (stat : TargetStat)
    {resampling : Resampling Ex N} (hR : GoodResampling resampling) {last_step : String} {mv : AncestorMove Ex N}
    (hmv : sel_last_step last_step = .ok mv) (hN : 1 ≤ N) {make : Traj (n + 1) d → SvKernel Ex (n + 1) d}
    (hmake : k.kernel_maker svd (svDynArgs tau d) style stat resampling mv true = .ok make) (ys : Traj (n + 1) d)
    (π : Measure (Traj (n + 1) d)) [IsProbabilityMeasure π] (t : Fin (n + 1))
include hk hR hmv hN hmake

/-- **C106** (`experiments/stochastic_volatility`): the acceptance probability at time `t` of the kernels the script makes for `RW_CSMC`, and for `MALA_CSMC` in
styles `filtering` and `marginal`, started from any law. -/
theorem C106_sv : Tendsto (fun δ => acceptProb (make ys) (.perStep δ) π t) (smallSteps n) (𝓝 (flatLimit N last_step t).toReal) := by
  have hL : flatLimit N last_step t ≠ ∞ := by
    unfold flatLimit
    split_ifs <;> simp
  have hmk : (∀ key, MoveKer (moveIndex mv key)) ∧ ∀ key, MoveMass (moveIndex mv key) := by
    unfold sel_last_step at hmv
    split_ifs at hmv
    · obtain rfl := Except.ok.inj hmv
      exact ⟨fun key => force_moveKer key, fun key w hw k => force_mass key hw k⟩
    · obtain rfl := Except.ok.inj hmv
      exact ⟨fun key => (barker_moveInvariant key).ker, fun key w hw k => barker_mass key hw k⟩
  have hacc : ∀ (K : Key → (Fin (n + 1) → Vec d) → (Fin (n + 1) → Fin (N + 1)) → (Fin (n + 1) → ℝ) → Ex (KOut (Vec d) N n)) (δ : Fin (n + 1) → ℝ),
      acceptProb (csmcSvPlain fun key x b δ => outOf (K key x b δ)) (.perStep δ) π t = (∫⁻ x, moveProb (K (splitKey [] 1 0) x (fun _ => 0) δ) t 0 ∂π).toReal :=
    fun K δ => by
      unfold acceptProb moveProb
      refine congrArg ENNReal.toReal (lintegral_congr fun x => ?_)
      have e : ∀ i : Fin (N + 1), ENNReal.ofReal (boolF (decide (i ≠ 0))) = if i ≠ 0 then 1 else 0 := fun i => by by_cases h : i = 0 <;> simp [boolF, h]
      simp only [← e]
      rfl
  have h0 := contDiff_svGamma_0 ys (svDynArgs tau d)
  have h := contDiff_svGamma_t (d := d) (svDynArgs tau d)
  have hl := fun x => C106_sv_step ys hR (splitKey [] 1 0) x (fun _ => 0) hmv hN t (svDynArgs tau d)
  have hrw : Tendsto (fun δ => ∫⁻ x, moveProb (sv_rw_csmc (fun _ => true) ys (svDynArgs tau d) resampling mv true (splitKey [] 1 0) x (fun _ => 0) δ) t 0 ∂π)
      (smallSteps n) (𝓝 (flatLimit N last_step t)) := move_average (K := fun x b δ => sv_rw_csmc (fun _ => true) ys (svDynArgs tau d) resampling mv true (splitKey [] 1 0) x b δ)
    (fun δ hδ => rw_markov _ _ h0.continuous.measurable (fun y => (h y).continuous.measurable) hδ hR hmk.1 hmk.2 true) (fun x => (hl x).1) π
  have hal : Tendsto (fun δ => ∫⁻ x, moveProb (sv_mala_csmc_filtering ys (svDynArgs tau d) resampling mv true (splitKey [] 1 0) x (fun _ => 0) δ) t 0 ∂π)
      (smallSteps n) (𝓝 (flatLimit N last_step t)) := move_average (K := fun x b δ => sv_mala_csmc_filtering ys (svDynArgs tau d) resampling mv true (splitKey [] 1 0) x b δ)
    (fun δ hδ => al_markov _ _ δ h0.continuous.measurable (fun y => (h y).continuous.measurable) (continuous_jaxGrad h0).measurable
      (fun y => (continuous_jaxGrad_snd (f := fun x' x => svGamma_t (svDynArgs tau d) x' x y) (h y)).measurable) hδ hR hmk.1 hmk.2 true) (fun x => (hl x).2.1) π
  have hml : Tendsto (fun δ => ∫⁻ x, moveProb (sv_mala_csmc_marginal ys (svDynArgs tau d) resampling mv true (splitKey [] 1 0) x (fun _ => 0) δ) t 0 ∂π)
      (smallSteps n) (𝓝 (flatLimit N last_step t)) := move_average (K := fun x b δ => sv_mala_csmc_marginal ys (svDynArgs tau d) resampling mv true (splitKey [] 1 0) x b δ)
    (fun δ hδ => l_markov _ _ δ h0.continuous.measurable (fun y => (h y).continuous.measurable) (continuous_jaxGrad h0).measurable
      (fun y => (continuous_jaxGrad_snd (f := fun x' x => svGamma_t (svDynArgs tau d) x' x y) (h y)).measurable) hδ hR hmk.1 hmk.2 true) (fun x => (hl x).2.2) π
  rcases hk with rfl | ⟨rfl, rfl | rfl⟩
  · obtain rfl := Except.ok.inj hmake
    simp only [hacc]
    exact (ENNReal.tendsto_toReal hL).comp hrw
  · obtain rfl := Except.ok.inj hmake
    simp only [hacc]
    exact (ENNReal.tendsto_toReal hL).comp hal
  · obtain rfl := Except.ok.inj hmake
    simp only [hacc]
    exact (ENNReal.tendsto_toReal hL).comp hml

/-- **C106** (target rates): every target below `N / (N + 1)` is exceeded at all times once all step sizes are small. -/
theorem C106_target {target : ℝ} (hT : target < N / (N + 1)) : ∃ δ₀ > 0, ∀ δ : Fin (n + 1) → ℝ, (∀ t, 0 < δ t ∧ δ t < δ₀) →
    ∀ t, target < acceptProb (make ys) (.perStep δ) π t := by
  have h1 : ∀ t, ∀ᶠ δ in smallSteps n, target < acceptProb (make ys) (.perStep δ) π t := fun t => by
    refine (C106_sv svd hk stat hR hmv hN hmake ys π t).eventually (lt_mem_nhds ?_)
    unfold flatLimit
    split_ifs
    · refine hT.trans ?_
      rw [ENNReal.toReal_one, div_lt_one (by positivity)]
      linarith
    · rwa [ENNReal.toReal_ofReal (by positivity)]
  have h2 := eventually_all.mpr h1
  unfold smallSteps at h2
  rw [eventually_nhdsWithin_iff, Metric.eventually_nhds_iff] at h2
  obtain ⟨ε, he, h3⟩ := h2
  refine ⟨ε, he, fun δ hδ t => h3 ?_ (fun t => (hδ t).1) t⟩
  rw [dist_pi_lt_iff he]
  intro t
  rw [Pi.zero_apply, Real.dist_eq, sub_zero, abs_of_pos (hδ t).1]
  exact (hδ t).2

end runs

/-- The grid of `stochastic_volatility`: 31 + 1 particles, multinomial or killing resampling, the posterior, a target rate of three quarters. -/
example (svd : Mat 30 30 → SvdOut 30) (ys : Traj 250 30) :
    (∃ δ₀ > 0, ∀ δ : Fin 250 → ℝ, (∀ t, 0 < δ t ∧ δ t < δ₀) → ∀ t, 0.75 < acceptProb (csmcSvPlain fun key x b δ => outOf (sv_rw_csmc (m := Ex) (N := 31)
      (fun _ => true) ys (svDynArgs 10 30) (fun key w i j c => killing key w i j c) (fun key w k => force_move key w k) true key x b δ)) (.perStep δ)
      (svPosterior .RW_CSMC 10 ys) t) ∧
    ∃ δ₀ > 0, ∀ δ : Fin 250 → ℝ, (∀ t, 0 < δ t ∧ δ t < δ₀) → ∀ t, 0.75 < acceptProb (csmcSvPlain fun key x b δ => outOf (sv_mala_csmc_marginal (m := Ex) (N := 31)
      ys (svDynArgs 10 30) (fun key w i j c => multinomial key w i j c) (fun key w k => barker_move key w k) true key x b δ)) (.perStep δ)
      (svPosterior .MALA_CSMC 10 ys) t := by
  have := C67_proper (n := 249) (d := 30) .RW_CSMC (tau := 10) (by norm_num) ys
  have := C67_proper (n := 249) (d := 30) .MALA_CSMC (tau := 10) (by norm_num) ys
  exact ⟨C106_target svd (.inl rfl) (.name "mean") goodResampling.1 (last_step := "forced") rfl (by norm_num) (style := "") rfl ys _ (by norm_num),
    C106_target svd (.inr ⟨rfl, .inr rfl⟩) (.name "mean") goodResampling.2 (last_step := "barker") rfl (by norm_num) rfl ys _ (by norm_num)⟩

/-- Two times, one proposal, a trajectory away from the data: small steps move at the first time with probability one half, at the last always. -/
example (key : Key) :
    Tendsto (fun δ => moveProb (lg_mala_csmc_filtering (n := 1) (d := 1) (N := 1) (fun _ _ => 2) 1 (fun key w i j c => killing key w i j c)
      (fun key w k => force_move key w k) true key (fun _ _ => 0) (fun _ => 1) δ) 0 1) (smallSteps 1) (𝓝 (ENNReal.ofReal (1 / 2))) ∧
    Tendsto (fun δ => moveProb (lg_mala_csmc_filtering (n := 1) (d := 1) (N := 1) (fun _ _ => 2) 1 (fun key w i j c => killing key w i j c)
      (fun key w k => force_move key w k) true key (fun _ _ => 0) (fun _ => 1) δ) 1 1) (smallSteps 1) (𝓝 1) := by
  have h := fun t => (C106_lgssm (n := 1) (d := 1) (N := 1) (fun _ _ => 2) goodResampling.1 key (fun _ _ => 0) (fun _ => 1) (last_step := "forced") rfl le_rfl t 1).2.1
  have h0 := h 0
  have h1 := h 1
  rw [flatLimit, if_neg (by decide)] at h0
  rw [flatLimit, if_pos ⟨rfl, rfl⟩] at h1
  norm_num at h0 ⊢
  exact ⟨h0, h1⟩

end Verif.Props
