import Verif.Lemmas.FarPotentials
import Verif.Props.ScanSteps

/-!
# Large steps of the particle kernels with random walks are rejected (C108)
-/

open scoped ENNReal Topology
open MeasureTheory Filter

namespace Verif.Props
open Verif Verif.Model Verif.Spec

variable {N n d : ℕ} {G : Type}

instance : (largeSteps n).IsCountablyGenerated := by unfold largeSteps; infer_instance

theorem largeSteps_tendsto (t : Fin (n + 1)) : Tendsto (fun δ : Fin (n + 1) → ℝ => δ t) (largeSteps n) atTop := tendsto_eval_pi _ t

theorem largeSteps_pos : ∀ᶠ δ in largeSteps n, ∀ t, 0 < δ t := eventually_all.mpr fun t => (largeSteps_tendsto t).eventually_gt_atTop 0

theorem sel_odds {last_step : String} {mv : AncestorMove Ex N} (hmv : sel_last_step last_step = .ok mv) (hN : 1 ≤ N) : OddsMove mv := by
  unfold sel_last_step at hmv
  split_ifs at hmv
  · obtain rfl := Except.ok.inj hmv
    exact force_odds hN
  · obtain rfl := Except.ok.inj hmv
    exact barker_odds

/-- **C108** (`rw_csmc.py`): with continuous potentials that vanish far away, as the step sizes grow the probability that the step moves at time `t` tends to
zero, with and without backward sampling, whatever the trajectory, the indices, the resampling and the last step. -/
theorem C108_rw {resampling : Resampling Ex N} (hR : GoodResampling resampling) {last_step : String} {mv : AncestorMove Ex N}
    (hmv : sel_last_step last_step = .ok mv) (hN : 1 ≤ N) (hd : 1 ≤ d) (key : Key) (xstar : Fin (n + 1) → Vec d) (bstar : Fin (n + 1) → Fin (N + 1))
    (Gp : Fin n → G) {Γ0 : Vec d → ℝ} {Γ : Vec d → Vec d → G → ℝ} (c0 : Continuous Γ0) (cΓ : ∀ y, Continuous fun p : Vec d × Vec d => Γ p.1 p.2 y)
    (h0 : Tendsto Γ0 (cocompact _) atBot) (hΓ : ∀ t, VanishesFar Γ (Gp t)) (backward : Bool) (t : Fin (n + 1)) :
    Tendsto (fun δ => moveProb (rw_kernel (fun _ => true) key xstar bstar Γ0 Γ Gp δ resampling mv backward) t (bstar t)) (largeSteps n) (𝓝 0) :=
  rw_large (δ := fun δ => δ) largeSteps_tendsto hd hR (sel_odds hmv hN) key xstar bstar Gp c0 cΓ h0 hΓ backward t

section exps
variable {resampling : Resampling Ex N} (hR : GoodResampling resampling) {last_step : String} {mv : AncestorMove Ex N}
  (hmv : sel_last_step last_step = .ok mv) (hN : 1 ≤ N) (hd : 1 ≤ d) (key : Key) (x : Fin (n + 1) → Vec d) (b : Fin (n + 1) → Fin (N + 1)) (backward : Bool)
  (t : Fin (n + 1))
include hR hmv hN hd

/-- **C108** (linear Gaussian experiment): `RW_CSMC`, for every value of `sigma` and all data. -/
theorem C108_lgssm (ys : Traj (n + 1) d) (sigma : ℝ) :
    Tendsto (fun δ => moveProb (lg_rw_csmc (fun _ => true) ys sigma resampling mv backward key x b δ) t (b t)) (largeSteps n) (𝓝 0) :=
  C108_rw hR hmv hN hd key x b (tailA ys) (contDiff_lgGamma_0 ys sigma).continuous (fun y => (contDiff_lgGamma_t sigma y).continuous) (lg_far0 ys sigma)
    (fun _ => lg_far sigma _) backward t

/-- **C108** (stochastic volatility): `RW_CSMC`, for all parameters of the dynamics and data without zeros. -/
theorem C108_sv_step {ys : Traj (n + 1) d} (hy : ∀ t j, ys t j ≠ 0) (D : SvDyn d) :
    Tendsto (fun δ => moveProb (sv_rw_csmc (fun _ => true) ys D resampling mv backward key x b δ) t (b t)) (largeSteps n) (𝓝 0) :=
  C108_rw hR hmv hN hd key x b (tailA ys) (contDiff_svGamma_0 ys D).continuous (fun y => (contDiff_svGamma_t D y).continuous) (sv_far0 (hy 0) D)
    (fun t => sv_far (hy t.succ) D) backward t

end exps

/-! ## Acceptance rates of the runs -/

theorem move_average_large {K : (Fin (n + 1) → Vec d) → (Fin (n + 1) → Fin (N + 1)) → (Fin (n + 1) → ℝ) → Ex (KOut (Vec d) N n)}
    (hK : ∀ δ : Fin (n + 1) → ℝ, (∀ t, 0 < δ t) → MarkovStep fun x b => K x b δ >>= fun r => pure (r.xs, r.Bs)) {L : ℝ≥0∞} {t : Fin (n + 1)}
    (h : ∀ x, Tendsto (fun δ => moveProb (K x (fun _ => 0) δ) t 0) (largeSteps n) (𝓝 L)) (π : Measure (Traj (n + 1) d)) [IsProbabilityMeasure π] :
    Tendsto (fun δ => ∫⁻ x, moveProb (K x (fun _ => 0) δ) t 0 ∂π) (largeSteps n) (𝓝 L) := by
  have hf : Measurable fun r : (Fin (n + 1) → Vec d) × (Fin (n + 1) → Fin (N + 1)) => if r.2 t ≠ 0 then (1 : ℝ≥0∞) else 0 :=
    Measurable.ite ((measurableSet_eq_fun ((measurable_pi_apply t).comp measurable_snd) measurable_const).compl) measurable_const measurable_const
  have h1 := tendsto_lintegral_filter_of_dominated_convergence (μ := π) (l := largeSteps n) (F := fun δ x => moveProb (K x (fun _ => 0) δ) t 0) (f := fun _ => L)
    (fun _ => 1) (largeSteps_pos.mono fun δ hδ => ?_) (largeSteps_pos.mono fun δ hδ => .of_forall fun x => ?_) (by simp) (.of_forall h)
  · simpa using h1
  · exact ((hK δ hδ).ker.measurable' hf).comp (by fun_prop : Measurable fun x : Traj (n + 1) d => (x, fun _ : Fin (n + 1) => (0 : Fin (N + 1))))
  · refine le_trans ((hK δ hδ).ker.mono (x, fun _ => 0) hf measurable_const fun r => ?_) ((hK δ hδ).mass x _).le
    split_ifs <;> simp

section runs
variable {tau : ℤ} (svd : Mat d d → SvdOut d) {style : String} (stat : TargetStat) {resampling : Resampling Ex N} (hR : GoodResampling resampling)
    {last_step : String} {mv : AncestorMove Ex N} (hmv : sel_last_step last_step = .ok mv) (hN : 1 ≤ N) (hd : 1 ≤ d) {backward : Bool}
    {make : Traj (n + 1) d → SvKernel Ex (n + 1) d}
    (hmake : SvType.RW_CSMC.kernel_maker svd (svDynArgs tau d) style stat resampling mv backward = .ok make) {ys : Traj (n + 1) d} (hy : ∀ t j, ys t j ≠ 0)
    (π : Measure (Traj (n + 1) d)) [IsProbabilityMeasure π]
include hR hmv hN hd hmake hy

/-- **C108** (`experiments/stochastic_volatility`): the acceptance probability at time `t` of the kernel the script makes for `RW_CSMC`, started from any law. -/
theorem C108_sv (t : Fin (n + 1)) : Tendsto (fun δ => acceptProb (make ys) (.perStep δ) π t) (largeSteps n) (𝓝 0) := by
  have hmk : (∀ key, MoveKer (moveIndex mv key)) ∧ ∀ key, MoveMass (moveIndex mv key) := by
    unfold sel_last_step at hmv
    split_ifs at hmv
    · obtain rfl := Except.ok.inj hmv
      exact ⟨fun key => force_moveKer key, fun key w hw k => force_mass key hw k⟩
    · obtain rfl := Except.ok.inj hmv
      exact ⟨fun key => (barker_moveInvariant key).ker, fun key w hw k => barker_mass key hw k⟩
  have hacc : ∀ (K : Key → (Fin (n + 1) → Vec d) → (Fin (n + 1) → Fin (N + 1)) → (Fin (n + 1) → ℝ) → Ex (KOut (Vec d) N n)) (δ : Fin (n + 1) → ℝ),
      acceptProb (csmcSvPlain fun key x b δ => outOf (K key x b δ)) (.perStep δ) π t = (∫⁻ x, moveProb (K (splitKey [] 1 0) x (fun _ => 0) δ) t 0 ∂π).toReal :=
    fun K δ => by
      unfold acceptProb moveProb
      refine congrArg ENNReal.toReal (lintegral_congr fun x => ?_)
      have e : ∀ i : Fin (N + 1), ENNReal.ofReal (boolF (decide (i ≠ 0))) = if i ≠ 0 then 1 else 0 := fun i => by by_cases h : i = 0 <;> simp [boolF, h]
      simp only [← e]
      rfl
  have h0 := contDiff_svGamma_0 ys (svDynArgs tau d)
  have h := contDiff_svGamma_t (d := d) (svDynArgs tau d)
  have h1 := move_average_large (K := fun x b δ => sv_rw_csmc (fun _ => true) ys (svDynArgs tau d) resampling mv backward (splitKey [] 1 0) x b δ)
    (fun δ hδ => rw_markov _ _ h0.continuous.measurable (fun y => (h y).continuous.measurable) hδ hR hmk.1 hmk.2 backward)
    (fun x => C108_sv_step hR hmv hN hd (splitKey [] 1 0) x (fun _ => 0) backward t hy (svDynArgs tau d)) π
  have h2 := (ENNReal.tendsto_toReal ENNReal.zero_ne_top).comp h1
  rw [ENNReal.toReal_zero] at h2
  obtain rfl := Except.ok.inj hmake
  simp only [hacc]
  exact h2

/-- **C108** (target rates): a positive target is missed at all times once all step sizes are large. -/
theorem C108_target {target : ℝ} (hT : 0 < target) : ∃ δ₁ > 0, ∀ δ : Fin (n + 1) → ℝ, (∀ t, δ₁ < δ t) →
    ∀ t, acceptProb (make ys) (.perStep δ) π t < target := by
  have h2 : ∀ᶠ δ in largeSteps n, ∀ t, acceptProb (make ys) (.perStep δ) π t < target :=
    eventually_all.mpr fun t => (C108_sv svd stat hR hmv hN hd hmake hy π t).eventually (gt_mem_nhds hT)
  obtain ⟨I, -, s, hs, hsub⟩ := mem_pi.mp h2
  choose a ha using fun t => mem_atTop_sets.mp (hs t)
  have h3 : 0 ≤ ∑ t, |a t| := Finset.sum_nonneg fun t _ => abs_nonneg _
  refine ⟨1 + ∑ t, |a t|, by linarith, fun δ hδ => hsub fun t _ => ha t _ ?_⟩
  have h4 := Finset.single_le_sum (f := fun t => |a t|) (fun t _ => abs_nonneg _) (Finset.mem_univ t)
  have h5 := le_abs_self (a t)
  have h6 := hδ t
  linarith

end runs

/-- **C108** (bracketing): with backward sampling, for every target between zero and `N / (N + 1)` small step sizes accept more and large step sizes accept
less, at all times. -/
theorem C108_bracket {tau : ℤ} (svd : Mat d d → SvdOut d) {style : String} (stat : TargetStat) {resampling : Resampling Ex N} (hR : GoodResampling resampling)
    {last_step : String} {mv : AncestorMove Ex N} (hmv : sel_last_step last_step = .ok mv) (hN : 1 ≤ N) (hd : 1 ≤ d)
    {make : Traj (n + 1) d → SvKernel Ex (n + 1) d}
    (hmake : SvType.RW_CSMC.kernel_maker svd (svDynArgs tau d) style stat resampling mv true = .ok make) {ys : Traj (n + 1) d} (hy : ∀ t j, ys t j ≠ 0)
    (π : Measure (Traj (n + 1) d)) [IsProbabilityMeasure π] {target : ℝ} (hT0 : 0 < target) (hT1 : target < N / (N + 1)) :
    ∃ δ₀ > 0, ∃ δ₁ > 0, ∀ δ : Fin (n + 1) → ℝ,
      ((∀ t, 0 < δ t ∧ δ t < δ₀) → ∀ t, target < acceptProb (make ys) (.perStep δ) π t) ∧
      ((∀ t, δ₁ < δ t) → ∀ t, acceptProb (make ys) (.perStep δ) π t < target) := by
  obtain ⟨δ₀, h0, h1⟩ := C106_target svd (.inl rfl) stat hR hmv hN hmake ys π hT1
  obtain ⟨δ₁, h2, h3⟩ := C108_target svd stat hR hmv hN hd hmake hy π hT0
  exact ⟨δ₀, h0, δ₁, h2, fun δ => ⟨h1 δ, h3 δ⟩⟩

/-- Runs of `stochastic_volatility` with 31 + 1 particles, the posterior and a target rate of three quarters. -/
example (svd : Mat 30 30 → SvdOut 30) {ys : Traj 250 30} (hy : ∀ t j, ys t j ≠ 0) :
    ∃ δ₀ > 0, ∃ δ₁ > 0, ∀ δ : Fin 250 → ℝ,
      ((∀ t, 0 < δ t ∧ δ t < δ₀) → ∀ t, 0.75 < acceptProb (csmcSvPlain fun key x b δ => outOf (sv_rw_csmc (m := Ex) (N := 31)
        (fun _ => true) ys (svDynArgs 10 30) (fun key w i j c => killing key w i j c) (fun key w k => force_move key w k) true key x b δ)) (.perStep δ)
        (svPosterior .RW_CSMC 10 ys) t) ∧
      ((∀ t, δ₁ < δ t) → ∀ t, acceptProb (csmcSvPlain fun key x b δ => outOf (sv_rw_csmc (m := Ex) (N := 31)
        (fun _ => true) ys (svDynArgs 10 30) (fun key w i j c => killing key w i j c) (fun key w k => force_move key w k) true key x b δ)) (.perStep δ)
        (svPosterior .RW_CSMC 10 ys) t < 0.75) := by
  have := C67_proper (n := 249) (d := 30) .RW_CSMC (tau := 10) (by norm_num) ys
  exact C108_bracket svd (.name "mean") goodResampling.1 (last_step := "forced") rfl (by norm_num) (by norm_num) (style := "") rfl hy _ (by norm_num) (by norm_num)

/-- Two times, one proposal, without backward sampling, from a trajectory away from the data. -/
example (key : Key) : Tendsto (fun δ => moveProb (lg_rw_csmc (n := 1) (d := 1) (N := 1) (fun _ => true) (fun _ _ => 2) 1 (fun key w i j c => killing key w i j c)
    (fun key w k => force_move key w k) false key (fun _ _ => 0) (fun _ => 1) δ) 0 1) (largeSteps 1) (𝓝 0) :=
  C108_lgssm goodResampling.1 (last_step := "forced") rfl le_rfl le_rfl key (fun _ _ => 0) (fun _ => 1) false 0 (fun _ _ => 2) 1

end Verif.Props
