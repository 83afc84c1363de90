import Verif.Lemmas.LargeAuxSteps
import Verif.Props.LargeSteps

/-!
# Large steps of the particle kernels with gradients are rejected (C110)
-/

open scoped ENNReal Topology
open MeasureTheory Filter

namespace Verif.Props
open Verif Verif.Model Verif.Spec

variable {N n d : ℕ} {G : Type}

section kernels
variable {resampling : Resampling Ex N} (hR : GoodResampling resampling) {last_step : String} {mv : AncestorMove Ex N}
    (hmv : sel_last_step last_step = .ok mv) (hd : 1 ≤ d) (key : Key) (xstar : Fin (n + 1) → Vec d) (bstar : Fin (n + 1) → Fin (N + 1))
    (Gp : Fin n → G) {Γ0 : Vec d → ℝ} {Γ : Vec d → Vec d → G → ℝ} (c0 : Continuous Γ0) (cΓ : ∀ y, Continuous fun p : Vec d × Vec d => Γ p.1 p.2 y)
    (h0 : Tendsto Γ0 (cocompact _) atBot) (hΓ : ∀ t, VanishesFar Γ (Gp t)) (g0 : Vec d → Vec d) (g : Vec d → Vec d → G → Vec d) (backward : Bool) (t : Fin (n + 1))
include hR hmv hd c0 cΓ h0 hΓ

/-- **C110** (`al_csmc_f.py`): with continuous potentials that vanish far away and any functions used as gradients, as the step sizes grow the probability that
the step moves at time `t` tends to zero, with and without backward sampling, whatever the trajectory, the indices, the resampling and the last step. -/
theorem C110_al (hN : 1 ≤ N) :
    Tendsto (fun δ => moveProb (al_kernel key xstar bstar Γ0 g0 Γ g Gp δ δ resampling mv backward) t (bstar t)) (largeSteps n) (𝓝 0) :=
  al_large (δ := fun δ => δ) largeSteps_tendsto hd hR (sel_odds hmv hN) key xstar bstar Gp c0 cΓ h0 hΓ g0 g backward t

/-- **C110** (`l_csmc_f.py`): the same for the marginal kernel. -/
theorem C110_l (hN : 1 ≤ N) :
    Tendsto (fun δ => moveProb (l_kernel key xstar bstar Γ0 g0 Γ g Gp δ δ resampling mv backward) t (bstar t)) (largeSteps n) (𝓝 0) :=
  l_large (δ := fun δ => δ) largeSteps_tendsto hd hN hR (sel_odds hmv hN) key xstar bstar Gp c0 cΓ h0 hΓ g0 g backward t

end kernels

section exps
variable {resampling : Resampling Ex N} (hR : GoodResampling resampling) {last_step : String} {mv : AncestorMove Ex N}
  (hmv : sel_last_step last_step = .ok mv) (hN : 1 ≤ N) (hd : 1 ≤ d) (key : Key) (x : Fin (n + 1) → Vec d) (b : Fin (n + 1) → Fin (N + 1)) (backward : Bool)
  (t : Fin (n + 1))
include hR hmv hN hd

/-- **C110** (linear Gaussian experiment): `MALA_CSMC` in styles `filtering` and `marginal`, for every value of `sigma` and all data. -/
theorem C110_lgssm (ys : Traj (n + 1) d) (sigma : ℝ) :
    Tendsto (fun δ => moveProb (lg_mala_csmc_filtering ys sigma resampling mv backward key x b δ) t (b t)) (largeSteps n) (𝓝 0) ∧
    Tendsto (fun δ => moveProb (lg_mala_csmc_marginal ys sigma resampling mv backward key x b δ) t (b t)) (largeSteps n) (𝓝 0) :=
  ⟨C110_al hR hmv hd key x b (tailA ys) (contDiff_lgGamma_0 ys sigma).continuous (fun y => (contDiff_lgGamma_t sigma y).continuous) (lg_far0 ys sigma)
    (fun _ => lg_far sigma _) _ _ backward t hN,
   C110_l hR hmv hd key x b (tailA ys) (contDiff_lgGamma_0 ys sigma).continuous (fun y => (contDiff_lgGamma_t sigma y).continuous) (lg_far0 ys sigma)
    (fun _ => lg_far sigma _) _ _ backward t hN⟩

/-- **C110** (stochastic volatility): `MALA_CSMC` in styles `filtering` and `marginal`, for all parameters of the dynamics and data without zeros. -/
theorem C110_sv_step {ys : Traj (n + 1) d} (hy : ∀ t j, ys t j ≠ 0) (D : SvDyn d) :
    Tendsto (fun δ => moveProb (sv_mala_csmc_filtering ys D resampling mv backward key x b δ) t (b t)) (largeSteps n) (𝓝 0) ∧
    Tendsto (fun δ => moveProb (sv_mala_csmc_marginal ys D resampling mv backward key x b δ) t (b t)) (largeSteps n) (𝓝 0) :=
  ⟨C110_al hR hmv hd key x b (tailA ys) (contDiff_svGamma_0 ys D).continuous (fun y => (contDiff_svGamma_t D y).continuous) (sv_far0 (hy 0) D)
    (fun t => sv_far (hy t.succ) D) _ _ backward t hN,
   C110_l hR hmv hd key x b (tailA ys) (contDiff_svGamma_0 ys D).continuous (fun y => (contDiff_svGamma_t D y).continuous) (sv_far0 (hy 0) D)
    (fun t => sv_far (hy t.succ) D) _ _ backward t hN⟩

end exps

/-! ## Acceptance rates of the runs -/

section runs
variable {tau : ℤ} (svd : Mat d d → SvdOut d) {style : String} (hk : style = "filtering" ∨ style = "marginal") (stat : TargetStat)
    {resampling : Resampling Ex N} (hR : GoodResampling resampling)
    {last_step : String} {mv : AncestorMove Ex N} (hmv : sel_last_step last_step = .ok mv) (hN : 1 ≤ N) (hd : 1 ≤ d) {backward : Bool}
    {make : Traj (n + 1) d → SvKernel Ex (n + 1) d}
    (hmake : SvType.MALA_CSMC.kernel_maker svd (svDynArgs tau d) style stat resampling mv backward = .ok make) {ys : Traj (n + 1) d} (hy : ∀ t j, ys t j ≠ 0)
    (π : Measure (Traj (n + 1) d)) [IsProbabilityMeasure π]
include hk hR hmv hN hd hmake hy

/-- **C110** (`experiments/stochastic_volatility`): the acceptance probability at time `t` of the kernels the script makes for `MALA_CSMC` in styles `filtering`
and `marginal`, started from any law. -/
theorem C110_sv (t : Fin (n + 1)) : Tendsto (fun δ => acceptProb (make ys) (.perStep δ) π t) (largeSteps n) (𝓝 0) := by
  have hmk : (∀ key, MoveKer (moveIndex mv key)) ∧ ∀ key, MoveMass (moveIndex mv key) := by
    unfold sel_last_step at hmv
    split_ifs at hmv
    · obtain rfl := Except.ok.inj hmv
      exact ⟨fun key => force_moveKer key, fun key w hw k => force_mass key hw k⟩
    · obtain rfl := Except.ok.inj hmv
      exact ⟨fun key => (barker_moveInvariant key).ker, fun key w hw k => barker_mass key hw k⟩
  have hacc : ∀ (K : Key → (Fin (n + 1) → Vec d) → (Fin (n + 1) → Fin (N + 1)) → (Fin (n + 1) → ℝ) → Ex (KOut (Vec d) N n)) (δ : Fin (n + 1) → ℝ),
      acceptProb (csmcSvPlain fun key x b δ => outOf (K key x b δ)) (.perStep δ) π t = (∫⁻ x, moveProb (K (splitKey [] 1 0) x (fun _ => 0) δ) t 0 ∂π).toReal :=
    fun K δ => by
      unfold acceptProb moveProb
      refine congrArg ENNReal.toReal (lintegral_congr fun x => ?_)
      have e : ∀ i : Fin (N + 1), ENNReal.ofReal (boolF (decide (i ≠ 0))) = if i ≠ 0 then 1 else 0 := fun i => by by_cases h : i = 0 <;> simp [boolF, h]
      simp only [← e]
      rfl
  have h0 := contDiff_svGamma_0 ys (svDynArgs tau d)
  have h := contDiff_svGamma_t (d := d) (svDynArgs tau d)
  have hl := fun x => C110_sv_step hR hmv hN hd (splitKey [] 1 0) x (fun _ => 0) backward t hy (svDynArgs tau d)
  have hL : (0 : ℝ≥0∞) ≠ ∞ := ENNReal.zero_ne_top
  rcases hk with rfl | rfl
  · have h1 := move_average_large (K := fun x b δ => sv_mala_csmc_filtering ys (svDynArgs tau d) resampling mv backward (splitKey [] 1 0) x b δ)
      (fun δ hδ => al_markov _ _ δ h0.continuous.measurable (fun y => (h y).continuous.measurable) (continuous_jaxGrad h0).measurable
        (fun y => (continuous_jaxGrad_snd (f := fun x' x => svGamma_t (svDynArgs tau d) x' x y) (h y)).measurable) hδ hR hmk.1 hmk.2 backward) (fun x => (hl x).1) π
    have h2 := (ENNReal.tendsto_toReal hL).comp h1
    rw [ENNReal.toReal_zero] at h2
    obtain rfl := Except.ok.inj hmake
    simp only [hacc]
    exact h2
  · have h1 := move_average_large (K := fun x b δ => sv_mala_csmc_marginal ys (svDynArgs tau d) resampling mv backward (splitKey [] 1 0) x b δ)
      (fun δ hδ => l_markov _ _ δ h0.continuous.measurable (fun y => (h y).continuous.measurable) (continuous_jaxGrad h0).measurable
        (fun y => (continuous_jaxGrad_snd (f := fun x' x => svGamma_t (svDynArgs tau d) x' x y) (h y)).measurable) hδ hR hmk.1 hmk.2 backward)
      (fun x => (hl x).2) π
    have h2 := (ENNReal.tendsto_toReal hL).comp h1
    rw [ENNReal.toReal_zero] at h2
    obtain rfl := Except.ok.inj hmake
    simp only [hacc]
    exact h2

/-- **C110** (target rates): a positive target is missed at all times once all step sizes are large. -/
theorem C110_target {target : ℝ} (hT : 0 < target) : ∃ δ₁ > 0, ∀ δ : Fin (n + 1) → ℝ, (∀ t, δ₁ < δ t) →
    ∀ t, acceptProb (make ys) (.perStep δ) π t < target := by
  have h2 : ∀ᶠ δ in largeSteps n, ∀ t, acceptProb (make ys) (.perStep δ) π t < target :=
    eventually_all.mpr fun t => (C110_sv svd hk stat hR hmv hN hd hmake hy π t).eventually (gt_mem_nhds hT)
  obtain ⟨I, -, s, hs, hsub⟩ := mem_pi.mp h2
  choose a ha using fun t => mem_atTop_sets.mp (hs t)
  have h3 : 0 ≤ ∑ t, |a t| := Finset.sum_nonneg fun t _ => abs_nonneg _
  refine ⟨1 + ∑ t, |a t|, by linarith, fun δ hδ => hsub fun t _ => ha t _ ?_⟩
  have h4 := Finset.single_le_sum (f := fun t => |a t|) (fun t _ => abs_nonneg _) (Finset.mem_univ t)
  have h5 := le_abs_self (a t)
  have h6 := hδ t
  linarith

end runs

/-- **C110** (bracketing): with backward sampling, for every target between zero and `N / (N + 1)` small step sizes accept more and large step sizes accept
less, at all times. -/
theorem C110_bracket {tau : ℤ} (svd : Mat d d → SvdOut d) {style : String} (hk : style = "filtering" ∨ style = "marginal") (stat : TargetStat)
    {resampling : Resampling Ex N} (hR : GoodResampling resampling)
    {last_step : String} {mv : AncestorMove Ex N} (hmv : sel_last_step last_step = .ok mv) (hN : 1 ≤ N) (hd : 1 ≤ d)
    {make : Traj (n + 1) d → SvKernel Ex (n + 1) d}
    (hmake : SvType.MALA_CSMC.kernel_maker svd (svDynArgs tau d) style stat resampling mv true = .ok make) {ys : Traj (n + 1) d} (hy : ∀ t j, ys t j ≠ 0)
    (π : Measure (Traj (n + 1) d)) [IsProbabilityMeasure π] {target : ℝ} (hT0 : 0 < target) (hT1 : target < N / (N + 1)) :
    ∃ δ₀ > 0, ∃ δ₁ > 0, ∀ δ : Fin (n + 1) → ℝ,
      ((∀ t, 0 < δ t ∧ δ t < δ₀) → ∀ t, target < acceptProb (make ys) (.perStep δ) π t) ∧
      ((∀ t, δ₁ < δ t) → ∀ t, acceptProb (make ys) (.perStep δ) π t < target) := by
  obtain ⟨δ₀, h0, h1⟩ := C106_target svd (.inr ⟨rfl, hk⟩) stat hR hmv hN hmake ys π hT1
  obtain ⟨δ₁, h2, h3⟩ := C110_target svd hk stat hR hmv hN hd hmake hy π hT0
  exact ⟨δ₀, h0, δ₁, h2, fun δ => ⟨h1 δ, h3 δ⟩⟩

/-- Runs of `stochastic_volatility` with 31 + 1 particles, the posterior and a target rate of three quarters, in style `marginal`. -/
example (svd : Mat 30 30 → SvdOut 30) {ys : Traj 250 30} (hy : ∀ t j, ys t j ≠ 0) :
    ∃ δ₀ > 0, ∃ δ₁ > 0, ∀ δ : Fin 250 → ℝ,
      ((∀ t, 0 < δ t ∧ δ t < δ₀) → ∀ t, 0.75 < acceptProb (csmcSvPlain fun key x b δ => outOf (sv_mala_csmc_marginal (m := Ex) (N := 31)
        ys (svDynArgs 10 30) (fun key w i j c => killing key w i j c) (fun key w k => force_move key w k) true key x b δ)) (.perStep δ)
        (svPosterior .MALA_CSMC 10 ys) t) ∧
      ((∀ t, δ₁ < δ t) → ∀ t, acceptProb (csmcSvPlain fun key x b δ => outOf (sv_mala_csmc_marginal (m := Ex) (N := 31)
        ys (svDynArgs 10 30) (fun key w i j c => killing key w i j c) (fun key w k => force_move key w k) true key x b δ)) (.perStep δ)
        (svPosterior .MALA_CSMC 10 ys) t < 0.75) := by
  have := C67_proper (n := 249) (d := 30) .MALA_CSMC (tau := 10) (by norm_num) ys
  exact C110_bracket svd (.inr rfl) (.name "mean") goodResampling.1 (last_step := "forced") rfl (by norm_num) (by norm_num) rfl hy _ (by norm_num)
    (by norm_num)

/-- Two times, one proposal, without backward sampling, from a trajectory away from the data. -/
example (key : Key) : Tendsto (fun δ => moveProb (lg_mala_csmc_filtering (n := 1) (d := 1) (N := 1) (fun _ _ => 2) 1 (fun key w i j c => killing key w i j c)
    (fun key w k => force_move key w k) false key (fun _ _ => 0) (fun _ => 1) δ) 0 1) (largeSteps 1) (𝓝 0) ∧
    Tendsto (fun δ => moveProb (lg_mala_csmc_marginal (n := 1) (d := 1) (N := 1) (fun _ _ => 2) 1 (fun key w i j c => killing key w i j c)
    (fun key w k => force_move key w k) false key (fun _ _ => 0) (fun _ => 1) δ) 0 1) (largeSteps 1) (𝓝 0) :=
  C110_lgssm goodResampling.1 (last_step := "forced") rfl le_rfl le_rfl key (fun _ _ => 0) (fun _ => 1) false 0 (fun _ _ => 2) 1

end Verif.Props
