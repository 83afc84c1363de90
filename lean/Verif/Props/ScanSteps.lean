import Verif.Lemmas.ScanSteps
import Verif.Spec.ScanSteps
import Verif.Props.FlatSteps

/-!
# Small steps of the particle kernels without backward sampling (C107)
-/

open scoped ENNReal Topology
open MeasureTheory Filter

namespace Verif.Props
open Verif Verif.Model Verif.Spec

variable {N n d : ℕ} {G : Type}

theorem scanLimit_mem (N : ℕ) (name last_step : String) (t : Fin (n + 1)) : 0 ≤ scanLimit N name last_step t ∧ scanLimit N name last_step t ≤ 1 := by
  have h : (N : ℝ) / (N + 1) ≤ 1 := div_le_one_of_le₀ (by linarith) (by positivity)
  have h1 : ∀ P : Prop, [Decidable P] → 0 ≤ (if P then (1 : ℝ) else N / (N + 1)) ∧ (if P then (1 : ℝ) else N / (N + 1)) ≤ 1 := fun P _ => by
    split_ifs
    · norm_num
    · exact ⟨by positivity, h⟩
  unfold scanLimit
  have a := h1 (last_step = "forced")
  have b := h1 (name = "killing")
  exact ⟨mul_nonneg a.1 (pow_nonneg b.1 _), mul_le_one₀ a.2 (pow_nonneg b.1 _) (pow_le_one₀ b.1 b.2)⟩

theorem rate_eq {a r : ℝ} (ha : 0 ≤ a) (hr : 0 ≤ r) (k N : ℕ) : ENNReal.ofReal a * (ENNReal.ofReal r ^ k * N) = ENNReal.ofReal (a * N * r ^ k) := by
  rw [← ENNReal.ofReal_pow hr, ← ENNReal.ofReal_natCast, ← ENNReal.ofReal_mul (by positivity), ← ENNReal.ofReal_mul ha]
  congr 1
  ring

/-- Limits for the four combinations of options, from the generic one. -/
theorem scan_all {f : Resampling Ex N → AncestorMove Ex N → (Fin (n + 1) → ℝ) → ℝ≥0∞} {t : Fin (n + 1)}
    (h : ∀ (R : Resampling Ex N) (mv : AncestorMove Ex N) (lo hi clo chi : ℝ → ℝ≥0∞) (r a : ℝ≥0∞), FlatRes R lo hi → FlatMove mv clo chi →
      Measurable lo → Measurable hi → Measurable clo → Measurable chi → r ≠ ∞ → a ≠ ∞ →
      Tendsto lo (𝓝 0) (𝓝 r) → Tendsto hi (𝓝 0) (𝓝 r) → Tendsto clo (𝓝 0) (𝓝 a) → Tendsto chi (𝓝 0) (𝓝 a) →
      a * (r ^ (n - t.1) * N) ≤ 1 → Tendsto (f R mv) (smallSteps n) (𝓝 (a * (r ^ (n - t.1) * N))))
    {name last_step : String} {R : Resampling Ex N} {mv : AncestorMove Ex N} (hR : sel_resampling name = .ok R) (hmv : sel_last_step last_step = .ok mv)
    (hN : 1 ≤ N) : Tendsto (f R mv) (smallSteps n) (𝓝 (ENNReal.ofReal (scanLimit N name last_step t))) := by
  have hN0 : (0 : ℝ) < N := by exact_mod_cast hN
  have hcase : ∀ (lo hi clo chi : ℝ → ℝ≥0∞) (r a : ℝ), 0 ≤ r → 0 ≤ a → FlatRes R lo hi → FlatMove mv clo chi →
      Measurable lo → Measurable hi → Measurable clo → Measurable chi →
      Tendsto lo (𝓝 0) (𝓝 (ENNReal.ofReal r)) → Tendsto hi (𝓝 0) (𝓝 (ENNReal.ofReal r)) → Tendsto clo (𝓝 0) (𝓝 (ENNReal.ofReal a)) →
      Tendsto chi (𝓝 0) (𝓝 (ENNReal.ofReal a)) → a * N * r ^ (n - t.1) = scanLimit N name last_step t →
      Tendsto (f R mv) (smallSteps n) (𝓝 (ENNReal.ofReal (scanLimit N name last_step t))) :=
    fun lo hi clo chi r a hr ha h1 h2 m1 m2 m3 m4 l1 l2 l3 l4 e => by
      have := h R mv lo hi clo chi (ENNReal.ofReal r) (ENNReal.ofReal a) h1 h2 m1 m2 m3 m4 ENNReal.ofReal_ne_top ENNReal.ofReal_ne_top l1 l2 l3 l4
      rw [rate_eq ha hr, e] at this
      exact this (ENNReal.ofReal_le_one.mpr (scanLimit_mem N name last_step t).2)
  have mM1 : Measurable (multLo N) := by unfold multLo; fun_prop
  have mM2 : Measurable (multHi N) := by unfold multHi; fun_prop
  have mK1 : Measurable (killLo N) := by unfold killLo; fun_prop
  have mK2 : Measurable killHi := by unfold killHi; fun_prop
  have mB1 : Measurable (barkerLo N) := by unfold barkerLo; fun_prop
  have mB2 : Measurable (barkerHi N) := by unfold barkerHi; fun_prop
  have mF1 : Measurable fun S => ENNReal.ofReal (forceFl N S) := (measurable_forceFl N).ennreal_ofReal
  have mF2 : Measurable (forceHi N) := ((measurable_const.mul (measurable_forceFl N)).const_sub 1).ennreal_ofReal
  have lF1 : Tendsto (fun S => ENNReal.ofReal (forceFl N S)) (𝓝 0) (𝓝 (ENNReal.ofReal (1 / N))) := (ENNReal.continuous_ofReal.tendsto _).comp (forceFl_lim N)
  have hr : (0 : ℝ) ≤ N / (N + 1) := by positivity
  have hb : (0 : ℝ) ≤ 1 / (N + 1) := by positivity
  have hf : (0 : ℝ) ≤ 1 / N := by positivity
  unfold sel_resampling at hR
  unfold sel_last_step at hmv
  split_ifs at hR with h1 h2
  · obtain rfl := Except.ok.inj hR
    split_ifs at hmv with h3 h4
    · obtain rfl := Except.ok.inj hmv
      exact hcase _ _ _ _ 1 (1 / N) zero_le_one hf (killing_flat goodResampling.1) (force_flatMove hN) mK1 mK2 mF1 mF2 (killLo_lim N) killHi_lim lF1 (forceHi_lim hN)
        (by rw [scanLimit, if_pos h1, if_pos h3, one_div_mul_cancel hN0.ne'])
    · obtain rfl := Except.ok.inj hmv
      exact hcase _ _ _ _ 1 (1 / (N + 1)) zero_le_one hb (killing_flat goodResampling.1) barker_flatMove mK1 mK2 mB1 mB2 (killLo_lim N) killHi_lim
        (barkerLo_lim N) (barkerHi_lim N) (by rw [scanLimit, if_pos h1, if_neg h3, one_div_mul_eq_div])
  · obtain rfl := Except.ok.inj hR
    split_ifs at hmv with h3 h4
    · obtain rfl := Except.ok.inj hmv
      exact hcase _ _ _ _ _ (1 / N) hr hf (multinomial_flat goodResampling.2) (force_flatMove hN) mM1 mM2 mF1 mF2 (multLo_lim N) (multHi_lim N) lF1 (forceHi_lim hN)
        (by rw [scanLimit, if_neg h1, if_pos h3, one_div_mul_cancel hN0.ne'])
    · obtain rfl := Except.ok.inj hmv
      exact hcase _ _ _ _ _ (1 / (N + 1)) hr hb (multinomial_flat goodResampling.2) barker_flatMove mM1 mM2 mB1 mB2 (multLo_lim N) (multHi_lim N)
        (barkerLo_lim N) (barkerHi_lim N) (by rw [scanLimit, if_neg h1, if_neg h3, one_div_mul_eq_div])

section
variable {name last_step : String} {resampling : Resampling Ex N} {mv : AncestorMove Ex N} (hR : sel_resampling name = .ok resampling)
  (hmv : sel_last_step last_step = .ok mv) (hN : 1 ≤ N) (key : Key)
  (xstar : Fin (n + 1) → Vec d) (bstar : Fin (n + 1) → Fin (N + 1)) (Gp : Fin n → G)
  {Γ0 : Vec d → ℝ} {Γ : Vec d → Vec d → G → ℝ} (h0 : Continuous Γ0) (hΓ : ∀ y, Continuous fun p : Vec d × Vec d => Γ p.1 p.2 y) (t : Fin (n + 1))
include hR hmv hN h0 hΓ

/-- **C107** (`rw_csmc.py`): without backward sampling and with continuous potentials, as the step sizes vanish the probability that the step moves at time
`t` tends to `N / (N + 1)` (to one with a forced last step) times, with multinomial resampling, `(N / (N + 1)) ^ (n - t)`. -/
theorem C107_rw : Tendsto (fun δ => moveProb (rw_kernel (fun _ => true) key xstar bstar Γ0 Γ Gp δ resampling mv false) t (bstar t)) (smallSteps n)
    (𝓝 (ENNReal.ofReal (scanLimit N name last_step t))) := by
  refine scan_all (f := fun R mv δ => moveProb (rw_kernel (fun _ => true) key xstar bstar Γ0 Γ Gp δ R mv false) t (bstar t))
    (fun R mv lo hi clo chi r a hR hm m1 m2 m3 m4 hr ha l1 l2 l3 l4 hL => ?_) hR hmv hN
  simp only [rw_avg_scan]
  exact (rw_auxFlat (l := smallSteps n) (δ := fun δ => δ) hR.good key xstar bstar Gp smallSteps_tendsto h0 hΓ).scan_limit _ hR hm
    (fun _ _ => rw_hom hR.good Γ) (fun _ _ => rw_form Γ key _ _ _) m1 m2 m3 m4 hr ha l1 l2 l3 l4 _ t hL

variable {g0 : Vec d → Vec d} {g : Vec d → Vec d → G → Vec d} (hg0 : Continuous g0) (hg : ∀ y, Continuous fun p : Vec d × Vec d => g p.1 p.2 y)
include hg0 hg

/-- **C107** (`al_csmc_f.py`). -/
theorem C107_al : Tendsto (fun δ => moveProb (al_kernel key xstar bstar Γ0 g0 Γ g Gp δ δ resampling mv false) t (bstar t)) (smallSteps n)
    (𝓝 (ENNReal.ofReal (scanLimit N name last_step t))) := by
  refine scan_all (f := fun R mv δ => moveProb (al_kernel key xstar bstar Γ0 g0 Γ g Gp δ δ R mv false) t (bstar t))
    (fun R mv lo hi clo chi r a hR hm m1 m2 m3 m4 hr ha l1 l2 l3 l4 hL => ?_) hR hmv hN
  simp only [al_avg_scan]
  exact (al_auxFlat (l := smallSteps n) (δ := fun δ => δ) hR.good key xstar bstar Gp smallSteps_tendsto h0 hΓ hg0 hg smallSteps_pos).scan_limit _ hR hm
    (fun _ _ => al_hom hR.good Γ g) (fun _ _ => al_form Γ g key _ _ _) m1 m2 m3 m4 hr ha l1 l2 l3 l4 _ t hL

/-- **C107** (`l_csmc_f.py`). -/
theorem C107_l : Tendsto (fun δ => moveProb (l_kernel key xstar bstar Γ0 g0 Γ g Gp δ δ resampling mv false) t (bstar t)) (smallSteps n)
    (𝓝 (ENNReal.ofReal (scanLimit N name last_step t))) := by
  refine scan_all (f := fun R mv δ => moveProb (l_kernel key xstar bstar Γ0 g0 Γ g Gp δ δ R mv false) t (bstar t))
    (fun R mv lo hi clo chi r a hR hm m1 m2 m3 m4 hr ha l1 l2 l3 l4 hL => ?_) hR hmv hN
  simp only [l_avg_scan]
  exact (l_auxFlat (l := smallSteps n) (δ := fun δ => δ) hR.good key xstar bstar Gp smallSteps_tendsto h0 hΓ hg0 hg smallSteps_pos).scan_limit _ hR hm
    (fun _ _ => l_hom hR.good Γ g) (fun _ _ => l_form Γ g key _ _ _) m1 m2 m3 m4 hr ha l1 l2 l3 l4 _ t hL

end

/-! ## The experiments -/

section exps
variable (ys : Traj (n + 1) d) {name last_step : String} {resampling : Resampling Ex N} {mv : AncestorMove Ex N} (hR : sel_resampling name = .ok resampling)
  (hmv : sel_last_step last_step = .ok mv) (hN : 1 ≤ N) (key : Key) (x : Fin (n + 1) → Vec d) (b : Fin (n + 1) → Fin (N + 1)) (t : Fin (n + 1))
include hR hmv hN

/-- **C107** (linear Gaussian experiment): `RW_CSMC` and `MALA_CSMC` in styles `filtering` and `marginal`, for every value of `sigma` and all data. -/
theorem C107_lgssm (sigma : ℝ) :
    Tendsto (fun δ => moveProb (lg_rw_csmc (fun _ => true) ys sigma resampling mv false key x b δ) t (b t)) (smallSteps n)
      (𝓝 (ENNReal.ofReal (scanLimit N name last_step t))) ∧
    Tendsto (fun δ => moveProb (lg_mala_csmc_filtering ys sigma resampling mv false key x b δ) t (b t)) (smallSteps n)
      (𝓝 (ENNReal.ofReal (scanLimit N name last_step t))) ∧
    Tendsto (fun δ => moveProb (lg_mala_csmc_marginal ys sigma resampling mv false key x b δ) t (b t)) (smallSteps n)
      (𝓝 (ENNReal.ofReal (scanLimit N name last_step t))) := by
  have h0 := contDiff_lgGamma_0 ys sigma
  have h := contDiff_lgGamma_t (d := d) sigma
  have hg := fun y => continuous_jaxGrad_snd (f := fun x' x => lgGamma_t sigma x' x y) (h y)
  exact ⟨C107_rw hR hmv hN key x b (tailA ys) h0.continuous (fun y => (h y).continuous) t,
    C107_al hR hmv hN key x b (tailA ys) h0.continuous (fun y => (h y).continuous) t (continuous_jaxGrad h0) hg,
    C107_l hR hmv hN key x b (tailA ys) h0.continuous (fun y => (h y).continuous) t (continuous_jaxGrad h0) hg⟩

/-- **C107** (stochastic volatility): the same kernels, for all parameters of the dynamics. -/
theorem C107_sv_step (D : SvDyn d) :
    Tendsto (fun δ => moveProb (sv_rw_csmc (fun _ => true) ys D resampling mv false key x b δ) t (b t)) (smallSteps n)
      (𝓝 (ENNReal.ofReal (scanLimit N name last_step t))) ∧
    Tendsto (fun δ => moveProb (sv_mala_csmc_filtering ys D resampling mv false key x b δ) t (b t)) (smallSteps n)
      (𝓝 (ENNReal.ofReal (scanLimit N name last_step t))) ∧
    Tendsto (fun δ => moveProb (sv_mala_csmc_marginal ys D resampling mv false key x b δ) t (b t)) (smallSteps n)
      (𝓝 (ENNReal.ofReal (scanLimit N name last_step t))) := by
  have h0 := contDiff_svGamma_0 ys D
  have h := contDiff_svGamma_t (d := d) D
  have hg := fun y => continuous_jaxGrad_snd (f := fun x' x => svGamma_t D x' x y) (h y)
  exact ⟨C107_rw hR hmv hN key x b (tailA ys) h0.continuous (fun y => (h y).continuous) t,
    C107_al hR hmv hN key x b (tailA ys) h0.continuous (fun y => (h y).continuous) t (continuous_jaxGrad h0) hg,
    C107_l hR hmv hN key x b (tailA ys) h0.continuous (fun y => (h y).continuous) t (continuous_jaxGrad h0) hg⟩

end exps

/-! ## Acceptance rates of the runs -/

theorem sel_good {name : String} {resampling : Resampling Ex N} (hR : sel_resampling name = .ok resampling) : GoodResampling resampling := by
  unfold sel_resampling at hR
  split_ifs at hR
  · obtain rfl := Except.ok.inj hR
    exact goodResampling.1
  · obtain rfl := Except.ok.inj hR
    exact goodResampling.2

section runs
variable {tau : ℤ} (svd : Mat d d → SvdOut d) {k : SvType} {style : String}
    (hk : k = .RW_CSMC ∨ k = .MALA_CSMC ∧ (style = "filtering" ∨ style = "marginal")) (stat : TargetStat)
    {name last_step : String} {resampling : Resampling Ex N} {mv : AncestorMove Ex N} (hR : sel_resampling name = .ok resampling)
    (hmv : sel_last_step last_step = .ok mv) (hN : 1 ≤ N) {make : Traj (n + 1) d → SvKernel Ex (n + 1) d}
    (hmake : k.kernel_maker svd (svDynArgs tau d) style stat resampling mv false = .ok make) (ys : Traj (n + 1) d)
    (π : Measure (Traj (n + 1) d)) [IsProbabilityMeasure π] (t : Fin (n + 1))
include hk hR hmv hN hmake

/-- **C107** (`experiments/stochastic_volatility`): the acceptance probability at time `t` of the kernels the script makes with `--no-backward` for `RW_CSMC`,
and for `MALA_CSMC` in styles `filtering` and `marginal`, started from any law. -/
theorem C107_sv : Tendsto (fun δ => acceptProb (make ys) (.perStep δ) π t) (smallSteps n) (𝓝 (scanLimit N name last_step t)) := by
  have hmk : (∀ key, MoveKer (moveIndex mv key)) ∧ ∀ key, MoveMass (moveIndex mv key) := by
    unfold sel_last_step at hmv
    split_ifs at hmv
    · obtain rfl := Except.ok.inj hmv
      exact ⟨fun key => force_moveKer key, fun key w hw k => force_mass key hw k⟩
    · obtain rfl := Except.ok.inj hmv
      exact ⟨fun key => (barker_moveInvariant key).ker, fun key w hw k => barker_mass key hw k⟩
  have hG := sel_good hR
  have hacc : ∀ (K : Key → (Fin (n + 1) → Vec d) → (Fin (n + 1) → Fin (N + 1)) → (Fin (n + 1) → ℝ) → Ex (KOut (Vec d) N n)) (δ : Fin (n + 1) → ℝ),
      acceptProb (csmcSvPlain fun key x b δ => outOf (K key x b δ)) (.perStep δ) π t = (∫⁻ x, moveProb (K (splitKey [] 1 0) x (fun _ => 0) δ) t 0 ∂π).toReal :=
    fun K δ => by
      unfold acceptProb moveProb
      refine congrArg ENNReal.toReal (lintegral_congr fun x => ?_)
      have e : ∀ i : Fin (N + 1), ENNReal.ofReal (boolF (decide (i ≠ 0))) = if i ≠ 0 then 1 else 0 := fun i => by by_cases h : i = 0 <;> simp [boolF, h]
      simp only [← e]
      rfl
  have h0 := contDiff_svGamma_0 ys (svDynArgs tau d)
  have h := contDiff_svGamma_t (d := d) (svDynArgs tau d)
  have hl := fun x => C107_sv_step ys hR hmv hN (splitKey [] 1 0) x (fun _ => 0) t (svDynArgs tau d)
  have hrw := move_average (K := fun x b δ => sv_rw_csmc (fun _ => true) ys (svDynArgs tau d) resampling mv false (splitKey [] 1 0) x b δ)
    (fun δ hδ => rw_markov _ _ h0.continuous.measurable (fun y => (h y).continuous.measurable) hδ hG hmk.1 hmk.2 false) (fun x => (hl x).1) π
  have hal := move_average (K := fun x b δ => sv_mala_csmc_filtering ys (svDynArgs tau d) resampling mv false (splitKey [] 1 0) x b δ)
    (fun δ hδ => al_markov _ _ δ h0.continuous.measurable (fun y => (h y).continuous.measurable) (continuous_jaxGrad h0).measurable
      (fun y => (continuous_jaxGrad_snd (f := fun x' x => svGamma_t (svDynArgs tau d) x' x y) (h y)).measurable) hδ hG hmk.1 hmk.2 false) (fun x => (hl x).2.1) π
  have hml := move_average (K := fun x b δ => sv_mala_csmc_marginal ys (svDynArgs tau d) resampling mv false (splitKey [] 1 0) x b δ)
    (fun δ hδ => l_markov _ _ δ h0.continuous.measurable (fun y => (h y).continuous.measurable) (continuous_jaxGrad h0).measurable
      (fun y => (continuous_jaxGrad_snd (f := fun x' x => svGamma_t (svDynArgs tau d) x' x y) (h y)).measurable) hδ hG hmk.1 hmk.2 false) (fun x => (hl x).2.2) π
  have hreal : ∀ {f : (Fin (n + 1) → ℝ) → ℝ≥0∞}, Tendsto f (smallSteps n) (𝓝 (ENNReal.ofReal (scanLimit N name last_step t))) →
      Tendsto (fun δ => (f δ).toReal) (smallSteps n) (𝓝 (scanLimit N name last_step t)) := fun hf => by
    have := (ENNReal.tendsto_toReal ENNReal.ofReal_ne_top).comp hf
    rwa [ENNReal.toReal_ofReal (scanLimit_mem N name last_step t).1] at this
  rcases hk with rfl | ⟨rfl, rfl | rfl⟩
  · obtain rfl := Except.ok.inj hmake
    simp only [hacc]
    exact hreal hrw
  · obtain rfl := Except.ok.inj hmake
    simp only [hacc]
    exact hreal hal
  · obtain rfl := Except.ok.inj hmake
    simp only [hacc]
    exact hreal hml

theorem scan_small {p : ℝ → Prop} (hp : ∀ᶠ x in 𝓝 (scanLimit N name last_step t), p x) : ∃ δ₀ > 0, ∀ δ : Fin (n + 1) → ℝ, (∀ t, 0 < δ t ∧ δ t < δ₀) →
    p (acceptProb (make ys) (.perStep δ) π t) := by
  have h2 := (C107_sv svd hk stat hR hmv hN hmake ys π t).eventually hp
  unfold smallSteps at h2
  rw [eventually_nhdsWithin_iff, Metric.eventually_nhds_iff] at h2
  obtain ⟨ε, he, h3⟩ := h2
  refine ⟨ε, he, fun δ hδ => h3 ?_ fun t => (hδ t).1⟩
  rw [dist_pi_lt_iff he]
  intro t
  rw [Pi.zero_apply, Real.dist_eq, sub_zero, abs_of_pos (hδ t).1]
  exact (hδ t).2

/-- **C107** (target rates, killing): every target below `N / (N + 1)` is exceeded at time `t` once all step sizes are small, as with backward sampling. -/
theorem C107_target (hname : name = "killing") {target : ℝ} (hT : target < N / (N + 1)) : ∃ δ₀ > 0, ∀ δ : Fin (n + 1) → ℝ, (∀ t, 0 < δ t ∧ δ t < δ₀) →
    target < acceptProb (make ys) (.perStep δ) π t := by
  refine scan_small svd hk stat hR hmv hN hmake ys π t (lt_mem_nhds ?_)
  rw [scanLimit, if_pos hname, one_pow, mul_one]
  split_ifs
  · refine hT.trans ?_
    rw [div_lt_one (by positivity)]
    linarith
  · exact hT

/-- **C107** (target rates, multinomial resampling): at time `t`, small step sizes do not reach a target above `(N / (N + 1)) ^ (n - t)`. -/
theorem C107_missed (hname : name = "multinomial") {target : ℝ} (hT : ((N : ℝ) / (N + 1)) ^ (n - t.1) < target) :
    ∃ δ₀ > 0, ∀ δ : Fin (n + 1) → ℝ, (∀ t, 0 < δ t ∧ δ t < δ₀) → acceptProb (make ys) (.perStep δ) π t < target := by
  refine scan_small svd hk stat hR hmv hN hmake ys π t (gt_mem_nhds ?_)
  have hn : name ≠ "killing" := by rw [hname]; decide
  rw [scanLimit, if_neg hn]
  refine lt_of_le_of_lt (mul_le_of_le_one_left (by positivity) ?_) hT
  split_ifs
  · exact le_rfl
  · exact div_le_one_of_le₀ (by linarith) (by positivity)

end runs

/-- Runs of `stochastic_volatility` with 31 + 1 particles and `--no-backward`: at the first of 250 times, a rate of three quarters is exceeded by small steps with
killing, and with multinomial resampling small steps have rates below one percent. -/
example (svd : Mat 30 30 → SvdOut 30) (ys : Traj 250 30) :
    (∃ δ₀ > 0, ∀ δ : Fin 250 → ℝ, (∀ t, 0 < δ t ∧ δ t < δ₀) → 0.75 < acceptProb (csmcSvPlain fun key x b δ => outOf (sv_rw_csmc (m := Ex) (N := 31)
      (fun _ => true) ys (svDynArgs 10 30) (fun key w i j c => killing key w i j c) (fun key w k => force_move key w k) false key x b δ)) (.perStep δ)
      (svPosterior .RW_CSMC 10 ys) (0 : Fin 250)) ∧
    ∃ δ₀ > 0, ∀ δ : Fin 250 → ℝ, (∀ t, 0 < δ t ∧ δ t < δ₀) → acceptProb (csmcSvPlain fun key x b δ => outOf (sv_mala_csmc_marginal (m := Ex) (N := 31)
      ys (svDynArgs 10 30) (fun key w i j c => multinomial key w i j c) (fun key w k => force_move key w k) false key x b δ)) (.perStep δ)
      (svPosterior .MALA_CSMC 10 ys) (0 : Fin 250) < 0.01 := by
  have := C67_proper (n := 249) (d := 30) .RW_CSMC (tau := 10) (by norm_num) ys
  have := C67_proper (n := 249) (d := 30) .MALA_CSMC (tau := 10) (by norm_num) ys
  exact ⟨C107_target svd (.inl rfl) (.name "mean") (name := "killing") rfl (last_step := "forced") rfl (by norm_num) (style := "") rfl ys _ _ rfl (by norm_num),
    C107_missed svd (.inr ⟨rfl, .inr rfl⟩) (.name "mean") (name := "multinomial") rfl (last_step := "forced") rfl (by norm_num) rfl ys _ _ rfl (by norm_num)⟩

/-- Two times, one proposal: without backward sampling small steps always move at the last time; at the first time always with killing, half of the time with
multinomial resampling. -/
example (key : Key) :
    Tendsto (fun δ => moveProb (lg_mala_csmc_filtering (n := 1) (d := 1) (N := 1) (fun _ _ => 2) 1 (fun key w i j c => killing key w i j c)
      (fun key w k => force_move key w k) false key (fun _ _ => 0) (fun _ => 1) δ) 0 1) (smallSteps 1) (𝓝 1) ∧
    Tendsto (fun δ => moveProb (lg_mala_csmc_filtering (n := 1) (d := 1) (N := 1) (fun _ _ => 2) 1 (fun key w i j c => multinomial key w i j c)
      (fun key w k => force_move key w k) false key (fun _ _ => 0) (fun _ => 1) δ) 0 1) (smallSteps 1) (𝓝 (ENNReal.ofReal (1 / 2))) := by
  have h0 := (C107_lgssm (n := 1) (d := 1) (N := 1) (fun _ _ => 2) (name := "killing") rfl (last_step := "forced") rfl le_rfl key (fun _ _ => 0) (fun _ => 1) 0 1).2.1
  have h1 := (C107_lgssm (n := 1) (d := 1) (N := 1) (fun _ _ => 2) (name := "multinomial") rfl (last_step := "forced") rfl le_rfl key (fun _ _ => 0) (fun _ => 1) 0 1).2.1
  simp only [scanLimit] at h0 h1
  norm_num at h0 h1 ⊢
  exact ⟨h0, h1⟩

end Verif.Props
