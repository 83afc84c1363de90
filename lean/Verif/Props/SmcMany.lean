import Verif.Lemmas.SmcMany
import Verif.Props.Smc
import Verif.Props.ManyParticles

/-!
# C103: particle filters with many particles

`csmc.kernel` with `conditional=False` returns a trajectory whose law is within `O(1/N)` of the target, and the evidence estimate of its
particles has a relative variance of order `1/N`, with explicit constants.
-/

open scoped ENNReal
open MeasureTheory ProbabilityTheory Finset

namespace Verif.Props
open Verif Verif.Model Verif.Spec

variable {X P G : Type} [MeasurableSpace X] {N n d : ℕ} {resampling : String} {R : Resampling Ex N}

/-- **C103** (resampling): with either scheme, children of a particle filter share parents no more often than independent draws from the
weights. -/
theorem C103_resampling (hR : sel_resampling resampling = .ok R) (key : Key) : PairsFree fun w i j => R key w i j false := by
  unfold sel_resampling at hR
  split_ifs at hR <;> cases hR
  · exact killing_pairs_free key
  · exact multinomial_pairs_free key

section general
variable {lam : Measure X} [SigmaFinite lam] {M : FK Ex X P G N} {Mparams : Fin n → P} {Gparams : Fin n → G}
  {mv : AncestorMove Ex N} {backward : Bool} {B : Fin (n + 1) → ℝ} {Z : ℝ≥0∞}

theorem filterErr_eq (N n : ℕ) (B : Fin (n + 1) → ℝ) (Z : ℝ≥0∞) :
    filterErr N n B Z = (n + 1) * ((N : ℝ≥0∞) + 1)⁻¹ * (∏ t, ENNReal.ofReal (Real.exp (B t))) / Z := by
  rw [filterErr, div_eq_mul_inv, div_eq_mul_inv, div_eq_mul_inv]
  ring

theorem one_le_filterErr (hZ0 : Z ≠ 0) (hZ : Z ≠ ∞) (δ : ℝ≥0∞) (hδ : δ ≠ ∞) : 1 - (Z + δ)⁻¹ * Z ≤ δ / Z := by
  rw [tsub_le_iff_right]
  have h1 : (Z + δ) * (Z + δ)⁻¹ = 1 := ENNReal.mul_inv_cancel (fun h => hZ0 (add_eq_zero.mp h).1) (ENNReal.add_ne_top.mpr ⟨hZ, hδ⟩)
  calc 1 = δ * (Z + δ)⁻¹ + (Z + δ)⁻¹ * Z := by rw [← h1]; ring
    _ ≤ δ * Z⁻¹ + (Z + δ)⁻¹ * Z := by
      gcongr
      exact le_self_add
    _ = _ := by rw [div_eq_mul_inv]

/-- **C103** (trajectory): the law of the returned trajectory is within `filterErr` of the target in total variation. -/
theorem C103_trajectory (key : Key) (x : Fin (n + 1) → X) (b : Fin (n + 1) → Fin (N + 1)) (hM : ProperFK lam M)
    (hB : BoundedFK lam M Mparams Gparams B) (hR : sel_resampling resampling = .ok R) (hmv : MoveFree backward mv)
    (hZe : ∫⁻ x, ENNReal.ofReal (Real.exp (pathLogDensity M.Gamma0 (fun t y x => M.Gammat y x (Gparams t)) x)) ∂(Measure.pi fun _ => lam) = Z)
    (hZ0 : Z ≠ 0) (hZ : Z ≠ ∞) :
    TVLe (filterErr N n B Z) (fun f => (csmc_kernel key x b M Mparams Gparams R mv backward false : Ex _) fun r => f r.xs)
      fun f => ∫⁻ y, f y ∂lawOf (Measure.pi fun _ => lam) (pathLogDensity M.Gamma0 (fun t y x => M.Gammat y x (Gparams t))) := by
  obtain ⟨m0, c0, hl0, hs0, hb0⟩ := hB.init
  choose m c hl hs hb using hB.step
  have hm : ProposalLogs lam M Mparams m0 m := ⟨hs0, ⟨c0, hl0⟩, hs, fun t => ⟨c t, hl t⟩⟩
  have hS := freeDSys_free (Gparams := Gparams) key hM (sel_unbiased hR) hm hl0 hl
  have hT := freeDSys_two (Gparams := Gparams) key hM (C103_resampling hR) hm hl0 hl hb0 hb
  have hd : (freeDSys lam key M Mparams Gparams R).Density lam (fun t y x => M.Gammat y x (Gparams t)) :=
    ⟨fun t => hM.Gammat_meas _, fun t y f hf => rfl⟩
  have hp : ∀ f, Measurable f → (freeDSys lam key M Mparams Gparams R).path f = ∫⁻ x, ENNReal.ofReal (Real.exp
      (pathLogDensity M.Gamma0 (fun t y x => M.Gammat y x (Gparams t)) x)) * f x ∂(Measure.pi fun _ => lam) := fun f hf =>
    hS.path_eq hM.Gamma0_meas (fun f hf => rfl) hd f hf
  have hp1 : (freeDSys lam key M Mparams Gparams R).path (fun _ => 1) = Z := by
    rw [hp _ measurable_const, ← hZe]
    simp only [mul_one]
  have hlm : Measurable (pathLogDensity M.Gamma0 (fun t y x => M.Gammat y x (Gparams t))) :=
    measurable_pathLogDensity hM.Gamma0_meas fun t => hM.Gammat_meas _
  obtain ⟨ν, hν, -, -, hlaw⟩ := C95_law (mv := mv) (backward := backward) (Mparams := Mparams) (Gparams := Gparams) key x b hM (sel_unbiased hR) hmv
  set δ := (n + 1) * ((N : ℝ≥0∞) + 1)⁻¹ * ∏ t, ENNReal.ofReal (Real.exp (B t)) with hδd
  have hδ : δ ≠ ∞ := ENNReal.mul_ne_top (by finiteness) (ENNReal.prod_ne_top fun t _ => ENNReal.ofReal_ne_top)
  have hge : ∀ f : (Fin (n + 1) → X) → ℝ≥0∞, Measurable f → (Z + δ)⁻¹ * Z *
      ∫⁻ y, f y ∂lawOf (Measure.pi fun _ => lam) (pathLogDensity M.Gamma0 (fun t y x => M.Gammat y x (Gparams t))) ≤ ∫⁻ y, f y ∂ν := fun f hf => by
    rw [← hlaw f hf, lintegral_lawOf hlm hf, hZe]
    have h1 := hS.law_ge hT hd backward (by rwa [hp1]) (by rwa [hp1]) b x hf
    rw [hp1, hp f hf] at h1
    have hK : (csmc_kernel key x b M Mparams Gparams R mv backward false : Ex _) (fun r => f r.xs) =
        (freeDSys lam key M Mparams Gparams R).fwd b x (smcMean (freeDSys lam key M Mparams Gparams R) (fun t y x => M.Gammat y x (Gparams t)) backward f) :=
      (congrFun (C95_same key x b M Mparams Gparams R mv backward) f).trans (smcRun_eq key x b M Mparams Gparams R hmv _ _ fun _ _ => f)
    rw [hK]
    refine le_trans (le_of_eq ?_) h1
    rw [← mul_assoc, mul_assoc (Z + δ)⁻¹, ENNReal.mul_inv_cancel hZ0 hZ, mul_one]
  have : IsProbabilityMeasure (lawOf (Measure.pi fun _ => lam) (pathLogDensity M.Gamma0 (fun t y x => M.Gammat y x (Gparams t)))) :=
    lawOf_isProb (by rw [hZe]; exact ⟨hZ0, hZ⟩) hlm
  have hker : IsKer fun _ : Unit => (fun f => ∫⁻ y, f y ∂ν : Ex (Fin (n + 1) → X)) := ⟨Kernel.const _ ν, inferInstance, fun _ f _ => by simp⟩
  have h2 := tvLe_of_ge hker () (by simp) (p := fun y => y) measurable_id hge
  intro f hf hf1
  have h3 := h2 f hf hf1
  simp only [← hlaw f hf] at h3
  have h4 : 1 - (Z + δ)⁻¹ * Z ≤ filterErr N n B Z := by
    rw [filterErr_eq]
    exact one_le_filterErr hZ0 hZ δ hδ
  exact ⟨h3.1.trans (add_le_add le_rfl h4), h3.2.trans (add_le_add le_rfl h4)⟩

omit [SigmaFinite lam] in
/-- Averages over the particles and ancestors. -/
theorem smc_forward_eq (key : Key) (x : Fin (n + 1) → X) (b : Fin (n + 1) → Fin (N + 1))
    (g : (Fin (n + 1) → Fin (N + 1) → X) → (Fin n → Fin (N + 1) → Fin (N + 1)) → ℝ≥0∞) :
    (forward_pass key x b M Mparams Gparams R false : Ex _) (fun F => g F.xs F.As) =
      (freeDSys lam key M Mparams Gparams R).fwd b x fun h => g h.2 h.1 :=
  congrFun (forward_pass_free (β := FwdOut X N n) key M Mparams Gparams R
    (fun f => ∫⁻ x, ENNReal.ofReal (Real.exp (M.Gamma0 x)) * f x ∂lam)
    (fun t y f => ∫⁻ x, ENNReal.ofReal (Real.exp (M.Gammat y x (Gparams t))) * f x ∂lam) x b fun F => pure F) fun F => g F.xs F.As

/-- **C103** (second moment): the expected square of the evidence estimate is at most `1 + filterErr` times the squared evidence. -/
theorem C103_second (key : Key) (x : Fin (n + 1) → X) (b : Fin (n + 1) → Fin (N + 1)) (hM : ProperFK lam M) {m0 : X → ℝ} {m : Fin n → X → X → ℝ}
    (hm : ProposalLogs lam M Mparams m0 m) (hb0 : ∀ x, M.Gamma0 x - m0 x ≤ B 0) (hb : ∀ t y x, M.Gammat y x (Gparams t) - m t y x ≤ B t.succ)
    (hR : sel_resampling resampling = .ok R)
    (hZe : ∫⁻ x, ENNReal.ofReal (Real.exp (pathLogDensity M.Gamma0 (fun t y x => M.Gammat y x (Gparams t)) x)) ∂(Measure.pi fun _ => lam) = Z)
    (hZ0 : Z ≠ 0) (hZ : Z ≠ ∞) :
    (forward_pass key x b M Mparams Gparams R false : Ex _)
      (fun F => ENNReal.ofReal (evidence M.Gamma0 (fun t y x => M.Gammat y x (Gparams t)) m0 m F.xs F.As) ^ 2) ≤
      Z ^ 2 * (1 + filterErr N n B Z) := by
  obtain ⟨c0, hl0⟩ := hm.init_log
  choose c hl using hm.step_log
  have hS := freeDSys_free (Gparams := Gparams) key hM (sel_unbiased hR) hm hl0 hl
  have hT := freeDSys_two (Gparams := Gparams) key hM (C103_resampling hR) hm hl0 hl hb0 hb
  have hd : (freeDSys lam key M Mparams Gparams R).Density lam (fun t y x => M.Gammat y x (Gparams t)) :=
    ⟨fun t => hM.Gammat_meas _, fun t y f hf => rfl⟩
  have hp1 : (freeDSys lam key M Mparams Gparams R).path (fun _ => 1) = Z := by
    rw [hS.path_eq hM.Gamma0_meas (fun f hf => rfl) hd _ measurable_const, ← hZe]
    simp only [mul_one]
  have h2 := hS.second hT hd false b x (f := fun _ => 1) measurable_const (r := fun _ => 1) measurable_const (C := 1) fun _ => le_rfl
  rw [hp1] at h2
  have e1 : ∀ h : Hist X N n, ∑ k, ENNReal.ofReal ((freeDSys lam key M Mparams Gparams R).wLast h k) = 1 := fun h =>
    sum_ofReal_of_isProb (normalize_isProb _)
  simp only [Sys.pick, Bool.false_eq_true, if_false, mul_one, e1] at h2
  rw [smc_forward_eq (lam := lam) key x b fun xs As => ENNReal.ofReal (evidence M.Gamma0 (fun t y x => M.Gammat y x (Gparams t)) m0 m xs As) ^ 2]
  simp only [← zhat_evidence (lam := lam) (Gparams := Gparams) (resampling := R) key hl0 hl, sq] at h2 ⊢
  refine h2.trans (le_of_eq ?_)
  rw [filterErr_eq, mul_add, mul_add, mul_one, mul_assoc Z Z, ENNReal.mul_div_cancel hZ0 hZ]

/-- **C103** (variance): the expected squared error of the evidence estimate is at most `filterErr` times the squared evidence. -/
theorem C103_variance (key : Key) (x : Fin (n + 1) → X) (b : Fin (n + 1) → Fin (N + 1)) (hM : ProperFK lam M) {m0 : X → ℝ} {m : Fin n → X → X → ℝ}
    (hm : ProposalLogs lam M Mparams m0 m) (hb0 : ∀ x, M.Gamma0 x - m0 x ≤ B 0) (hb : ∀ t y x, M.Gammat y x (Gparams t) - m t y x ≤ B t.succ)
    (hR : sel_resampling resampling = .ok R)
    (hZe : ∫⁻ x, ENNReal.ofReal (Real.exp (pathLogDensity M.Gamma0 (fun t y x => M.Gammat y x (Gparams t)) x)) ∂(Measure.pi fun _ => lam) = Z)
    (hZ0 : Z ≠ 0) (hZ : Z ≠ ∞) :
    (forward_pass key x b M Mparams Gparams R false : Ex _)
      (fun F => ENNReal.ofReal ((evidence M.Gamma0 (fun t y x => M.Gammat y x (Gparams t)) m0 m F.xs F.As - Z.toReal) ^ 2)) ≤
      Z ^ 2 * filterErr N n B Z := by
  have h2 := C103_second (lam := lam) key x b hM hm hb0 hb hR hZe hZ0 hZ
  have h1 := C95_evidence (lam := lam) (Gparams := Gparams) key x b hM hm (sel_unbiased hR)
  rw [hZe] at h1
  have hS := freeDSys_meas (Mparams := Mparams) (Gparams := Gparams) key hM (sel_unbiased hR)
  have hk : IsKer fun _ : Unit => (freeDSys lam key M Mparams Gparams R).fwd b x :=
    hS.fwd_ker.comp (g := fun _ : Unit => ((), b, x)) measurable_const
  have hone : (freeDSys lam key M Mparams Gparams R).fwd b x (fun _ => 1) = 1 :=
    free_fwd_mass (S := freeDSys lam key M Mparams Gparams R) (fun b x => (hm.init _).mass) (fun t Y b x => (hm.step t _ Y).mass)
      (fun t w i j hw => (sel_unbiased hR _).mass w hw i j) b x
  have hev : Measurable fun h : Hist X N n => evidence M.Gamma0 (fun t y x => M.Gammat y x (Gparams t)) m0 m h.2 h.1 := by
    obtain ⟨c0, hc0⟩ := hm.init_log
    choose c hc using hm.step_log
    have := (hS.measurable_zhat c0 c).ennreal_toReal
    rwa [show (fun h => ((freeDSys lam key M Mparams Gparams R).zhat c0 c h).toReal) =
        fun h : Hist X N n => evidence M.Gamma0 (fun t y x => M.Gammat y x (Gparams t)) m0 m h.2 h.1 from
      funext fun h => by
        rw [zhat_evidence (lam := lam) (Gparams := Gparams) (resampling := R) key hc0 hc h, ENNReal.toReal_ofReal (evidence_pos _ _ _ _ _ _).le]] at this
  set E : (Fin (n + 1) → Fin (N + 1) → X) → (Fin n → Fin (N + 1) → Fin (N + 1)) → ℝ :=
    evidence M.Gamma0 (fun t y x => M.Gammat y x (Gparams t)) m0 m with hE
  have hpos : ∀ xs As, 0 < E xs As := fun xs As => evidence_pos _ _ _ _ _ _
  rw [smc_forward_eq (lam := lam) key x b fun xs As => ENNReal.ofReal (E xs As) ^ 2] at h2
  rw [smc_forward_eq (lam := lam) key x b fun xs As => ENNReal.ofReal (E xs As)] at h1
  rw [smc_forward_eq (lam := lam) key x b fun xs As => ENNReal.ofReal ((E xs As - Z.toReal) ^ 2)]
  have m1 : Measurable fun h : Hist X N n => ENNReal.ofReal ((E h.2 h.1 - Z.toReal) ^ 2) := ((hev.sub_const _).pow_const 2).ennreal_ofReal
  have m2 : Measurable fun h : Hist X N n => ENNReal.ofReal (E h.2 h.1) := hev.ennreal_ofReal
  have m3 : Measurable fun h : Hist X N n => ENNReal.ofReal (E h.2 h.1) ^ 2 := m2.pow_const 2
  have ept : ∀ h : Hist X N n, ENNReal.ofReal ((E h.2 h.1 - Z.toReal) ^ 2) + 2 * Z * ENNReal.ofReal (E h.2 h.1) =
      ENNReal.ofReal (E h.2 h.1) ^ 2 + Z ^ 2 := fun h => by
    have hp := (hpos h.2 h.1).le
    have hz : 0 ≤ Z.toReal := ENNReal.toReal_nonneg
    conv_lhs => rw [← ENNReal.ofReal_toReal hZ]
    conv_rhs => rw [← ENNReal.ofReal_toReal hZ]
    rw [← ENNReal.ofReal_pow hp, ← ENNReal.ofReal_pow hz, ← ENNReal.ofReal_add (by positivity) (by positivity),
      show (2 : ℝ≥0∞) = ENNReal.ofReal 2 by simp, ← ENNReal.ofReal_mul (by norm_num), ← ENNReal.ofReal_mul (by positivity),
      ← ENNReal.ofReal_add (by positivity) (by positivity), ENNReal.toReal_ofReal hz]
    congr 1
    ring
  have e1 := hk.add () m1 (m2.const_mul (2 * Z))
  have e2 := hk.const_mul () (2 * Z) m2
  have e3 := hk.add () m3 (g := fun _ => Z ^ 2) measurable_const
  have e4 := hk.const_fun () (Z ^ 2)
  simp only [ept] at e1
  rw [e2, h1] at e1
  rw [e3, e4, hone, mul_one] at e1
  have hfin : 2 * Z * Z ≠ ∞ := by finiteness
  refine (ENNReal.add_le_add_iff_right hfin).mp (e1.symm.le.trans ((add_le_add h2 le_rfl).trans (le_of_eq ?_)))
  ring

/-- **C103** (relative error): the evidence estimate is off by a factor `ε` or more with probability at most `filterErr / ε ^ 2`. -/
theorem C103_relative (key : Key) (x : Fin (n + 1) → X) (b : Fin (n + 1) → Fin (N + 1)) (hM : ProperFK lam M) {m0 : X → ℝ} {m : Fin n → X → X → ℝ}
    (hm : ProposalLogs lam M Mparams m0 m) (hb0 : ∀ x, M.Gamma0 x - m0 x ≤ B 0) (hb : ∀ t y x, M.Gammat y x (Gparams t) - m t y x ≤ B t.succ)
    (hR : sel_resampling resampling = .ok R)
    (hZe : ∫⁻ x, ENNReal.ofReal (Real.exp (pathLogDensity M.Gamma0 (fun t y x => M.Gammat y x (Gparams t)) x)) ∂(Measure.pi fun _ => lam) = Z)
    (hZ0 : Z ≠ 0) (hZ : Z ≠ ∞) {ε : ℝ} (hε : 0 < ε) :
    (forward_pass key x b M Mparams Gparams R false : Ex _) (fun F => open Classical in
      if ε ≤ |evidence M.Gamma0 (fun t y x => M.Gammat y x (Gparams t)) m0 m F.xs F.As / Z.toReal - 1| then 1 else 0) ≤
      filterErr N n B Z / ENNReal.ofReal (ε ^ 2) := by
  have h1 := C103_variance (lam := lam) key x b hM hm hb0 hb hR hZe hZ0 hZ
  have hS := freeDSys_meas (Mparams := Mparams) (Gparams := Gparams) key hM (sel_unbiased hR)
  have hk : IsKer fun _ : Unit => (freeDSys lam key M Mparams Gparams R).fwd b x :=
    hS.fwd_ker.comp (g := fun _ : Unit => ((), b, x)) measurable_const
  have hev : Measurable fun h : Hist X N n => evidence M.Gamma0 (fun t y x => M.Gammat y x (Gparams t)) m0 m h.2 h.1 := by
    obtain ⟨c0, hc0⟩ := hm.init_log
    choose c hc using hm.step_log
    have := (hS.measurable_zhat c0 c).ennreal_toReal
    rwa [show (fun h => ((freeDSys lam key M Mparams Gparams R).zhat c0 c h).toReal) =
        fun h : Hist X N n => evidence M.Gamma0 (fun t y x => M.Gammat y x (Gparams t)) m0 m h.2 h.1 from
      funext fun h => by
        rw [zhat_evidence (lam := lam) (Gparams := Gparams) (resampling := R) key hc0 hc h, ENNReal.toReal_ofReal (evidence_pos _ _ _ _ _ _).le]] at this
  have hz : 0 < Z.toReal := ENNReal.toReal_pos hZ0 hZ
  set E : (Fin (n + 1) → Fin (N + 1) → X) → (Fin n → Fin (N + 1) → Fin (N + 1)) → ℝ :=
    evidence M.Gamma0 (fun t y x => M.Gammat y x (Gparams t)) m0 m with hE
  rw [smc_forward_eq (lam := lam) key x b fun xs As => ENNReal.ofReal ((E xs As - Z.toReal) ^ 2)] at h1
  rw [smc_forward_eq (lam := lam) key x b fun xs As => open Classical in if ε ≤ |E xs As / Z.toReal - 1| then 1 else 0]
  set κ := ENNReal.ofReal ((ε * Z.toReal) ^ 2) with hκ
  have hκ0 : κ ≠ 0 := by
    rw [hκ, ENNReal.ofReal_ne_zero_iff]
    positivity
  have m1 : Measurable fun h : Hist X N n => ENNReal.ofReal ((E h.2 h.1 - Z.toReal) ^ 2) := ((hev.sub_const _).pow_const 2).ennreal_ofReal
  have hpt : ∀ h : Hist X N n, (open Classical in if ε ≤ |E h.2 h.1 / Z.toReal - 1| then (1 : ℝ≥0∞) else 0) ≤
      κ⁻¹ * ENNReal.ofReal ((E h.2 h.1 - Z.toReal) ^ 2) := fun h => by
    split_ifs with hc
    · rw [← ENNReal.div_eq_inv_mul, ENNReal.le_div_iff_mul_le (.inl hκ0) (.inl ENNReal.ofReal_ne_top), one_mul]
      refine ENNReal.ofReal_le_ofReal ?_
      rw [← sq_abs (E h.2 h.1 - Z.toReal)]
      refine pow_le_pow_left₀ (by positivity) ?_ 2
      have : |E h.2 h.1 / Z.toReal - 1| = |E h.2 h.1 - Z.toReal| / Z.toReal := by
        conv_rhs => rw [← abs_of_pos hz, ← abs_div, abs_of_pos hz, sub_div, div_self hz.ne']
      rwa [this, le_div_iff₀ hz] at hc
    · exact zero_le
  have hmi : Measurable fun h : Hist X N n => (open Classical in if ε ≤ |E h.2 h.1 / Z.toReal - 1| then (1 : ℝ≥0∞) else 0) := by
    refine Measurable.ite ?_ measurable_const measurable_const
    exact measurableSet_le measurable_const ((hev.div_const _).sub_const 1).abs
  refine (hk.mono () hmi (m1.const_mul κ⁻¹) hpt).trans ?_
  rw [hk.const_mul () _ m1]
  refine (mul_le_mul_right h1 _).trans (le_of_eq ?_)
  have e : κ = ENNReal.ofReal (ε ^ 2) * Z ^ 2 := by
    rw [hκ, mul_pow, ENNReal.ofReal_mul (by positivity), ENNReal.ofReal_pow hz.le, ENNReal.ofReal_toReal hZ]
  have hε2 : ENNReal.ofReal (ε ^ 2) ≠ 0 := by
    rw [ENNReal.ofReal_ne_zero_iff]
    positivity
  rw [e, ENNReal.mul_inv (.inl hε2) (.inl ENNReal.ofReal_ne_top), div_eq_mul_inv]
  calc (ENNReal.ofReal (ε ^ 2))⁻¹ * (Z ^ 2)⁻¹ * (Z ^ 2 * filterErr N n B Z) =
      (Z ^ 2 * (Z ^ 2)⁻¹) * (filterErr N n B Z * (ENNReal.ofReal (ε ^ 2))⁻¹) := by ring
    _ = _ := by rw [ENNReal.mul_inv_cancel (pow_ne_zero 2 hZ0) (ENNReal.pow_ne_top hZ), one_mul]

end general

/-- **C103** (limit): the bound vanishes with many particles. -/
theorem C103_limit (n : ℕ) (B : Fin (n + 1) → ℝ) {Z : ℝ≥0∞} (hZ0 : Z ≠ 0) :
    Filter.Tendsto (fun N => filterErr N n B Z) Filter.atTop (nhds 0) := by
  have hc : (n + 1) * (∏ t, ENNReal.ofReal (Real.exp (B t))) / Z ≠ ∞ :=
    ENNReal.div_ne_top (ENNReal.mul_ne_top (by finiteness) (ENNReal.prod_ne_top fun t _ => ENNReal.ofReal_ne_top)) hZ0
  have h := ENNReal.Tendsto.const_mul (a := (n + 1) * (∏ t, ENNReal.ofReal (Real.exp (B t))) / Z)
    ((ENNReal.tendsto_inv_nat_nhds_zero).comp (Filter.tendsto_add_atTop_nat 1)) (.inr hc)
  rw [mul_zero] at h
  refine h.congr fun N => ?_
  show _ * ((N + 1 : ℕ) : ℝ≥0∞)⁻¹ = _ / ((N : ℝ≥0∞) + 1)
  rw [div_eq_mul_inv (_ / Z)]
  push_cast
  rfl

/-- The bound does not depend on the normalisation of the densities. -/
theorem C103_scale (N n : ℕ) (B c : Fin (n + 1) → ℝ) (Z : ℝ≥0∞) :
    filterErr N n (fun t => B t + c t) (ENNReal.ofReal (Real.exp (∑ t, c t)) * Z) = filterErr N n B Z := by
  have e : ∏ t, ENNReal.ofReal (Real.exp (B t + c t)) =
      ENNReal.ofReal (Real.exp (∑ t, c t)) * ∏ t, ENNReal.ofReal (Real.exp (B t)) := by
    rw [Real.exp_sum, ENNReal.ofReal_prod_of_nonneg fun t _ => (Real.exp_pos _).le, ← prod_mul_distrib]
    exact prod_congr rfl fun t _ => by rw [Real.exp_add, mul_comm, ENNReal.ofReal_mul (Real.exp_pos _).le]
  rw [filterErr, filterErr, e, mul_left_comm, ENNReal.mul_div_mul_left _ _ (by simp [Real.exp_pos]) ENNReal.ofReal_ne_top]

/-! ## The stochastic volatility experiment -/

/-- The bound for the first trajectory of the stochastic volatility experiment. -/
noncomputable def svFilterErr (N : ℕ) (tau : ℤ) (ys : Traj (n + 1) d) : ℝ≥0∞ :=
  filterErr N n (fun t => svMaxLog (ys t)) (∫⁻ x, ENNReal.ofReal (Real.exp (svSampled .CSMC tau ys x)) ∂trajVol (n + 1) d)

/-- **C103** (start of the stochastic volatility experiment): if no observation is zero, the trajectory from which all chains start has a law
within `svFilterErr` of the posterior of the states, whatever the key, the move and the true states. -/
theorem C103_sv_start {tau : ℤ} (ht : 0 < tau) (hR : sel_resampling resampling = .ok R) {ys : Traj (n + 1) d} (hy : ∀ t j, ys t j ≠ 0)
    (init_key : Key) (mv : AncestorMove Ex N) (true_xs : Traj (n + 1) d) :
    TVLe (svFilterErr N tau ys) (sv_init init_key ys (svDynArgs tau d) R mv true_xs : Ex _) fun f => ∫⁻ x, f x ∂svPosterior .CSMC tau ys := by
  have hP := svDynArgs_P0 ht d
  have hQ := svDynArgs_Q ht d
  obtain ⟨eZ, hZ, eL⟩ := sv_many_target (N := N) ht ys
  have h := C103_trajectory (mv := mv) (backward := true) init_key true_xs (fun _ => 0) (C19_sv_proper (N := N) ys hP hQ) (svFK_bounded hy hP hQ) hR
    (.inl rfl) rfl hZ.1 hZ.2
  rw [eL, eZ, C103_scale] at h
  exact h

/-- **C103** (any accuracy). -/
theorem C103_sv_any {tau : ℤ} (ht : 0 < tau) {ys : Traj (n + 1) d} (hy : ∀ t j, ys t j ≠ 0) {δ : ℝ≥0∞} (hδ : δ ≠ 0) :
    ∃ N0, ∀ N, N0 ≤ N → ∀ R : Resampling Ex N, sel_resampling resampling = .ok R →
      ∀ (init_key : Key) (mv : AncestorMove Ex N) (true_xs : Traj (n + 1) d),
        TVLe δ (sv_init init_key ys (svDynArgs tau d) R mv true_xs : Ex _) fun f => ∫⁻ x, f x ∂svPosterior .CSMC tau ys := by
  have hZ := (svSampled_mass .CSMC ht ys).2
  have h := C103_limit n (fun t => svMaxLog (ys t)) hZ.1
  obtain ⟨N0, hN0⟩ := Filter.eventually_atTop.mp (ENNReal.tendsto_nhds_zero.mp h δ (pos_iff_ne_zero.mpr hδ))
  refine ⟨N0, fun N hN R hR init_key mv true_xs f hf hf1 => ?_⟩
  obtain ⟨h1, h2⟩ := C103_sv_start ht hR hy init_key mv true_xs f hf hf1
  exact ⟨h1.trans (add_le_add le_rfl (hN0 N hN)), h2.trans (add_le_add le_rfl (hN0 N hN))⟩

/-! ## Examples -/

example (true_xs : Traj 4 2) : TVLe (svFilterErr 999999 30 fun (_ : Fin 4) (_ : Fin 2) => 1)
    (sv_init [3] (fun _ _ => 1) (svDynArgs 30 2) (fun key w i j c => killing key w i j c) (fun key w k => force_move (n := 999999) key w k) true_xs : Ex _)
    fun f => ∫⁻ x, f x ∂svPosterior .CSMC 30 fun _ _ => 1 :=
  C103_sv_start (resampling := "killing") (by norm_num) rfl (fun _ _ => one_ne_zero) [3] _ true_xs

/-- The evidence of the linear model: with 100 times as many particles as `(n + 1) exp(Σ B) / Z`, the estimate is off by a half or more with
probability at most 1/25. -/
example (ys x : Traj 5 2) (N : ℕ) (b : Fin 5 → Fin (N + 1))
    (hN : filterErr N 4 (fun _ => lgMaxLog 2) (∫⁻ x, ENNReal.ofReal (Real.exp (lgTarget 1 ys x)) ∂trajVol 5 2) ≤ 1 / 100) :
    ∃ m0 m, ProposalLogs volume (lgFK (m := Ex) (N := N) ys 1) (tailA ys) m0 m ∧
    (forward_pass [5] x b (lgFK ys 1) (tailA ys) (tailA ys) (fun key w i j c => killing key w i j c) false : Ex _) (fun F => open Classical in
      if 1 / 2 ≤ |evidence (lgFK (m := Ex) (N := N) ys 1).Gamma0 (fun t y x => (lgFK (m := Ex) (N := N) ys 1).Gammat y x (tailA ys t)) m0 m F.xs F.As /
        (∫⁻ x, ENNReal.ofReal (Real.exp (lgTarget 1 ys x)) ∂trajVol 5 2).toReal - 1| then 1 else 0) ≤ 1 / 25 := by
  obtain ⟨m0, c0, hl0, hs0, hb0⟩ := (lgFK_bounded (N := N) ys one_pos).init
  choose m c hl hs hb using (lgFK_bounded (N := N) ys one_pos).step
  have hm : ProposalLogs volume (lgFK (m := Ex) (N := N) ys 1) (tailA ys) m0 m := ⟨hs0, ⟨c0, hl0⟩, hs, fun t => ⟨c t, hl t⟩⟩
  have hZ := lgTarget_mass one_pos ys
  refine ⟨m0, m, hm, ?_⟩
  refine (C103_relative (resampling := "killing") [5] x b (C19_lgssm_proper ys one_pos) hm hb0 hb rfl (by rw [← lgTarget_gamma ys one_pos]; rfl) hZ.1 hZ.2
    (by norm_num : (0 : ℝ) < 1 / 2)).trans ((ENNReal.div_le_div_right hN _).trans (le_of_eq ?_))
  rw [show (1 / 100 : ℝ≥0∞) = ENNReal.ofReal (1 / 100) by rw [ENNReal.ofReal_div_of_pos (by norm_num)]; simp, ← ENNReal.ofReal_div_of_pos (by norm_num)]
  rw [show (1 / 25 : ℝ≥0∞) = ENNReal.ofReal (1 / 25) by rw [ENNReal.ofReal_div_of_pos (by norm_num)]; simp]
  norm_num

end Verif.Props
