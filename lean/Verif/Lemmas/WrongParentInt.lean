import Verif.Lemmas.WrongParentStep
import Verif.Lemmas.SvMass

/-!
# Integration over the noise and over the target
-/

open scoped ENNReal Topology
open MeasureTheory ProbabilityTheory Finset

namespace Verif
open Verif.Spec Verif.Model Verif.Props

variable {N : ℕ}

/-- The auxiliary variables. -/
noncomputable def wpU (x e : Fin 3 → Vec 1) : Fin 3 → Vec 1 := fun t j =>
  x t j + 0.5 * 2 * fullGrad (n := 2) (fun _ => 0) parentGrad0 parentGrad1 (fun t => t) x t j + auxStd (n := 2) (fun _ => 2) t * e t j

theorem wp_std (t : Fin 3) : auxStd (n := 2) (fun _ => 2) t = 1 := by
  rw [auxStd]; norm_num

theorem wpU_zero (x e : Fin 3 → Vec 1) : wpU x e 0 0 = x 0 0 + e 0 0 := by
  rw [wpU, wp_std]
  have : fullGrad (n := 2) (fun _ => 0) parentGrad0 parentGrad1 (fun t => t) x 0 0 = 0 := by
    show (0 : ℝ) + parentGrad0 (x 0) (x 1) 0 0 = 0
    rw [parentGrad0, if_pos rfl, add_zero]
  rw [this]; ring

theorem wpU_one (x e : Fin 3 → Vec 1) :
    wpU x e 1 0 = x 1 0 + (if InUnit (x 1) then posStep (x 0) + 1 else 0) + e 1 0 := by
  rw [wpU, wp_std]
  have : fullGrad (n := 2) (fun _ => 0) parentGrad0 parentGrad1 (fun t => t) x 1 0 =
      if InUnit (x 1) then posStep (x 0) + 1 else 0 := by
    show parentGrad1 (x 0) (x 1) 0 0 + parentGrad0 (x 1) (x 2) 1 0 = _
    rw [parentGrad1, parentGrad0, if_pos rfl, if_neg one_ne_zero]
    split_ifs <;> simp
  rw [this]; ring

/-- Law of the noise of the proposals. -/
noncomputable abbrev wpNoise (N : ℕ) : Measure (Fin 3 → Fin (N + 1) → Vec 1) :=
  Measure.pi fun _ : Fin 3 => Measure.pi fun _ : Fin (N + 1) => gaussM 1

/-- Law of the noise of the auxiliary variables. -/
noncomputable abbrev wpAuxM : Measure (Fin 3 → Vec 1) := Measure.pi fun _ : Fin 3 => gaussM 1

/-- The particles. -/
noncomputable abbrev wpX (x e : Fin 3 → Vec 1) (eps : Fin 3 → Fin (N + 1) → Vec 1) (b : Fin 3 → Fin (N + 1)) :
    Fin 3 → PA (Vec 1) N := auxParticles (wpU x e) (auxStd (n := 2) fun _ => 2) eps b x

theorem wp_kernel (fix : Bool) (ψ : Vec 1 → ℝ≥0∞) (C : ℝ) (key : Key) (x : Fin 3 → Vec 1) (b : Fin 3 → Fin (N + 1))
    (resampling : Resampling Ex N)
    {mv : AncestorMove Ex N} (hm : ∀ key, MoveKer (moveIndex mv key)) (hm' : ∀ key, MoveMass (moveIndex mv key)) :
    als_kernelF (n := 0) (wpFix fix) key x b wall (fun _ => 0) (parentGamma C) parentGrad0 parentGrad1 (fun t => t) (fun _ => 2)
      (fun _ => 2) resampling mv true (fun r => ψ (r.1 1)) =
    ∫⁻ e, ∫⁻ eps, wpMean fix ψ C (fun w i j => resampling (keysResampling key 2 0) w i j true)
      (fun w i j => resampling (keysResampling key 2 1) w i j true) b (wpU x e 1) (wpX x e eps b 0) (wpX x e eps b 1)
        ∂wpNoise N ∂wpAuxM := by
  refine lintegral_congr fun e => lintegral_congr fun eps => ?_
  exact wp_forward fix ψ C key b resampling hm hm' (wpU x e) (wpX x e eps b)

/-- The set of noises of the auxiliary variables. -/
def wpBoxE : Set (Fin 3 → Vec 1) := {e | (0 < e 0 0 ∧ e 0 0 < 1 / 10) ∧ 0 < e 1 0 ∧ e 1 0 < 1 / 10}

/-- The set of noises of the proposals. -/
def wpBoxP (N : ℕ) : Set (Fin 3 → Fin (N + 1) → Vec 1) :=
  {p | ∀ i, (-8 / 10 < p 0 i 0 ∧ p 0 i 0 < -3 / 10) ∧ 3 / 10 < p 1 i 0 ∧ p 1 i 0 < 8 / 10}

/-- The set of trajectories. -/
def wpBoxX : Set (Fin 3 → Vec 1) :=
  {x | (0 < x 0 0 ∧ x 0 0 < 1 / 10) ∧ (-2 / 10 < x 1 0 ∧ x 1 0 < -1 / 10) ∧ 0 < x 2 0 ∧ x 2 0 < 1}

theorem isOpen_between {Y : Type} [TopologicalSpace Y] {f : Y → ℝ} (hf : Continuous f) (a b : ℝ) : IsOpen {y | a < f y ∧ f y < b} :=
  (isOpen_lt continuous_const hf).inter (isOpen_lt hf continuous_const)

theorem isOpen_wpBoxE : IsOpen wpBoxE :=
  (isOpen_between (by fun_prop : Continuous fun e : Fin 3 → Vec 1 => e 0 0) _ _).inter
    (isOpen_between (by fun_prop : Continuous fun e : Fin 3 → Vec 1 => e 1 0) _ _)

theorem isOpen_wpBoxP : IsOpen (wpBoxP N) := by
  have : wpBoxP N = ⋂ i, {p | (-8 / 10 < p 0 i 0 ∧ p 0 i 0 < -3 / 10) ∧ 3 / 10 < p 1 i 0 ∧ p 1 i 0 < 8 / 10} := by
    ext p; simp [wpBoxP]
  rw [this]
  exact isOpen_iInter_of_finite fun i =>
    (isOpen_between (by fun_prop : Continuous fun e : Fin 3 → Fin (N + 1) → Vec 1 => e 0 i 0) _ _).inter
    (isOpen_between (by fun_prop : Continuous fun e : Fin 3 → Fin (N + 1) → Vec 1 => e 1 i 0) _ _)

theorem isOpen_wpBoxX : IsOpen wpBoxX :=
  (isOpen_between (by fun_prop : Continuous fun e : Fin 3 → Vec 1 => e 0 0) _ _).inter
    ((isOpen_between (by fun_prop : Continuous fun e : Fin 3 → Vec 1 => e 1 0) _ _).inter
      (isOpen_between (by fun_prop : Continuous fun e : Fin 3 → Vec 1 => e 2 0) _ _))

theorem wpBoxE_pos : wpAuxM wpBoxE ≠ 0 := by
  have : Measure.IsOpenPosMeasure wpAuxM := Measure.pi.isOpenPosMeasure _
  refine (isOpen_wpBoxE.measure_pos _ ⟨fun _ _ => 1 / 20, ?_⟩).ne'
  simp only [wpBoxE, Set.mem_ofPred_eq]; norm_num

theorem wpBoxP_pos : wpNoise N (wpBoxP N) ≠ 0 := by
  have : Measure.IsOpenPosMeasure (Measure.pi fun _ : Fin (N + 1) => gaussM 1) := Measure.pi.isOpenPosMeasure _
  have : Measure.IsOpenPosMeasure (wpNoise N) := Measure.pi.isOpenPosMeasure _
  refine (isOpen_wpBoxP.measure_pos _ ⟨![fun _ _ => -1 / 2, fun _ _ => 1 / 2, fun _ _ => 0], ?_⟩).ne'
  simp only [wpBoxP, Set.mem_ofPred_eq]
  intro i
  simp only [Matrix.cons_val_zero, Matrix.cons_val_one]
  norm_num

theorem wpBoxX_pos : (Measure.pi fun _ : Fin 3 => (volume : Measure (Vec 1))) wpBoxX ≠ 0 := by
  refine (isOpen_wpBoxX.measure_pos _ ⟨![fun _ => 1 / 20, fun _ => -3 / 20, fun _ => 1 / 2], ?_⟩).ne'
  simp only [wpBoxX, Set.mem_ofPred_eq]
  simp only [Matrix.cons_val_zero, Matrix.cons_val_one, Matrix.cons_val]
  norm_num

theorem wp_inBox {b : Fin 3 → Fin (N + 1)} (hb : b 0 = b 1) (hb' : b 2 ≠ b 1) {x e : Fin 3 → Vec 1}
    {eps : Fin 3 → Fin (N + 1) → Vec 1} (hx : x ∈ wpBoxX) (he : e ∈ wpBoxE) (hp : eps ∈ wpBoxP N) :
    WpBox b (wpU x e 1) (wpX x e eps b 0) (wpX x e eps b 1) := by
  obtain ⟨⟨x1, x2⟩, ⟨x3, x4⟩, _, _⟩ := hx
  obtain ⟨⟨e1, e2⟩, e3, e4⟩ := he
  have hnu : ¬InUnit (x 1) := fun h => by have := h.1; linarith
  have u1 : wpU x e 1 0 = x 1 0 + e 1 0 := by rw [wpU_one, if_neg hnu, add_zero]
  have u0 := wpU_zero x e
  have k0 : wpX x e eps b 0 (b 0) = x 0 := atSet_same _ _ _
  have k1 : wpX x e eps b 1 (b 1) = x 1 := atSet_same _ _ _
  have i0 : ∀ i, i ≠ b 0 → wpX x e eps b 0 i 0 = wpU x e 0 0 + eps 0 i 0 := fun i hi => by
    have : wpX x e eps b 0 i = fun j => wpU x e 0 j + auxStd (n := 2) (fun _ => 2) 0 * eps 0 i j := atSet_ne _ _ hi
    simp only [this, wp_std, one_mul]
  have i1 : ∀ i, i ≠ b 1 → wpX x e eps b 1 i 0 = wpU x e 1 0 + eps 1 i 0 := fun i hi => by
    have : wpX x e eps b 1 i = fun j => wpU x e 1 j + auxStd (n := 2) (fun _ => 2) 1 * eps 1 i j := atSet_ne _ _ hi
    simp only [this, wp_std, one_mul]
  refine ⟨hb', hb, ?_, fun i hi => ?_, ?_, fun i hi => ?_, ?_, ?_⟩
  · rw [k0]; exact ⟨⟨by linarith, by linarith⟩, x1⟩
  · have := hp i
    rw [InNeg, i0 i hi, u0]
    constructor <;> linarith [this.1.1, this.1.2]
  · rw [k1]; exact ⟨by linarith, by linarith⟩
  · have := hp i
    rw [InUnit, i1 i hi, u1]
    constructor <;> linarith [this.2.1, this.2.2]
  · rw [u1]; linarith
  · rw [u1]; linarith

/-- Comparison of two double integrals. -/
theorem lintegral_two_le {E P : Type} [MeasurableSpace E] [MeasurableSpace P] {μ : Measure E} {ν : Measure P}
    [IsProbabilityMeasure ν] {F G : E → P → ℝ≥0∞} {p : E → ℝ≥0∞} (hp : Measurable p) {c : ℝ≥0∞} {A : Set E} {B : Set P}
    (hA : MeasurableSet A) (hB : MeasurableSet B)
    (h : ∀ e y, F e y + A.indicator (fun _ => c) e * B.indicator 1 y ≤ G e y + p e) :
    ∫⁻ e, ∫⁻ y, F e y ∂ν ∂μ + c * μ A * ν B ≤ ∫⁻ e, ∫⁻ y, G e y ∂ν ∂μ + ∫⁻ e, p e ∂μ := by
  have h1 : c * μ A * ν B = ∫⁻ e, ∫⁻ y, A.indicator (fun _ => c) e * B.indicator 1 y ∂ν ∂μ := by
    have : ∀ e, ∫⁻ y, A.indicator (fun _ => c) e * B.indicator 1 y ∂ν = A.indicator (fun _ => c) e * ν B := fun e => by
      rw [lintegral_const_mul _ (measurable_one.indicator hB), lintegral_indicator_one hB]
    simp only [this]
    rw [lintegral_mul_const _ (measurable_const.indicator hA), lintegral_indicator_const hA]
  rw [h1]
  refine (le_lintegral_add _ _).trans ?_
  rw [← lintegral_add_right _ hp]
  refine lintegral_mono fun e => ?_
  refine (le_lintegral_add _ _).trans ?_
  have h2 : ∫⁻ y, G e y ∂ν + p e = ∫⁻ y, (G e y + p e) ∂ν := by
    rw [lintegral_add_right _ measurable_const, lintegral_const, measure_univ, mul_one]
  show _ ≤ ∫⁻ y, G e y ∂ν + p e
  rw [h2]
  exact lintegral_mono fun y => h e y

theorem measurable_wpU (x : Fin 3 → Vec 1) : Measurable fun e => wpU x e 1 0 := by
  simp only [wpU_one]
  fun_prop

theorem measurable_wpPos (C : ℝ) (x : Fin 3 → Vec 1) : Measurable fun e => wpPos N C (wpU x e 1) (x 0) (x 1) := by
  have := measurable_wpU x
  unfold wpPos
  split_ifs <;> fun_prop

open Classical in
/-- The effect of the wrong parents on the kernel. -/
theorem wp_kernel_le (C : ℝ) (key : Key) (x : Fin 3 → Vec 1) (b : Fin 3 → Fin (N + 1))
    {resampling : Resampling Ex N} (hR : ∀ key, CondResampling fun w i j => resampling key w i j true)
    {mv : AncestorMove Ex N} (hm : ∀ key, MoveKer (moveIndex mv key)) (hm' : ∀ key, MoveMass (moveIndex mv key)) :
    als_kernelF (n := 0) (wpFix false) key x b wall (fun _ => 0) (parentGamma C) parentGrad0 parentGrad1 (fun t => t) (fun _ => 2)
      (fun _ => 2) resampling mv true (fun r => offNeg (r.1 1)) +
      (if (b 0 = b 1 ∧ b 2 ≠ b 1) ∧ x ∈ wpBoxX then ENNReal.ofReal (wpGap N) *
        resampling (keysResampling key 2 0) (normalizeW fun _ => 0) (b 0) (b 1) true (onlyChild (b 0) (b 1)) * wpAuxM wpBoxE *
          wpNoise N (wpBoxP N) else 0) ≤
    als_kernelF (n := 0) (wpFix true) key x b wall (fun _ => 0) (parentGamma C) parentGrad0 parentGrad1 (fun t => t) (fun _ => 2)
      (fun _ => 2) resampling mv true (fun r => offNeg (r.1 1)) + ∫⁻ e, wpPos N C (wpU x e 1) (x 0) (x 1) ∂wpAuxM := by
  rw [wp_kernel false offNeg C key x b resampling hm hm', wp_kernel true offNeg C key x b resampling hm hm']
  have k0 : ∀ e eps, wpX x e eps b 0 (b 0) = x 0 := fun e eps => atSet_same _ _ _
  have k1 : ∀ e eps, wpX x e eps b 1 (b 1) = x 1 := fun e eps => atSet_same _ _ _
  have key1 := fun e eps => wp_first (C := C) (hR (keysResampling key 2 0)) (hR (keysResampling key 2 1)) b (wpU x e 1)
    (wpX x e eps b 0) (wpX x e eps b 1)
  simp only [k0, k1] at key1
  split_ifs with h
  · refine lintegral_two_le (measurable_wpPos C x) isOpen_wpBoxE.measurableSet isOpen_wpBoxP.measurableSet fun e eps => ?_
    refine le_trans (add_le_add le_rfl ?_) (key1 e eps)
    by_cases he : e ∈ wpBoxE
    · by_cases hp : eps ∈ wpBoxP N
      · rw [Set.indicator_of_mem he, Set.indicator_of_mem hp, if_pos (wp_inBox h.1.1 h.1.2 h.2 he hp), Pi.one_apply, mul_one]
      · rw [Set.indicator_of_notMem hp, mul_zero]; exact zero_le
    · rw [Set.indicator_of_notMem he, zero_mul]; exact zero_le
  · have := lintegral_two_le (F := fun e eps => wpMean false offNeg C (fun w i j => resampling (keysResampling key 2 0) w i j true)
      (fun w i j => resampling (keysResampling key 2 1) w i j true) b (wpU x e 1) (wpX x e eps b 0) (wpX x e eps b 1))
      (G := fun e eps => wpMean true offNeg C (fun w i j => resampling (keysResampling key 2 0) w i j true)
      (fun w i j => resampling (keysResampling key 2 1) w i j true) b (wpU x e 1) (wpX x e eps b 0) (wpX x e eps b 1))
      (μ := wpAuxM) (ν := wpNoise N) (c := 0) (A := ∅) (B := ∅) (measurable_wpPos (N := N) C x) .empty .empty fun e eps => by
        rw [Set.indicator_empty, zero_mul, add_zero]
        exact le_self_add.trans (key1 e eps)
    simpa using this

/-! ## The target -/

theorem wp_target (C : ℝ) (x : Fin 3 → Vec 1) : pathLogDensity (n := 2) wall (fun t y z => parentGamma C y z t) x =
    wall (x 0) + wall (x 1) + wall (x 2) + (if InUnit (x 1) then posStep (x 0) * (C + x 1 0) + x 1 0 else 0) := by
  rw [pathLogDensity, Fin.sum_univ_two]
  show wall (x 0) + (parentGamma C (x 0) (x 1) 0 + parentGamma C (x 1) (x 2) 1) = _
  rw [parentGamma, parentGamma, if_pos rfl, if_neg one_ne_zero]
  split_ifs <;> ring

/-- Log of the bound on the target times the effect of the wrong parents. -/
noncomputable def wpBound (x : Fin 3 → Vec 1) : ℝ := wall (x 0) + wall (x 1) + wall (x 2) + 2 * |x 1 0| + 3

theorem wp_pos_le (C : ℝ) (x e : Fin 3 → Vec 1) :
    ENNReal.ofReal (Real.exp (pathLogDensity (n := 2) wall (fun t y z => parentGamma C y z t) x)) *
      wpPos N C (wpU x e 1) (x 0) (x 1) ≤
    ENNReal.ofReal ((N + 1) ^ 3 * Real.exp (-C)) * ENNReal.ofReal (Real.exp (wpBound x)) * ENNReal.ofReal (Real.exp (3 * |e 1 0|)) := by
  rw [wp_target, wpPos, wpU_one]
  have hN1 : (1 : ℝ) ≤ N + 1 := by linarith [(Nat.cast_nonneg N : (0 : ℝ) ≤ N)]
  have hN3 : (N + 1 : ℝ) ≤ (N + 1) ^ 3 := le_self_pow₀ hN1 (by norm_num)
  have a1 := le_abs_self (e 1 0)
  have a2 := neg_abs_le (e 1 0)
  have a3 := neg_abs_le (x 1 0)
  have a4 := abs_nonneg (x 1 0)
  have a5 := abs_nonneg (e 1 0)
  by_cases hu : InUnit (x 1)
  · have hw := wall_inUnit hu
    have h1 := hu.1; have h2 := hu.2
    by_cases hp : 0 < x 0 0
    · rw [if_pos hu, if_pos hu, if_pos ⟨hu, hp⟩, posStep_eq_one.mpr hp, ← ENNReal.ofReal_mul (by positivity),
        ← ENNReal.ofReal_mul (by positivity), ← ENNReal.ofReal_mul (by positivity), ← ENNReal.ofReal_mul (by positivity)]
      refine ENNReal.ofReal_le_ofReal ?_
      have : ∀ a b c : ℝ, Real.exp a * ((N + 1) * Real.exp b * ((N + 1) ^ 2 * Real.exp c)) = (N + 1) ^ 3 * Real.exp (a + b + c) :=
        fun a b c => by rw [Real.exp_add, Real.exp_add]; ring
      rw [this, mul_assoc, mul_assoc, ← Real.exp_add, ← Real.exp_add]
      refine mul_le_mul_of_nonneg_left (Real.exp_le_exp.mpr ?_) (by positivity)
      unfold wpBound
      linarith
    · have hp0 : posStep (x 0) = 0 := by rw [posStep, if_neg hp]
      rw [if_pos hu, if_pos hu, if_neg fun h => hp h.2, hp0, mul_one, ← ENNReal.ofReal_mul (by positivity),
        ← ENNReal.ofReal_mul (by positivity), ← ENNReal.ofReal_mul (by positivity)]
      refine ENNReal.ofReal_le_ofReal ?_
      have : ∀ a b : ℝ, Real.exp a * ((N + 1) * Real.exp b) = (N + 1) * Real.exp (a + b) :=
        fun a b => by rw [Real.exp_add]; ring
      rw [this, mul_assoc, mul_assoc, ← Real.exp_add, ← Real.exp_add]
      refine mul_le_mul hN3 (Real.exp_le_exp.mpr ?_) (Real.exp_pos _).le (by positivity)
      unfold wpBound
      linarith
  · rw [if_neg hu, if_neg hu, if_neg fun h => hu h.1, mul_one, ← ENNReal.ofReal_mul (by positivity),
        ← ENNReal.ofReal_mul (by positivity), ← ENNReal.ofReal_mul (by positivity)]
    refine ENNReal.ofReal_le_ofReal ?_
    have : ∀ a b : ℝ, Real.exp a * ((N + 1) * Real.exp b) = (N + 1) * Real.exp (a + b) :=
      fun a b => by rw [Real.exp_add]; ring
    rw [this, mul_assoc, mul_assoc, ← Real.exp_add, ← Real.exp_add]
    refine mul_le_mul hN3 (Real.exp_le_exp.mpr ?_) (Real.exp_pos _).le (by positivity)
    unfold wpBound
    linarith

/-- Exponential moment of the noise. -/
theorem wp_moment : ∫⁻ e, ENNReal.ofReal (Real.exp (3 * |e 1 0|)) ∂wpAuxM ≠ ∞ := by
  have h1 : ∀ t : ℝ, ∫⁻ e : Fin 3 → Vec 1, ENNReal.ofReal (Real.exp (t * e 1 0)) ∂wpAuxM ≠ ∞ := fun t => by
    have hi := (integrable_exp_mul_gaussianReal (μ := 0) (v := 1) t).lintegral_lt_top.ne
    have hf : Measurable fun x : ℝ => ENNReal.ofReal (Real.exp (t * x)) := by fun_prop
    have e1 := (measurePreserving_eval (fun _ : Fin 1 => gaussianReal 0 1) 0).lintegral_comp hf
    have e2 := (measurePreserving_eval (fun _ : Fin 3 => gaussM 1) 1).lintegral_comp
      (by fun_prop : Measurable fun x : Vec 1 => ENNReal.ofReal (Real.exp (t * x 0)))
    rw [show ∫⁻ e : Fin 3 → Vec 1, ENNReal.ofReal (Real.exp (t * e 1 0)) ∂wpAuxM = _ from e2.trans e1]
    exact hi
  refine ne_top_of_le_ne_top (ENNReal.add_ne_top.mpr ⟨h1 3, h1 (-3)⟩) ?_
  rw [← lintegral_add_left (by fun_prop)]
  refine lintegral_mono fun e => ?_
  rw [← ENNReal.ofReal_add (Real.exp_pos _).le (Real.exp_pos _).le]
  refine ENNReal.ofReal_le_ofReal ?_
  rcases abs_cases (e 1 0) with ⟨h, _⟩ | ⟨h, _⟩ <;> rw [h]
  · linarith [Real.exp_pos (-3 * e 1 0)]
  · have : 3 * -e 1 0 = -3 * e 1 0 := by ring
    rw [this]
    linarith [Real.exp_pos (3 * e 1 0)]

theorem wall_le (x : Vec 1) : wall x ≤ 1 - x 0 ^ 2 := by
  have := Int.lt_floor_add_one (x 0 ^ 2)
  rw [wall]; linarith

theorem wp_bound_fin : ∫⁻ x, ENNReal.ofReal (Real.exp (wpBound x)) ∂(Measure.pi fun _ : Fin 3 => volume) ≠ ∞ := by
  have h := gaussPath_exp_moment (n := 2) (0 : Vec 1) (P0 := 1) (Fs := fun _ => 0) (Qs := fun _ => 1) Matrix.PosDef.one
    (fun _ => Matrix.PosDef.one) (fun _ => 0) fun _ => 0
  have hl : ∀ x : Vec 1, normalLogpdf 0 1 x = -(x 0 ^ 2) / 2 - 1 / 2 * Real.log (2 * Real.pi) := fun x => by
    simp [normalLogpdf, dotProduct]; ring
  have hle : ∀ x : Fin 3 → Vec 1, ENNReal.ofReal (Real.exp (wpBound x)) ≤ ENNReal.ofReal (Real.exp (8 + 3 / 2 * Real.log (2 * Real.pi))) *
      ENNReal.ofReal (Real.exp (gaussPathLog 0 1 (fun _ => 0) (fun _ => 1) (fun _ => 0) x + ∑ t, (0 : Vec 1) ⬝ᵥ x t)) := fun x => by
    rw [← ENNReal.ofReal_mul (Real.exp_pos _).le, ← Real.exp_add]
    refine ENNReal.ofReal_le_ofReal (Real.exp_le_exp.mpr ?_)
    have h0 := wall_le (x 0)
    have h1 := wall_le (x 1)
    have h2 := wall_le (x 2)
    have h3 : 2 * |x 1 0| ≤ x 1 0 ^ 2 / 2 + 2 := by nlinarith [sq_nonneg (|x 1 0| - 2), sq_abs (x 1 0)]
    have e : gaussPathLog 0 1 (fun _ : Fin 2 => 0) (fun _ => 1) (fun _ => 0) x = normalLogpdf 0 1 (x 0) +
        (normalLogpdf 0 1 (x 1) + normalLogpdf 0 1 (x 2)) := by
      rw [gaussPathLog, pathLogDensity, Fin.sum_univ_two]
      simp
    rw [e, hl, hl, hl]
    simp only [zero_dotProduct, sum_const_zero, add_zero]
    unfold wpBound
    nlinarith [sq_nonneg (x 0 0), sq_nonneg (x 2 0)]
  refine ne_top_of_le_ne_top (ENNReal.mul_ne_top (a := ENNReal.ofReal (Real.exp (8 + 3 / 2 * Real.log (2 * Real.pi)))) ENNReal.ofReal_ne_top h)
    ((lintegral_mono hle).trans ?_)
  rw [lintegral_const_mul' _ _ ENNReal.ofReal_ne_top]

end Verif
