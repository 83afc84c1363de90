import Mathlib.MeasureTheory.Function.Floor
import Verif.Lemmas.WrongParentInt

/-!
# Integration over the target
-/

open scoped ENNReal Topology
open MeasureTheory ProbabilityTheory Finset

namespace Verif
open Verif.Spec Verif.Model Verif.Props

variable {N : ℕ}

/-! ## Measurability -/

theorem measurable_wall : Measurable wall := by
  have h : Measurable fun x : Vec 1 => (⌊x 0 ^ 2⌋ : ℤ) := Int.measurable_floor.comp (by fun_prop)
  exact ((measurable_from_top : Measurable fun z : ℤ => (z : ℝ)).comp h).neg

theorem measurableSet_inUnit : MeasurableSet {x : Vec 1 | InUnit x} :=
  (measurableSet_le measurable_const (measurable_pi_apply 0)).inter (measurableSet_lt (measurable_pi_apply 0) measurable_const)

theorem measurable_posStep : Measurable posStep :=
  Measurable.ite (measurableSet_lt measurable_const (measurable_pi_apply 0)) measurable_const measurable_const

theorem measurable_offNeg : Measurable offNeg :=
  Measurable.ite ((measurableSet_lt measurable_const (measurable_pi_apply 0)).inter (measurableSet_lt (measurable_pi_apply 0) measurable_const))
    measurable_const measurable_const

theorem measurable_parentGamma (C : ℝ) (g : Fin 2) : Measurable fun p : Vec 1 × Vec 1 => parentGamma C p.1 p.2 g := by
  have h1 := measurable_wall.comp (measurable_snd : Measurable fun p : Vec 1 × Vec 1 => p.2)
  have h2 := measurable_posStep.comp (measurable_fst : Measurable fun p : Vec 1 × Vec 1 => p.1)
  have h3 : Measurable fun p : Vec 1 × Vec 1 => C + p.2 0 := by fun_prop
  have h4 : Measurable fun p : Vec 1 × Vec 1 => p.1 0 := by fun_prop
  unfold parentGamma
  split_ifs
  · exact h1.add (Measurable.ite (measurable_snd measurableSet_inUnit) (h2.mul h3) measurable_const)
  · exact h1.add (Measurable.ite (measurable_fst measurableSet_inUnit) h4 measurable_const)

theorem measurable_parentGrad0 (g : Fin 2) : Measurable fun p : Vec 1 × Vec 1 => parentGrad0 p.1 p.2 g := by
  refine measurable_pi_lambda _ fun j => ?_
  unfold parentGrad0
  split_ifs
  · exact measurable_const
  · exact Measurable.ite (measurable_fst measurableSet_inUnit) measurable_const measurable_const

theorem measurable_parentGrad1 (g : Fin 2) : Measurable fun p : Vec 1 × Vec 1 => parentGrad1 p.1 p.2 g := by
  refine measurable_pi_lambda _ fun j => ?_
  have h2 := measurable_posStep.comp (measurable_fst : Measurable fun p : Vec 1 × Vec 1 => p.1)
  unfold parentGrad1
  split_ifs
  · exact Measurable.ite (measurable_snd measurableSet_inUnit) h2 measurable_const
  · exact measurable_const

theorem measurable_wpBound : Measurable wpBound := by
  have h : ∀ t : Fin 3, Measurable fun x : Fin 3 → Vec 1 => wall (x t) := fun t => measurable_wall.comp (measurable_pi_apply t)
  have h0 := h 0
  have h1 := h 1
  have h2 := h 2
  have h3 : Measurable fun x : Fin 3 → Vec 1 => x 1 0 := by fun_prop
  have h4 : Measurable fun x : Fin 3 → Vec 1 => |x 1 0| := measurable_norm.comp h3
  unfold wpBound
  fun_prop

/-! ## The target -/

/-- The target. -/
noncomputable abbrev wpPi (C : ℝ) (x : Fin 3 → Vec 1) : ℝ≥0∞ :=
  ENNReal.ofReal (Real.exp (pathLogDensity (n := 2) wall (fun t y z => parentGamma C y z t) x))

theorem wall_of_abs {x : Vec 1} (h1 : -1 < x 0) (h2 : x 0 < 1) : wall x = 0 := by
  have : ⌊x 0 ^ 2⌋ = 0 := by
    rw [Int.floor_eq_iff]
    constructor
    · push_cast; positivity
    · push_cast; nlinarith
  rw [wall, this]; simp

theorem wpPi_box (C : ℝ) {x : Fin 3 → Vec 1} (hx : x ∈ wpBoxX) : wpPi C x = 1 := by
  obtain ⟨⟨x1, x2⟩, ⟨x3, x4⟩, x5, x6⟩ := hx
  have hnu : ¬InUnit (x 1) := fun h => by have := h.1; linarith
  rw [wpPi, wp_target, wall_of_abs (x := x 0) (by linarith) (by linarith), wall_of_abs (x := x 1) (by linarith) (by linarith),
    wall_of_abs (x := x 2) (by linarith) x6, if_neg hnu]
  simp

theorem wpPi_fin (C : ℝ) : ∫⁻ x, wpPi C x ∂(Measure.pi fun _ : Fin 3 => volume) ≠ ∞ := by
  refine ne_top_of_le_ne_top (ENNReal.mul_ne_top (a := ENNReal.ofReal (Real.exp |C|)) ENNReal.ofReal_ne_top wp_bound_fin) ?_
  rw [← lintegral_const_mul' _ _ ENNReal.ofReal_ne_top]
  refine lintegral_mono fun x => ?_
  rw [← ENNReal.ofReal_mul (Real.exp_pos _).le, ← Real.exp_add]
  refine ENNReal.ofReal_le_ofReal (Real.exp_le_exp.mpr ?_)
  rw [wp_target, wpBound]
  have a1 := abs_nonneg (x 1 0)
  have a2 := le_abs_self (x 1 0)
  have a3 := le_abs_self C
  have a4 := abs_nonneg C
  split_ifs
  · rcases posStep_cases (x 0) with h | h <;> rw [h] <;> linarith
  · linarith

/-! ## The comparison -/

variable {resampling : Resampling Ex N} {mv : AncestorMove Ex N}

/-- The two kernels on the test function. -/
noncomputable abbrev wpK (fix : Bool) (C : ℝ) (key : Key) (resampling : Resampling Ex N) (mv : AncestorMove Ex N)
    (x : Fin 3 → Vec 1) (b : Fin 3 → Fin (N + 1)) : ℝ≥0∞ :=
  als_kernelF (n := 0) (wpFix fix) key x b wall (fun _ => 0) (parentGamma C) parentGrad0 parentGrad1 (fun t => t) (fun _ => 2)
      (fun _ => 2) resampling mv true (fun r => offNeg (r.1 1))

/-- The bound on the effect of the wrong parents where they help. -/
noncomputable def wpM0 (N : ℕ) : ℝ≥0∞ := ENNReal.ofReal ((N + 1) ^ 3) *
  (∫⁻ x, ENNReal.ofReal (Real.exp (wpBound x)) ∂(Measure.pi fun _ : Fin 3 => volume)) *
    ∫⁻ e, ENNReal.ofReal (Real.exp (3 * |e 1 0|)) ∂wpAuxM

theorem wpM0_fin : wpM0 N ≠ ∞ := ENNReal.mul_ne_top (ENNReal.mul_ne_top ENNReal.ofReal_ne_top wp_bound_fin) wp_moment

theorem wp_pos_int (C : ℝ) (x : Fin 3 → Vec 1) :
    wpPi C x * ∫⁻ e, wpPos N C (wpU x e 1) (x 0) (x 1) ∂wpAuxM ≤
    ENNReal.ofReal ((N + 1) ^ 3 * Real.exp (-C)) * ENNReal.ofReal (Real.exp (wpBound x)) *
      ∫⁻ e, ENNReal.ofReal (Real.exp (3 * |e 1 0|)) ∂wpAuxM := by
  rw [← lintegral_const_mul' _ _ ENNReal.ofReal_ne_top,
    ← lintegral_const_mul' _ _ (ENNReal.mul_ne_top ENNReal.ofReal_ne_top ENNReal.ofReal_ne_top)]
  exact lintegral_mono fun e => wp_pos_le C x e

open Classical in
theorem wp_target_le (C : ℝ) (key : Key) (b : Fin 3 → Fin (N + 1))
    (hR : ∀ key, CondResampling fun w i j => resampling key w i j true)
    (hm : ∀ key, MoveKer (moveIndex mv key)) (hm' : ∀ key, MoveMass (moveIndex mv key)) :
    ∫⁻ x, wpPi C x * wpK false C key resampling mv x b ∂(Measure.pi fun _ : Fin 3 => volume) +
      (if b 0 = b 1 ∧ b 2 ≠ b 1 then ENNReal.ofReal (wpGap N) *
        resampling (keysResampling key 2 0) (normalizeW fun _ => 0) (b 0) (b 1) true (onlyChild (b 0) (b 1)) * wpAuxM wpBoxE *
          wpNoise N (wpBoxP N) * (Measure.pi fun _ : Fin 3 => (volume : Measure (Vec 1))) wpBoxX else 0) ≤
    ∫⁻ x, wpPi C x * wpK true C key resampling mv x b ∂(Measure.pi fun _ : Fin 3 => volume) +
      ENNReal.ofReal (Real.exp (-C)) * wpM0 N := by
  have hQ : Measurable fun x : Fin 3 → Vec 1 => ENNReal.ofReal ((N + 1) ^ 3 * Real.exp (-C)) * ENNReal.ofReal (Real.exp (wpBound x)) *
      ∫⁻ e, ENNReal.ofReal (Real.exp (3 * |e 1 0|)) ∂wpAuxM := by
    have := measurable_wpBound
    fun_prop
  have hI : ENNReal.ofReal (Real.exp (-C)) * wpM0 N = ∫⁻ x, ENNReal.ofReal ((N + 1) ^ 3 * Real.exp (-C)) *
      ENNReal.ofReal (Real.exp (wpBound x)) * (∫⁻ e, ENNReal.ofReal (Real.exp (3 * |e 1 0|)) ∂wpAuxM)
        ∂(Measure.pi fun _ : Fin 3 => volume) := by
    rw [lintegral_mul_const' _ _ wp_moment, lintegral_const_mul' _ _ ENNReal.ofReal_ne_top, wpM0,
      ENNReal.ofReal_mul (by positivity)]
    ring
  have hL : (if b 0 = b 1 ∧ b 2 ≠ b 1 then ENNReal.ofReal (wpGap N) *
        resampling (keysResampling key 2 0) (normalizeW fun _ => 0) (b 0) (b 1) true (onlyChild (b 0) (b 1)) * wpAuxM wpBoxE *
          wpNoise N (wpBoxP N) * (Measure.pi fun _ : Fin 3 => (volume : Measure (Vec 1))) wpBoxX else 0) ≤
      ∫⁻ x, wpPi C x * (if (b 0 = b 1 ∧ b 2 ≠ b 1) ∧ x ∈ wpBoxX then ENNReal.ofReal (wpGap N) *
        resampling (keysResampling key 2 0) (normalizeW fun _ => 0) (b 0) (b 1) true (onlyChild (b 0) (b 1)) * wpAuxM wpBoxE *
          wpNoise N (wpBoxP N) else 0) ∂(Measure.pi fun _ : Fin 3 => volume) := by
    by_cases hb : b 0 = b 1 ∧ b 2 ≠ b 1
    · rw [if_pos hb, ← lintegral_indicator_const isOpen_wpBoxX.measurableSet]
      refine lintegral_mono fun x => ?_
      by_cases hx : x ∈ wpBoxX
      · rw [Set.indicator_of_mem hx, if_pos ⟨hb, hx⟩, wpPi_box C hx, one_mul]
      · rw [Set.indicator_of_notMem hx]; exact zero_le
    · rw [if_neg hb]; exact zero_le
  refine (add_le_add le_rfl hL).trans ((le_lintegral_add _ _).trans ?_)
  rw [hI, ← lintegral_add_right _ hQ]
  refine lintegral_mono fun x => ?_
  simp only [← mul_add]
  refine (mul_le_mul' le_rfl (wp_kernel_le C key x b hR hm hm')).trans ?_
  rw [mul_add]
  exact add_le_add le_rfl (wp_pos_int C x)

theorem normalizeW_zero : (normalizeW fun _ : Fin (N + 1) => (0 : ℝ)) = fun _ => 1 / (N + 1 : ℝ) := by
  funext i
  rw [normalize_eq]
  simp

/-- The loss. -/
noncomputable def wpLoss (N : ℕ) (key : Key) (resampling : Resampling Ex N) : ℝ≥0∞ := ENNReal.ofReal (wpGap N) *
  resampling (keysResampling key 2 0) (fun _ => 1 / (N + 1)) 0 0 true (onlyChild 0 0) * wpAuxM wpBoxE *
    wpNoise N (wpBoxP N) * (Measure.pi fun _ : Fin 3 => (volume : Measure (Vec 1))) wpBoxX

theorem onlyChild_eq : onlyChild (N := N) 0 0 = {A : Fin (N + 1) → Fin (N + 1) | ∀ k, k ≠ 0 → A k ≠ 0}.indicator 1 := by
  classical
  funext A
  rw [onlyChild, Set.indicator_apply]
  rfl

theorem wpLoss_pos (key : Key) (hS : ∀ key, CanLeaveAlone fun w i j => resampling key w i j true) : wpLoss N key resampling ≠ 0 := by
  have := hS (keysResampling key 2 0)
  rw [CanLeaveAlone, ← onlyChild_eq] at this
  rw [wpLoss]
  exact mul_ne_zero (mul_ne_zero (mul_ne_zero (mul_ne_zero (ENNReal.ofReal_pos.mpr wpGap_pos).ne' this) wpBoxE_pos) wpBoxP_pos) wpBoxX_pos

theorem wp_sum_le (hN : 1 ≤ N) (C : ℝ) (key : Key)
    (hR : ∀ key, CondResampling fun w i j => resampling key w i j true)
    (hm : ∀ key, MoveKer (moveIndex mv key)) (hm' : ∀ key, MoveMass (moveIndex mv key)) :
    ∑ b, ∫⁻ x, wpPi C x * wpK false C key resampling mv x b ∂(Measure.pi fun _ : Fin 3 => volume) + wpLoss N key resampling ≤
    ∑ b, ∫⁻ x, wpPi C x * wpK true C key resampling mv x b ∂(Measure.pi fun _ : Fin 3 => volume) +
      ENNReal.ofReal (Real.exp (-C)) * ((Fintype.card (Fin 3 → Fin (N + 1)) : ℝ≥0∞) * wpM0 N) := by
  classical
  have h := sum_le_sum fun b (_ : b ∈ univ) => wp_target_le C key b hR hm hm'
  simp only [sum_add_distrib] at h
  refine le_trans (add_le_add le_rfl ?_) (h.trans (add_le_add le_rfl ?_))
  · have hb : ((![0, 0, Fin.last N] : Fin 3 → Fin (N + 1)) 0 = (![0, 0, Fin.last N] : Fin 3 → Fin (N + 1)) 1 ∧
        (![0, 0, Fin.last N] : Fin 3 → Fin (N + 1)) 2 ≠ (![0, 0, Fin.last N] : Fin 3 → Fin (N + 1)) 1) := by
      refine ⟨rfl, ?_⟩
      show Fin.last N ≠ 0
      intro h
      have := congrArg Fin.val h
      simp at this
      omega
    refine le_trans ?_ (single_le_sum (fun b _ => zero_le) (mem_univ (![0, 0, Fin.last N] : Fin 3 → Fin (N + 1))))
    rw [if_pos hb, normalizeW_zero]
    exact le_rfl
  · rw [sum_const, card_univ, nsmul_eq_mul]
    exact le_of_eq (by ring)

theorem wpK_repaired (C : ℝ) (key : Key) (hR : ∀ key, CondResampling fun w i j => resampling key w i j true)
    (hmv : ∀ key, MoveInvariant (moveIndex mv key)) :
    ∑ b, ∫⁻ x, wpPi C x * wpK true C key resampling mv x b ∂(Measure.pi fun _ : Fin 3 => volume) =
      ∑ _b : Fin 3 → Fin (N + 1), ∫⁻ x, wpPi C x * offNeg (x 1) ∂(Measure.pi fun _ : Fin 3 => volume) := by
  have h := C27_repaired_invariant (n := 0) key (fun t => t) (fun _ => 2) (ells := fun _ => 2) (resampling := resampling) (mv := mv)
    measurable_wall (measurable_parentGamma C) (measurable_const : Measurable fun _ : Vec 1 => (0 : Vec 1)) measurable_parentGrad0
    measurable_parentGrad1 (fun _ => two_pos) hR hmv true (fun r => offNeg (r.1 1))
    (measurable_offNeg.comp ((measurable_pi_apply 1).comp measurable_fst))
  have e : wpFix (N := N) true = alsFix := by funext F; rfl
  simp only [wpK, e]
  exact h

theorem wp_off_fin (C : ℝ) : ∑ _b : Fin 3 → Fin (N + 1), ∫⁻ x, wpPi C x * offNeg (x 1) ∂(Measure.pi fun _ : Fin 3 => volume) ≠ ∞ := by
  refine (ENNReal.sum_lt_top.mpr fun b _ => lt_of_le_of_lt (lintegral_mono fun x => ?_) (wpPi_fin C).lt_top).ne
  have : offNeg (x 1) ≤ 1 := by
    rw [offNeg]; split_ifs <;> simp
  exact (mul_le_mul' le_rfl this).trans (mul_one _).le

/-- The kernel of the code does not keep the mass off `(-1, 0)` at time one. -/
theorem wp_ne (hN : 1 ≤ N) (key : Key)
    (hR : ∀ key, CondResampling fun w i j => resampling key w i j true)
    (hS : ∀ key, CanLeaveAlone fun w i j => resampling key w i j true)
    (hmv : ∀ key, MoveInvariant (moveIndex mv key)) (hm' : ∀ key, MoveMass (moveIndex mv key)) :
    ∃ C₀ : ℝ, ∀ C, C₀ ≤ C →
      ∑ b, ∫⁻ x, wpPi C x * wpK false C key resampling mv x b ∂(Measure.pi fun _ : Fin 3 => volume) ≠
      ∑ _b : Fin 3 → Fin (N + 1), ∫⁻ x, wpPi C x * offNeg (x 1) ∂(Measure.pi fun _ : Fin 3 => volume) := by
  set M := (Fintype.card (Fin 3 → Fin (N + 1)) : ℝ≥0∞) * wpM0 N with hM
  have hMf : M ≠ ∞ := ENNReal.mul_ne_top (ENNReal.natCast_ne_top _) wpM0_fin
  have hpos := wpLoss_pos (resampling := resampling) key hS
  have ht : Filter.Tendsto (fun C : ℝ => ENNReal.ofReal (Real.exp (-C)) * M) Filter.atTop (𝓝 0) := by
    have h1 : Filter.Tendsto (fun C : ℝ => ENNReal.ofReal (Real.exp (-C))) Filter.atTop (𝓝 0) := by
      have := ENNReal.tendsto_ofReal (Real.tendsto_exp_neg_atTop_nhds_zero)
      rwa [ENNReal.ofReal_zero] at this
    have := ENNReal.Tendsto.mul_const h1 (b := M) (Or.inr hMf)
    rwa [zero_mul] at this
  have hev := ht.eventually_lt_const (pos_iff_ne_zero.mpr hpos)
  obtain ⟨C₀, hC₀⟩ := Filter.eventually_atTop.mp hev
  refine ⟨C₀, fun C hC heq => ?_⟩
  have h := wp_sum_le hN C key hR (fun key => (hmv key).ker) hm' (mv := mv)
  rw [heq, wpK_repaired C key hR hmv] at h
  have h' := (ENNReal.add_le_add_iff_left (wp_off_fin C)).mp h
  exact absurd (hC₀ C hC) (not_lt.mpr h')

end Verif
