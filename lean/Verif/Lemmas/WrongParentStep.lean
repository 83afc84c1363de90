import Verif.Lemmas.WrongParentCore

/-!
# The resampling steps
-/

open scoped ENNReal
open MeasureTheory ProbabilityTheory Finset

namespace Verif
open Verif.Spec Verif.Model Verif.Props

variable {N : ℕ}

section
variable {R : (Fin (N + 1) → ℝ) → Fin (N + 1) → Fin (N + 1) → Ex (Anc N)}

/-- Monotone on the ancestor vectors that can occur. -/
theorem Spec.CondResampling.mono_pinned (hR : CondResampling R) {w : Fin (N + 1) → ℝ} (hw : IsProb w) (hp : ∀ i, 0 < w i)
    (i j : Fin (N + 1)) {f g : Anc N → ℝ≥0∞} (h : ∀ a, a j = i → f a ≤ g a) : R w i j f ≤ R w i j g := by
  classical
  have e1 : R w i j f = R w i j fun a => if a j = i then f a else 0 := hR.pinned hw hp i j fun a ha => (if_pos ha).symm
  have e2 : R w i j g = R w i j fun a => if a j = i then g a else 0 := hR.pinned hw hp i j fun a ha => (if_pos ha).symm
  rw [e1, e2]
  refine hR.ker.mono (w, i, j) (measurable_of_finite _) (measurable_of_finite _) fun a => ?_
  split_ifs with ha
  · exact h a ha
  · exact le_rfl

/-- The probability that a child has parent `l` is at most the ratio of the weights. -/
theorem Spec.CondResampling.parent_le (hR : CondResampling R) {w : Fin (N + 1) → ℝ} (hw : IsProb w) (hp : ∀ i, 0 < w i)
    (i j k l : Fin (N + 1)) : R w i j (fun a => if a k = l then 1 else 0) ≤ ENNReal.ofReal (w l / w i) := by
  have h1 := hR.Ulaw_mul hw hp i j fun a => if a k = l then 1 else 0
  have h2 := hR.Ulaw_marginal hw hp k fun m => if m = l then 1 else 0
  have h3 : ENNReal.ofReal (w i) * R w i j (fun a => if a k = l then 1 else 0) ≤ ENNReal.ofReal (w l) := by
    rw [h1]
    refine le_trans (sum_le_sum fun a _ => (?_ : _ ≤ Ulaw R w a * if a k = l then 1 else 0)) (le_of_eq (h2.trans ?_))
    · refine mul_le_mul_right ?_ _
      split_ifs <;> simp
    · simp
  rw [ENNReal.ofReal_div_of_pos (hp i), ENNReal.le_div_iff_mul_le (Or.inl (by simpa using hp i)) (Or.inl ENNReal.ofReal_ne_top),
    mul_comm]
  exact h3

theorem Spec.CondResampling.const (hR : CondResampling R) {w : Fin (N + 1) → ℝ} (hw : IsProb w) (i j : Fin (N + 1)) (c : ℝ≥0∞) :
    R w i j (fun _ => c) = c := by
  have := hR.ker.const_fun (w, i, j) c
  simp only [hR.mass w hw, mul_one] at this
  exact this

end

/-- Bound on the probability that a particle of high weight gets a wrong parent, times the mean of the test function. -/
noncomputable def wpPos (N : ℕ) (C : ℝ) (u x0 x1 : Vec 1) : ℝ≥0∞ :=
  ENNReal.ofReal ((N + 1) * Real.exp (-(C + 2 * u 0 - 2))) *
    if InUnit x1 ∧ 0 < x0 0 then ENNReal.ofReal ((N + 1) ^ 2 * Real.exp (-(C + u 0 - 1 / 2))) else 1

/-- The particles for which the wrong parents have an effect of known sign. -/
structure WpBox (b : Fin 3 → Fin (N + 1)) (u : Vec 1) (X0 X1 : PA (Vec 1) N) : Prop where
  ne : b 2 ≠ b 1
  eq : b 0 = b 1
  pos : InUnit (X0 (b 0)) ∧ 0 < X0 (b 0) 0
  neg : ∀ i, i ≠ b 0 → InNeg (X0 i)
  neg1 : InNeg (X1 (b 1))
  unit : ∀ i, i ≠ b 1 → InUnit (X1 i)
  lo : -1 ≤ u 0
  hi : u 0 ≤ 1 / 2

noncomputable instance (b : Fin 3 → Fin (N + 1)) (u : Vec 1) (X0 X1 : PA (Vec 1) N) : Decidable (WpBox b u X0 X1) :=
  Classical.propDecidable _

/-- No child other than particle `j` has parent `i`. -/
noncomputable def onlyChild (i j : Fin (N + 1)) (A : Anc N) : ℝ≥0∞ := by
  classical exact if ∀ k, k ≠ j → A k ≠ i then 1 else 0

theorem posStep_inNeg {x : Vec 1} (h : InNeg x) : posStep x = 0 := by
  rw [posStep, if_neg (not_lt.mpr h.2.le)]

theorem posStep_eq_one {x : Vec 1} : posStep x = 1 ↔ 0 < x 0 := by
  unfold posStep; split_ifs with h <;> simp [h]

theorem wpLw_le {C : ℝ} {u y x : Vec 1} (h : posStep y = 0) : wpLw C u y x ≤ 0 := by
  unfold wpLw
  split_ifs
  · rw [h, zero_mul]
  · exact wall_nonpos x

section
variable {R0 R1 : (Fin (N + 1) → ℝ) → Fin (N + 1) → Fin (N + 1) → Ex (Anc N)} {C : ℝ} {u : Vec 1} {X0 X1 : PA (Vec 1) N}

/-- Some child has a parent that is not positive. -/
noncomputable def wpBad (X0 : PA (Vec 1) N) (A0 A1 : Anc N) : ℝ≥0∞ :=
  ∑ k, ∑ l, if posStep (X0 (A0 l)) = 0 then (if A1 k = l then 1 else 0) else 0

theorem wpBad_ge {A0 A1 : Anc N} {k : Fin (N + 1)} (h : posStep (X0 (A0 (A1 k))) = 0) : 1 ≤ wpBad X0 A0 A1 := by
  refine le_trans ?_ (single_le_sum (f := fun k => ∑ l, if posStep (X0 (A0 l)) = 0 then (if A1 k = l then (1 : ℝ≥0∞) else 0) else 0)
    (fun _ _ => zero_le) (mem_univ k))
  refine le_trans ?_ (single_le_sum (f := fun l => if posStep (X0 (A0 l)) = 0 then (if A1 k = l then (1 : ℝ≥0∞) else 0) else 0)
    (fun _ _ => zero_le) (mem_univ (A1 k)))
  simp only [if_pos h, if_true, le_refl]

theorem wpSel_step (A0 A1 : Anc N) : wpSel offNeg C u X0 X1 A0 (fun i => A0 (A1 i)) ≤ wpSel offNeg C u X0 X1 A0 A0 +
    ENNReal.ofReal ((N + 1) * Real.exp (-(C + 2 * u 0 - 2))) * min 1 (wpBad X0 A0 A1) := by
  by_cases h : ∀ i, InUnit (X1 i) → posStep (X0 (A0 i)) = 1 → posStep (X0 (A0 (A1 i))) = 1
  · exact (wpSel_mono h).trans le_self_add
  · push Not at h
    obtain ⟨i, h1, h2, h3⟩ := h
    have h4 : posStep (X0 (A0 (A1 i))) = 0 := (posStep_cases _).resolve_right h3
    rw [min_eq_left (wpBad_ge h4), mul_one]
    exact (wpSel_le_one _ _ _ _ _ _).trans (wpSel_big h1 h2)

theorem wpBad_mean (hR : CondResampling R1) {i j : Fin (N + 1)} {A0 : Anc N} (hi : InUnit (X1 i)) (hp : posStep (X0 (A0 i)) = 1) :
    R1 (normalizeW fun i => wpLw C u (X0 (A0 i)) (X1 i)) i j (wpBad X0 A0) ≤
      ENNReal.ofReal ((N + 1) ^ 2 * Real.exp (-(C + u 0 - 1 / 2))) := by
  set w := normalizeW fun i => wpLw C u (X0 (A0 i)) (X1 i) with hwdef
  have hw : IsProb w := normalize_isProb _
  have hwp : ∀ i, 0 < w i := fun i => normalize_pos _ _
  have e : R1 w i j (wpBad X0 A0) = ∑ k, ∑ l, R1 w i j fun A1 => if posStep (X0 (A0 l)) = 0 then (if A1 k = l then 1 else 0) else 0 := by
    have h1 := hR.ker.sum (w, i, j) univ (f := fun k A1 => ∑ l, if posStep (X0 (A0 l)) = 0 then (if A1 k = l then (1 : ℝ≥0∞) else 0) else 0)
      fun _ _ => measurable_of_finite _
    refine h1.trans (sum_congr rfl fun k _ => ?_)
    exact hR.ker.sum (w, i, j) univ (f := fun l (A1 : Anc N) => if posStep (X0 (A0 l)) = 0 then (if A1 k = l then (1 : ℝ≥0∞) else 0) else 0)
      fun _ _ => measurable_of_finite _
  have hb : ∀ k l, (R1 w i j fun A1 => if posStep (X0 (A0 l)) = 0 then (if A1 k = l then 1 else 0) else 0) ≤
      ENNReal.ofReal (Real.exp (-(C + u 0 - 1 / 2))) := fun k l => by
    by_cases hl : posStep (X0 (A0 l)) = 0
    · simp only [if_pos hl]
      refine (hR.parent_le hw hwp i j k l).trans (ENNReal.ofReal_le_ofReal ?_)
      rw [hwdef, normalize_eq, normalize_eq, div_div_div_cancel_right₀ (sum_exp_pos _).ne', ← Real.exp_sub]
      refine Real.exp_le_exp.mpr ?_
      have h1 := wpLw_le (C := C) (u := u) (x := X1 l) hl
      have h2 : wpLw C u (X0 (A0 i)) (X1 i) = C + u 0 - 1 / 2 := by rw [wpLw, if_pos hi, hp, one_mul]
      linarith
    · simp only [if_neg hl]
      exact (hR.const hw i j 0).le.trans zero_le
  rw [e]
  refine (sum_le_sum fun k _ => sum_le_sum fun l _ => hb k l).trans (le_of_eq ?_)
  simp only [sum_const, card_univ, Fintype.card_fin, nsmul_eq_mul]
  rw [ENNReal.ofReal_mul (by positivity), ENNReal.ofReal_pow (by positivity), ← mul_assoc, sq]
  congr 2 <;>
  · rw [← Nat.cast_add_one, ENNReal.ofReal_natCast]

/-- The effect of the wrong parents after the second resampling step. -/
theorem wp_second (hR : CondResampling R1) {b : Fin 3 → Fin (N + 1)} {A0 : Anc N} (hA : A0 (b 1) = b 0) :
    (R1 (normalizeW fun i => wpLw C u (X0 (A0 i)) (X1 i)) (b 1) (b 2) fun A1 => wpSel offNeg C u X0 X1 A0 (wpPar false A0 A1)) +
      (if WpBox b u X0 X1 then ENNReal.ofReal (wpGap N) else 0) * onlyChild (b 0) (b 1) A0 ≤
    (R1 (normalizeW fun i => wpLw C u (X0 (A0 i)) (X1 i)) (b 1) (b 2) fun A1 => wpSel offNeg C u X0 X1 A0 (wpPar true A0 A1)) +
      wpPos N C u (X0 (b 0)) (X1 (b 1)) := by
  classical
  set w := normalizeW fun i => wpLw C u (X0 (A0 i)) (X1 i) with hwdef
  have hw : IsProb w := normalize_isProb _
  have hwp : ∀ i, 0 < w i := fun i => normalize_pos _ _
  have e1 : (R1 w (b 1) (b 2) fun A1 => wpSel offNeg C u X0 X1 A0 (wpPar true A0 A1)) = wpSel offNeg C u X0 X1 A0 A0 := hR.const hw _ _ (wpSel offNeg C u X0 X1 A0 A0)
  rw [e1]
  have e2 : (R1 w (b 1) (b 2) fun A1 => wpSel offNeg C u X0 X1 A0 (wpPar false A0 A1)) =
    R1 w (b 1) (b 2) fun A1 => wpSel offNeg C u X0 X1 A0 fun i => A0 (A1 i) := rfl
  rw [e2]
  by_cases hbox : WpBox b u X0 X1 ∧ ∀ k, k ≠ b 1 → A0 k ≠ b 0
  · obtain ⟨hbx, ho⟩ := hbox
    rw [if_pos hbx, onlyChild, if_pos ho, mul_one]
    refine le_trans ?_ le_self_add
    have h1 := hR.ker.add (w, b 1, b 2) (f := fun A1 => wpSel offNeg C u X0 X1 A0 fun i => A0 (A1 i))
      (g := fun _ => ENNReal.ofReal (wpGap N)) (measurable_of_finite _) (measurable_of_finite _)
    have h2 : R1 w (b 1) (b 2) (fun _ => ENNReal.ofReal (wpGap N)) = ENNReal.ofReal (wpGap N) := hR.const hw _ _ _
    rw [← h2]
    refine le_trans (le_of_eq h1.symm) ?_
    refine le_trans (hR.mono_pinned hw hwp (b 1) (b 2) (g := fun _ => wpSel offNeg C u X0 X1 A0 A0) fun A1 hA1 => ?_) (hR.const hw _ _ _).le
    refine wpSel_gap hbx.neg1 hbx.unit (fun i hi => posStep_inNeg (hbx.neg _ (ho i hi))) hbx.ne ?_ hbx.lo hbx.hi
    show posStep (X0 (A0 (A1 (b 2)))) = 1
    rw [hA1, hA, posStep_eq_one]
    exact hbx.pos.2
  · have hz : (if WpBox b u X0 X1 then ENNReal.ofReal (wpGap N) else 0) * onlyChild (b 0) (b 1) A0 = 0 := by
      by_cases hbx : WpBox b u X0 X1
      · rw [onlyChild, if_neg fun h => hbox ⟨hbx, h⟩, mul_zero]
      · rw [if_neg hbx, zero_mul]
    rw [hz, add_zero]
    refine le_trans (hR.ker.mono (w, b 1, b 2) (measurable_of_finite _) (measurable_of_finite _) fun A1 => wpSel_step A0 A1) ?_
    have h1 := hR.ker.add (w, b 1, b 2) (f := fun _ => wpSel offNeg C u X0 X1 A0 A0)
      (g := fun A1 => ENNReal.ofReal ((N + 1) * Real.exp (-(C + 2 * u 0 - 2))) * min 1 (wpBad X0 A0 A1)) (measurable_of_finite _) (measurable_of_finite _)
    have h3 := hR.ker.const_mul (w, b 1, b 2) (ENNReal.ofReal ((N + 1) * Real.exp (-(C + 2 * u 0 - 2)))) (f := fun A1 => min 1 (wpBad X0 A0 A1))
      (measurable_of_finite _)
    refine h1.le.trans ?_
    refine add_le_add (hR.const hw _ _ _).le (h3.le.trans ?_)
    unfold wpPos
    refine mul_le_mul_right ?_ _
    split_ifs with hH
    · refine le_trans (hR.ker.mono (w, b 1, b 2) (measurable_of_finite _) (measurable_of_finite _) fun A1 => min_le_right _ _) ?_
      exact wpBad_mean hR hH.1 (by rw [hA, posStep_eq_one]; exact hH.2)
    · refine le_trans (hR.ker.mono (w, b 1, b 2) (g := fun _ => 1) (measurable_of_finite _) (measurable_of_finite _) fun A1 => min_le_left _ _) ?_
      exact (hR.const hw _ _ 1).le

/-- The effect of the wrong parents after both resampling steps. -/
theorem wp_first (hR0 : CondResampling R0) (hR : CondResampling R1) (b : Fin 3 → Fin (N + 1)) (u : Vec 1) (X0 X1 : PA (Vec 1) N) :
    wpMean false offNeg C R0 R1 b u X0 X1 + (if WpBox b u X0 X1 then ENNReal.ofReal (wpGap N) *
      R0 (normalizeW fun _ => 0) (b 0) (b 1) (onlyChild (b 0) (b 1)) else 0) ≤
    wpMean true offNeg C R0 R1 b u X0 X1 + wpPos N C u (X0 (b 0)) (X1 (b 1)) := by
  set w := normalizeW fun i => wall (X0 i) with hwdef
  have hw : IsProb w := normalize_isProb _
  have hwp : ∀ i, 0 < w i := fun i => normalize_pos _ _
  have e : (if WpBox b u X0 X1 then ENNReal.ofReal (wpGap N) *
      R0 (normalizeW fun _ => 0) (b 0) (b 1) (onlyChild (b 0) (b 1)) else 0) =
      R0 w (b 0) (b 1) fun A0 => (if WpBox b u X0 X1 then ENNReal.ofReal (wpGap N) else 0) * onlyChild (b 0) (b 1) A0 := by
    have h3 := hR0.ker.const_mul (w, b 0, b 1) (if WpBox b u X0 X1 then ENNReal.ofReal (wpGap N) else 0) (f := onlyChild (b 0) (b 1))
      (measurable_of_finite _)
    refine Eq.trans ?_ h3.symm
    by_cases hb : WpBox b u X0 X1
    · rw [if_pos hb, if_pos hb]
      have : (fun i => wall (X0 i)) = fun _ => 0 := funext fun i => by
        by_cases hi : i = b 0
        · rw [hi]; exact wall_inUnit hb.pos.1
        · exact wall_inNeg (hb.neg i hi)
      simp only [hwdef, this]
    · rw [if_neg hb, if_neg hb, zero_mul]
  rw [e]
  have h1 := hR0.ker.add (w, b 0, b 1) (f := fun A0 => R1 (normalizeW fun i => wpLw C u (X0 (A0 i)) (X1 i)) (b 1) (b 2) fun A1 =>
      wpSel offNeg C u X0 X1 A0 (wpPar false A0 A1)) (g := fun A0 => (if WpBox b u X0 X1 then ENNReal.ofReal (wpGap N) else 0) * onlyChild (b 0) (b 1) A0)
      (measurable_of_finite _) (measurable_of_finite _)
  have h2 := hR0.ker.add (w, b 0, b 1) (f := fun A0 => R1 (normalizeW fun i => wpLw C u (X0 (A0 i)) (X1 i)) (b 1) (b 2) fun A1 =>
      wpSel offNeg C u X0 X1 A0 (wpPar true A0 A1)) (g := fun _ => wpPos N C u (X0 (b 0)) (X1 (b 1)))
      (measurable_of_finite _) (measurable_of_finite _)
  have h3 : R0 w (b 0) (b 1) (fun _ => wpPos N C u (X0 (b 0)) (X1 (b 1))) = wpPos N C u (X0 (b 0)) (X1 (b 1)) := hR0.const hw _ _ _
  rw [← h3]
  refine le_trans (le_of_eq h1.symm) (le_trans ?_ (le_of_eq h2))
  exact hR0.mono_pinned hw hwp (b 0) (b 1) fun A0 hA => wp_second hR hA

end

end Verif
