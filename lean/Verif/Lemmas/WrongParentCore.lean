import Verif.Lemmas.WrongParent

/-!
# The selection at time one with right and with wrong parents
-/

open scoped ENNReal
open MeasureTheory ProbabilityTheory Finset

namespace Verif
open Verif.Spec Verif.Model Verif.Props

variable {N : ℕ}

/-- The interval `(-1, 0)`. -/
def InNeg (x : Vec 1) : Prop := -1 < x 0 ∧ x 0 < 0

noncomputable instance (x : Vec 1) : Decidable (InNeg x) := Classical.propDecidable _

/-- The test function: zero on `(-1, 0)`, one elsewhere. -/
noncomputable def offNeg (x : Vec 1) : ℝ≥0∞ := if InNeg x then 0 else 1

theorem InNeg.not_unit {x : Vec 1} (h : InNeg x) : ¬InUnit x := fun h' => absurd h'.1 (not_le.mpr h.2)

theorem wall_inNeg {x : Vec 1} (h : InNeg x) : wall x = 0 := by
  have : ⌊x 0 ^ 2⌋ = 0 := by
    rw [Int.floor_eq_iff]
    have h1 := h.1; have h2 := h.2
    constructor
    · push_cast; positivity
    · push_cast; nlinarith
  rw [wall, this]; simp

theorem wall_nonpos (x : Vec 1) : wall x ≤ 0 := by
  have : (0 : ℤ) ≤ ⌊x 0 ^ 2⌋ := Int.floor_nonneg.mpr (by positivity)
  have : (0 : ℝ) ≤ ⌊x 0 ^ 2⌋ := by exact_mod_cast this
  rw [wall]; linarith

section
variable (C : ℝ) (u : Vec 1) (X0 X1 : PA (Vec 1) N) (A0 par : Anc N)

/-- Number of particles in `(-1, 0)`. -/
noncomputable def wpM (X1 : PA (Vec 1) N) : ℝ := ∑ i, if InNeg (X1 i) then 1 else 0

/-- Total weight of the other particles. -/
noncomputable def wpS : ℝ := ∑ i, if InNeg (X1 i) then 0 else Real.exp (wpLog C u X0 X1 A0 par i)

theorem wpM_nonneg : 0 ≤ wpM X1 := sum_nonneg fun i _ => by split_ifs <;> norm_num

theorem wpM_le : wpM X1 ≤ N + 1 := by
  refine (sum_le_sum fun i _ => (by split_ifs <;> norm_num : (if InNeg (X1 i) then (1 : ℝ) else 0) ≤ 1)).trans ?_
  simp

theorem wpS_nonneg : 0 ≤ wpS C u X0 X1 A0 par := sum_nonneg fun i _ => by split_ifs; exacts [le_rfl, (Real.exp_pos _).le]

theorem wp_sum : ∑ i, Real.exp (wpLog C u X0 X1 A0 par i) = wpM X1 + wpS C u X0 X1 A0 par := by
  rw [wpM, wpS, ← sum_add_distrib]
  refine sum_congr rfl fun i _ => ?_
  by_cases h : InNeg (X1 i)
  · rw [if_pos h, if_pos h, add_zero, wpLog, wpLw, wpInc, if_neg h.not_unit, if_neg h.not_unit, wall_inNeg h, add_zero, Real.exp_zero]
  · rw [if_neg h, if_neg h, zero_add]

theorem wp_sum_pos : 0 < wpM X1 + wpS C u X0 X1 A0 par := by
  rw [← wp_sum]
  exact sum_pos (fun i _ => Real.exp_pos _) ⟨0, mem_univ _⟩

theorem wpSel_eq : wpSel offNeg C u X0 X1 A0 par =
    ENNReal.ofReal (wpS C u X0 X1 A0 par / (wpM X1 + wpS C u X0 X1 A0 par)) := by
  rw [wpS, sum_div, ENNReal.ofReal_sum_of_nonneg, wpSel]
  · refine sum_congr rfl fun i _ => ?_
    by_cases h : InNeg (X1 i)
    · rw [if_pos h, offNeg, if_pos h, mul_zero, zero_div, ENNReal.ofReal_zero]
    · rw [if_neg h, offNeg, if_neg h, mul_one, normalize_eq, wp_sum]
      rfl
  · intro i _
    have := (wp_sum_pos C u X0 X1 A0 par).le
    split_ifs
    · rw [zero_div]
    · exact div_nonneg (Real.exp_pos _).le this

theorem wpSel_le_one : wpSel offNeg C u X0 X1 A0 par ≤ 1 := by
  rw [wpSel_eq, ENNReal.ofReal_le_one]
  rw [div_le_one (wp_sum_pos C u X0 X1 A0 par)]
  linarith [wpM_nonneg X1]

variable {C u X0 X1 A0 par}

theorem wpInc_le {y y' : Vec 1} {x : Vec 1} (h : InUnit x → posStep y = 1 → posStep y' = 1) : wpInc u y' x ≤ wpInc u y x := by
  unfold wpInc
  split_ifs with hx
  · rcases posStep_cases y with e | e
    · rcases posStep_cases y' with e' | e' <;> simp [e, e']
    · rw [h hx e, e]
  · exact le_rfl

theorem wpS_le (h : ∀ i, InUnit (X1 i) → posStep (X0 (A0 i)) = 1 → posStep (X0 (par i)) = 1) :
    wpS C u X0 X1 A0 par ≤ wpS C u X0 X1 A0 A0 := by
  refine sum_le_sum fun i _ => ?_
  split_ifs
  · exact le_rfl
  · refine Real.exp_le_exp.mpr ?_
    unfold wpLog
    linarith [wpInc_le (u := u) (h i)]

/-- If the particles of high weight keep parents that are positive, wrong parents make the test function smaller. -/
theorem wpSel_mono (h : ∀ i, InUnit (X1 i) → posStep (X0 (A0 i)) = 1 → posStep (X0 (par i)) = 1) :
    wpSel offNeg C u X0 X1 A0 par ≤ wpSel offNeg C u X0 X1 A0 A0 := by
  rw [wpSel_eq, wpSel_eq]
  refine ENNReal.ofReal_le_ofReal ?_
  have h1 := wpS_le (C := C) (u := u) h
  have h2 := wp_sum_pos C u X0 X1 A0 par
  have h3 := wp_sum_pos C u X0 X1 A0 A0
  rw [div_le_div_iff₀ h2 h3]
  nlinarith [wpM_nonneg X1]

/-- If some particle has high weight the mean of the test function is close to one. -/
theorem wpSel_big {i : Fin (N + 1)} (hi : InUnit (X1 i)) (hp : posStep (X0 (A0 i)) = 1) :
    1 ≤ wpSel offNeg C u X0 X1 A0 A0 + ENNReal.ofReal ((N + 1) * Real.exp (-(C + 2 * u 0 - 2))) := by
  have h3 := wp_sum_pos C u X0 X1 A0 A0
  have hS : Real.exp (C + 2 * u 0 - 2) ≤ wpS C u X0 X1 A0 A0 := by
    have := single_le_sum (f := fun i => if InNeg (X1 i) then 0 else Real.exp (wpLog C u X0 X1 A0 A0 i)) (fun i _ => by
      show 0 ≤ if InNeg (X1 i) then 0 else Real.exp (wpLog C u X0 X1 A0 A0 i)
      split_ifs; exacts [le_rfl, (Real.exp_pos _).le]) (mem_univ i)
    refine le_trans (le_of_eq ?_) this
    show _ = if InNeg (X1 i) then 0 else Real.exp (wpLog C u X0 X1 A0 A0 i)
    rw [if_neg fun h => h.not_unit hi, wpLog, wpLw, wpInc, if_pos hi, if_pos hi, hp]
    congr 1; ring
  rw [wpSel_eq, ← ENNReal.ofReal_add (div_nonneg (wpS_nonneg C u X0 X1 A0 A0) h3.le) (by positivity), ENNReal.one_le_ofReal]
  have e1 : Real.exp (-(C + 2 * u 0 - 2)) * Real.exp (C + 2 * u 0 - 2) = 1 := by rw [← Real.exp_add]; simp
  have hE := Real.exp_pos (-(C + 2 * u 0 - 2))
  have hM := wpM_le X1
  have hM0 := wpM_nonneg X1
  set E := Real.exp (-(C + 2 * u 0 - 2))
  have h4 : wpM X1 ≤ (N + 1) * E * (wpM X1 + wpS C u X0 X1 A0 A0) := by
    have h5 : 1 ≤ E * wpS C u X0 X1 A0 A0 := by rw [← e1]; exact mul_le_mul_of_nonneg_left hS hE.le
    have h6 : (N + 1 : ℝ) * 1 ≤ (N + 1) * (E * wpS C u X0 X1 A0 A0) := mul_le_mul_of_nonneg_left h5 (by positivity)
    have h7 : 0 ≤ (N + 1 : ℝ) * (E * wpM X1) := by positivity
    nlinarith
  rw [div_add' _ _ _ h3.ne', le_div_iff₀ h3]
  linarith

/-- The gap in the situation where a particle is given a wrong, positive, parent. -/
noncomputable def wpGap (N : ℕ) : ℝ := Real.exp (-2) * (1 - Real.exp (-1)) / (N + 1) ^ 2

theorem wpGap_pos : 0 < wpGap N := by
  have : Real.exp (-1) < 1 := by rw [Real.exp_lt_one_iff]; norm_num
  unfold wpGap
  have : 0 < 1 - Real.exp (-1) := by linarith
  have := Real.exp_pos (-2)
  positivity

theorem wpSel_gap {b k : Fin (N + 1)} (hb : InNeg (X1 b)) (hE : ∀ i, i ≠ b → InUnit (X1 i))
    (hp : ∀ i, i ≠ b → posStep (X0 (A0 i)) = 0) (hk : k ≠ b) (hpk : posStep (X0 (par k)) = 1) (hu : -1 ≤ u 0) (hu' : u 0 ≤ 1 / 2) :
    wpSel offNeg C u X0 X1 A0 par + ENNReal.ofReal (wpGap N) ≤ wpSel offNeg C u X0 X1 A0 A0 := by
  have hM : wpM X1 = 1 := by
    rw [wpM, sum_eq_single b, if_pos hb]
    · intro i _ hi; rw [if_neg fun h => h.not_unit (hE i hi)]
    · intro h; exact absurd (mem_univ b) h
  set q := Real.exp (u 0 - 1 / 2) with hq
  have hq0 : 0 < q := Real.exp_pos _
  have hq1 : q ≤ 1 := Real.exp_le_one_iff.mpr (by linarith)
  have hq2 : Real.exp (-2) ≤ q := Real.exp_le_exp.mpr (by linarith)
  set r := Real.exp (-1) with hr
  have hr1 : r < 1 := by rw [hr, Real.exp_lt_one_iff]; norm_num
  have hr0 : 0 < r := Real.exp_pos _
  have hS1 : wpS C u X0 X1 A0 A0 ≤ N := by
    have : wpS C u X0 X1 A0 A0 = ∑ i, if i = b then 0 else q := by
      refine sum_congr rfl fun i _ => ?_
      by_cases hi : i = b
      · rw [if_pos hi, hi, if_pos hb]
      · rw [if_neg hi, if_neg fun h => h.not_unit (hE i hi), wpLog, wpLw, wpInc, if_pos (hE i hi), if_pos (hE i hi), hp i hi, hq]
        congr 1; ring
    rw [this, ← sum_erase_add _ _ (mem_univ b), if_pos rfl, add_zero]
    refine (sum_le_card_nsmul _ _ 1 fun i hi => ?_).trans ?_
    · rw [if_neg (ne_of_mem_erase hi)]; exact hq1
    · rw [card_erase_of_mem (mem_univ b), card_univ, Fintype.card_fin]; simp
  have hS2 : wpS C u X0 X1 A0 par + q * (1 - r) ≤ wpS C u X0 X1 A0 A0 := by
    rw [wpS, wpS, ← sum_erase_add _ _ (mem_univ k), ← sum_erase_add univ (fun i => if InNeg (X1 i) then 0 else
      Real.exp (wpLog C u X0 X1 A0 A0 i)) (mem_univ k), add_assoc]
    refine add_le_add (sum_le_sum fun i _ => ?_) (le_of_eq ?_)
    · split_ifs with hi
      · exact le_rfl
      · refine Real.exp_le_exp.mpr ?_
        unfold wpLog
        have hib : i ≠ b := fun h => hi (h ▸ hb)
        linarith [wpInc_le (u := u) (y := X0 (A0 i)) (y' := X0 (par i)) (x := X1 i) fun _ h => by
          rw [hp i hib] at h; norm_num at h]
    · rw [if_neg fun h => h.not_unit (hE k hk), if_neg fun h => h.not_unit (hE k hk), wpLog, wpLog, wpLw, wpInc, wpInc,
        if_pos (hE k hk), if_pos (hE k hk), if_pos (hE k hk), hp k hk, hpk]
      have e1 : Real.exp (0 * (C + u 0 - 1 / 2) + (u 0 - 1 / 2 - 1)) = q * r := by
        rw [hq, hr, ← Real.exp_add]; congr 1; ring
      have e2 : Real.exp (0 * (C + u 0 - 1 / 2) + (u 0 - 1 / 2 - 0)) = q := by
        rw [hq]; congr 1; ring
      rw [e1, e2]; ring
  have hS0 := wpS_nonneg C u X0 X1 A0 par
  rw [wpSel_eq, wpSel_eq, hM, ← ENNReal.ofReal_add (div_nonneg hS0 (by linarith)) wpGap_pos.le]
  refine ENNReal.ofReal_le_ofReal ?_
  set a := wpS C u X0 X1 A0 par
  set c := wpS C u X0 X1 A0 A0
  have hN : (0 : ℝ) < N + 1 := by positivity
  have hac : a ≤ c := by nlinarith [mul_pos hq0 (sub_pos.mpr hr1)]
  have h1 : c / (1 + c) - a / (1 + a) = (c - a) / ((1 + c) * (1 + a)) := by
    have : 1 + a ≠ 0 := by linarith
    have : 1 + c ≠ 0 := by linarith
    field_simp; ring
  have h2 : wpGap N ≤ (c - a) / ((1 + c) * (1 + a)) := by
    unfold wpGap
    have hnum : Real.exp (-2) * (1 - r) ≤ c - a := by
      have : Real.exp (-2) * (1 - r) ≤ q * (1 - r) := mul_le_mul_of_nonneg_right hq2 (by linarith)
      linarith
    refine div_le_div₀ (by linarith) hnum (by nlinarith) ?_
    rw [sq]
    exact mul_le_mul (by linarith) (by linarith) (by linarith) hN.le
  linarith

end

end Verif
