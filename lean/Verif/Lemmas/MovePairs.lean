import Verif.Lemmas.Near
import Verif.Spec.Reversible

/-!
# Reversibility of the last moves, and how much they move
-/

open scoped ENNReal
open MeasureTheory Finset

namespace Verif
open Verif.Spec Verif.Model

variable {N : ℕ} {w : Fin (N + 1) → ℝ}

theorem barker_law (key : Key) (hw : IsProb w) (k : Fin (N + 1)) (f : Fin (N + 1) → ℝ≥0∞) :
    moveIndex (fun key w k => barker_move key w k) key w k f = ∑ i, ENNReal.ofReal (w i) * f i := by
  show ∑ i, catP w i * f i = _
  simp only [catP_of_isProb hw]

theorem barker_reversible (key : Key) :
    MoveReversible (N := N) (moveIndex (fun key w k => barker_move key w k) key) where
  ker := (barker_moveInvariant key).ker
  rev w hw _ H := by
    simp only [barker_law key hw, mul_sum]
    rw [sum_comm]
    exact sum_congr rfl fun k _ => sum_congr rfl fun l _ => by ring

theorem liu_reversible : MoveReversible (liuMove (N := N)) where
  ker := liuMove_ker
  rev w hw _ H := by
    simp only [liuMove, mul_add, sum_add_distrib, mul_sum]
    congr 1
    have e : ∀ F : Fin (N + 1) → Fin (N + 1) → ℝ≥0∞, ∀ k, ∑ l ∈ univ.erase k, F k l = ∑ l, if k = l then 0 else F k l := by
      intro F k
      rw [← Finset.add_sum_erase univ _ (mem_univ k), if_pos rfl, zero_add]
      exact sum_congr rfl fun l hl => by rw [if_neg (ne_of_mem_erase hl).symm]
    rw [sum_congr rfl fun k _ => e (fun k l => ENNReal.ofReal (w k) * (ENNReal.ofReal (liuQ w k l) * H k l)) k,
      sum_congr rfl fun k _ => e (fun k l => ENNReal.ofReal (w k) * (ENNReal.ofReal (liuQ w k l) * H l k)) k, sum_comm]
    refine sum_congr rfl fun k _ => sum_congr rfl fun l _ => ?_
    by_cases h : l = k
    · simp [h]
    · rw [if_neg h, if_neg (Ne.symm h), ← mul_assoc, ← mul_assoc, ← ENNReal.ofReal_mul (hw.nonneg l),
        ← ENNReal.ofReal_mul (hw.nonneg k), liuQ_balance]

theorem liuQ_ge (hw : IsProb w) {k l : Fin (N + 1)} (h : l ≠ k) : w l ≤ liuQ w k l := by
  have h1 := pair_le_one hw h
  have h2 := hw.nonneg l
  have h3 := hw.nonneg k
  have h4 : 0 < max (1 - w k) (1 - w l) := by
    rcases eq_or_lt_of_le (hw.le_one l) with e | e
    · exact lt_max_of_lt_left (by linarith)
    · exact lt_max_of_lt_right (by linarith)
  rw [liuQ, le_div_iff₀ h4]
  exact mul_le_of_le_one_right h2 (max_le (by linarith) (by linarith))

theorem sum_off {k : Fin (N + 1)} {c g : Fin (N + 1) → ℝ≥0∞} (hg : g k = 0) :
    ∑ l, c l * g l = ∑ l ∈ univ.erase k, c l * g l := by
  rw [← Finset.add_sum_erase univ _ (mem_univ k), hg, mul_zero, zero_add]

/-- The Metropolised Gibbs move moves more than the Barker move. -/
theorem barker_le_liu (key : Key) :
    MovesMore (N := N) (moveIndex (fun key w k => barker_move key w k) key) liuMove := by
  intro w hw k g hg
  rw [barker_law key hw, sum_off hg, liuMove, hg, mul_zero, add_zero]
  exact sum_le_sum fun l hl => mul_le_mul_left (ENNReal.ofReal_le_ofReal (liuQ_ge hw (ne_of_mem_erase hl))) _

/-- `force_move` moves more than the Barker move, except with probability `1e-12`. -/
theorem barker_le_force (key key' : Key) :
    MovesNearlyMore (N := N) (ENNReal.ofReal 1e-12) (moveIndex (fun key w k => barker_move key w k) key)
      (moveIndex (fun key w k => force_move key w k) key') := by
  intro w hw k g hg1 hg
  have e : moveIndex (fun key w k => force_move key w k) key' w k g =
      (∑ l ∈ univ.erase k, ENNReal.ofReal (forceQ w k l) * g l) +
      ENNReal.ofReal (1 - ∑ l ∈ univ.erase k, forceQ w k l) * g k := force_move_law' hw key' k (fun r => g r.1)
  rw [barker_law key hw, sum_off hg, e, hg, mul_zero, add_zero]
  by_cases hk : w k < forceThreshold (N + 1)
  · refine le_add_right (sum_le_sum fun l hl => mul_le_mul_left (ENNReal.ofReal_le_ofReal ?_) _)
    rw [forceQ_eq_liuQ hw (ne_of_mem_erase hl) hk]
    exact liuQ_ge hw (ne_of_mem_erase hl)
  · refine le_add_left ?_
    calc ∑ l ∈ univ.erase k, ENNReal.ofReal (w l) * g l ≤ ∑ l ∈ univ.erase k, ENNReal.ofReal (w l) :=
          sum_le_sum fun l _ => mul_le_of_le_one_right' (hg1 l)
      _ = ENNReal.ofReal (1 - w k) := by
          rw [← ENNReal.ofReal_sum_of_nonneg fun l _ => hw.nonneg l, sum_erase hw]
      _ ≤ ENNReal.ofReal 1e-12 := ENNReal.ofReal_le_ofReal (by
          have := forceThreshold_ge (N + 1)
          linarith [not_lt.mp hk])

/-- Inside its guard `force_move` moves less than the Barker move: two particles with weights `1 - a`, `a`, `a ≤ 1e-12`. -/
theorem force_moves_less (key key' : Key) {a : ℝ} (ha : 0 < a) (ha' : a ≤ 1e-13) :
    moveIndex (fun key w k => force_move key w k) key' (![1 - a, a] : Fin 2 → ℝ) 0 (fun l => if l = 1 then 1 else 0) <
      moveIndex (fun key w k => barker_move key w k) key (![1 - a, a] : Fin 2 → ℝ) 0 (fun l => if l = 1 then 1 else 0) := by
  have hw : IsProb (![1 - a, a] : Fin 2 → ℝ) :=
    ⟨fun i => by fin_cases i <;> simp <;> norm_num at ha' ⊢ <;> linarith, by simp⟩
  have e : ∀ g, moveIndex (fun key w k => force_move key w k) key' (![1 - a, a] : Fin 2 → ℝ) 0 g =
      (∑ l ∈ univ.erase (0 : Fin 2), ENNReal.ofReal (forceQ ![1 - a, a] 0 l) * g l) +
      ENNReal.ofReal (1 - ∑ l ∈ univ.erase (0 : Fin 2), forceQ ![1 - a, a] 0 l) * g 0 := fun g =>
    force_move_law' hw key' 0 (fun r => g r.1)
  have hu : univ.erase (0 : Fin 2) = {1} := by decide
  have eb : ∑ i, ENNReal.ofReal ((![1 - a, a] : Fin 2 → ℝ) i) * (if i = 1 then 1 else 0) = ENNReal.ofReal a := by
    rw [Fin.sum_univ_two]
    simp
  rw [e, barker_law key hw, hu, eb]
  simp only [sum_singleton, if_true, mul_one, Fin.isValue, zero_ne_one, if_false, mul_zero, add_zero]
  have hT : ¬ ((![1 - a, a] : Fin 2 → ℝ) 0 < forceThreshold (1 + 1)) := by
    simp only [not_lt, forceThreshold, Matrix.cons_val_zero]
    refine max_le ?_ (by norm_num at ha' ⊢; linarith)
    have : Real.exp (-1) ^ 2 = Real.exp (-((1 + 1 : ℕ) : ℝ)) := by
      rw [← Real.exp_nat_mul]; norm_num
    have h2 : (0.36787944116 : ℝ) < Real.exp (-1) := Real.exp_neg_one_gt_d9
    rw [← this]
    have h3 : (0.1 : ℝ) ≤ Real.exp (-1) ^ 2 := by nlinarith
    norm_num at ha' h3 ⊢
    linarith
  have hQ : forceQ (![1 - a, a] : Fin 2 → ℝ) 0 1 = a / (2 * (1 - a)) := by
    have h1 : ¬ (1 - a ≤ a) := by norm_num at ha' ⊢; linarith
    rw [forceQ, forceRest, forceAcc]
    simp only [hT, if_false]
    simp [h1]
    field_simp
    ring
  rw [hQ]
  refine (ENNReal.ofReal_lt_ofReal_iff ha).mpr ?_
  have h1 : 0 < 1 - a := by norm_num at ha' ⊢; linarith
  rw [div_lt_iff₀ (by linarith)]
  norm_num at ha'
  nlinarith

end Verif
