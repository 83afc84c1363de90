import Mathlib.Analysis.SpecialFunctions.Log.Basic
import Verif.Model.Common
import Verif.Lemmas.ResamplingLaw

/-!
# Exact law of `force_move`
-/

open scoped ENNReal
open MeasureTheory Finset

namespace Verif
open Model Spec

variable {n : ℕ}

/-- Probability that the proposal `i` is accepted by `force_move` from `k`. -/
noncomputable def forceAcc (w : Fin (n + 1) → ℝ) (k i : Fin (n + 1)) : ℝ :=
  if w k < 1 ∧ w k ≤ w i then 1 else (1 - w k) / (1 - w i)

theorem forceAcc_mem {w : Fin (n + 1) → ℝ} (hw : IsProb w) (k i : Fin (n + 1)) :
    0 ≤ forceAcc w k i ∧ forceAcc w k i ≤ 1 := by
  unfold forceAcc
  have hk := hw.le_one k
  have hi := hw.le_one i
  split_ifs with h
  · exact ⟨zero_le_one, le_rfl⟩
  · refine ⟨div_nonneg (by linarith) (by linarith), div_le_one_of_le₀ ?_ (by linarith)⟩
    rw [not_and_or] at h
    rcases h with h | h <;> linarith

theorem unifM_Ico {a : ℝ} (h1 : a ≤ 1) : unifM (Set.Iio a) = ENNReal.ofReal a := by
  have h2 : Set.Iio a ∩ Set.Ico 0 1 = Set.Ico 0 a := by
    ext u; simp only [Set.mem_inter_iff, Set.mem_Iio, Set.mem_Ico]
    constructor
    · rintro ⟨h, h', _⟩; exact ⟨h', h⟩
    · rintro ⟨h, h'⟩; exact ⟨h', h, h'.trans_le h1⟩
  rw [unifM, Measure.restrict_apply measurableSet_Iio, h2, Real.volume_Ico, sub_zero]

theorem unifM_accept {w : Fin (n + 1) → ℝ} (hw : IsProb w) (k i : Fin (n + 1)) :
    unifM {u | u * (1 - w i) < 1 - w k} = ENNReal.ofReal (forceAcc w k i) := by
  have hk := hw.le_one k
  have hi := hw.le_one i
  unfold forceAcc
  split_ifs with h
  · have : unifM {u : ℝ | u * (1 - w i) < 1 - w k} = unifM Set.univ := by
      have hms : MeasurableSet {u : ℝ | u * (1 - w i) < 1 - w k} :=
        measurableSet_lt (measurable_id.mul_const _) measurable_const
      rw [unifM, Measure.restrict_apply hms,
        Measure.restrict_apply MeasurableSet.univ, Set.univ_inter]
      congr 1
      ext u
      simp only [Set.mem_inter_iff, Set.mem_ofPred_eq, Set.mem_Ico, and_iff_right_iff_imp, and_imp]
      intro h0 h1
      rcases eq_or_lt_of_le hi with hi1 | hi1
      · rw [hi1]; simp [h.1]
      · have : u * (1 - w i) < 1 * (1 - w i) := mul_lt_mul_of_pos_right h1 (by linarith)
        linarith [h.2]
    rw [this, measure_univ, ENNReal.ofReal_one]
  · rcases eq_or_lt_of_le hi with hi1 | hi1
    · have hk1 : w k = 1 := by
        rw [hi1, not_and_or] at h
        rcases h with h | h <;> linarith
      simp [hi1, hk1]
    · have : {u : ℝ | u * (1 - w i) < 1 - w k} = Set.Iio ((1 - w k) / (1 - w i)) := by
        ext u; simp [lt_div_iff₀ (by linarith : 0 < 1 - w i)]
      rw [this, unifM_Ico]
      refine div_le_one_of_le₀ ?_ (by linarith)
      rw [not_and_or] at h
      rcases h with h | h <;> linarith

theorem forceThreshold_lt_one (M : ℕ) : forceThreshold M < 1 := by
  unfold forceThreshold
  refine max_lt ?_ (by norm_num)
  linarith [Real.exp_pos (-(M : ℝ))]

theorem forceThreshold_ge (M : ℕ) : 1 - 1e-12 ≤ forceThreshold M := le_max_right _ _

theorem forceRest_isProb {w : Fin (n + 1) → ℝ} (hw : IsProb w) (k : Fin (n + 1)) :
    IsProb (forceRest w k) := by
  unfold forceRest
  simp only
  split_ifs with h
  · have h1 : w k < 1 := h.trans (forceThreshold_lt_one _)
    refine ⟨fun i => ?_, ?_⟩
    · rw [atSet_apply]
      split_ifs
      · simp
      · exact div_nonneg (hw.nonneg i) (by linarith)
    · rw [← sum_div, div_eq_one_iff_eq (by linarith)]
      have h2 := Finset.add_sum_erase univ w (mem_univ k)
      have h3 := Finset.add_sum_erase univ (atSet w k 0) (mem_univ k)
      have : ∑ x ∈ univ.erase k, atSet w k 0 x = ∑ x ∈ univ.erase k, w x :=
        sum_congr rfl fun x hx => by rw [atSet_ne _ _ (ne_of_mem_erase hx)]
      rw [this, atSet_same] at h3
      have := hw.sum_one
      linarith
  · refine ⟨fun i => by positivity, ?_⟩
    simp
    field_simp

/-- The law of `force_move`. -/
theorem force_move_law {w : Fin (n + 1) → ℝ} (hw : IsProb w) (key : Key) (k : Fin (n + 1))
    (f : Fin (n + 1) × ℝ → ℝ≥0∞) :
    (force_move key w k : Ex _) f = ∑ i, ENNReal.ofReal (forceRest w k i) *
      (ENNReal.ofReal (forceAcc w k i) * f (i, forceAlpha w k) +
        ENNReal.ofReal (1 - forceAcc w k i) * f (k, forceAlpha w k)) := by
  show (∑ i, catP (forceRest w k) i * ∫⁻ u,
    f (if u * (1 - w i) < 1 - w k then i else k, forceAlpha w k) ∂unifM) = _
  refine sum_congr rfl fun i _ => ?_
  rw [catP_of_isProb (forceRest_isProb hw k)]
  congr 1
  have hms : MeasurableSet {u : ℝ | u * (1 - w i) < 1 - w k} :=
    measurableSet_lt (measurable_id.mul_const _) measurable_const
  rw [← lintegral_add_compl _ hms, setLIntegral_congr_fun (g := fun _ => f (i, forceAlpha w k)) hms,
    setLIntegral_congr_fun (g := fun _ => f (k, forceAlpha w k)) hms.compl, setLIntegral_const,
    setLIntegral_const, prob_compl_eq_one_sub hms, unifM_accept hw]
  · rw [mul_comm, mul_comm (f (k, _))]
    congr 2
    rw [ENNReal.ofReal_sub _ (forceAcc_mem hw k i).1, ENNReal.ofReal_one]
  · intro u hu
    have : ¬ (u * (1 - w i) < 1 - w k) := hu
    simp [this]
  · intro u hu
    have : (u * (1 - w i) < 1 - w k) := hu
    simp [this]

/-- Probability that `force_move` returns `l ≠ k` from `k`. -/
noncomputable def forceQ (w : Fin (n + 1) → ℝ) (k l : Fin (n + 1)) : ℝ :=
  forceRest w k l * forceAcc w k l

theorem forceQ_nonneg {w : Fin (n + 1) → ℝ} (hw : IsProb w) (k l : Fin (n + 1)) :
    0 ≤ forceQ w k l := mul_nonneg ((forceRest_isProb hw k).nonneg l) (forceAcc_mem hw k l).1

/-- The law of `force_move`, in terms of the probabilities of moving from `k` to `l ≠ k`. -/
theorem force_move_law' {w : Fin (n + 1) → ℝ} (hw : IsProb w) (key : Key) (k : Fin (n + 1))
    (f : Fin (n + 1) × ℝ → ℝ≥0∞) :
    (force_move key w k : Ex _) f =
      (∑ l ∈ univ.erase k, ENNReal.ofReal (forceQ w k l) * f (l, forceAlpha w k)) +
      ENNReal.ofReal (1 - ∑ l ∈ univ.erase k, forceQ w k l) * f (k, forceAlpha w k) := by
  have hr := forceRest_isProb hw k
  have hQ := forceQ_nonneg hw k
  rw [force_move_law hw, ← Finset.add_sum_erase univ _ (mem_univ k), ← add_mul,
    ← ENNReal.ofReal_add (forceAcc_mem hw k k).1 (by linarith [(forceAcc_mem hw k k).2])]
  have e1 : forceAcc w k k + (1 - forceAcc w k k) = 1 := by ring
  rw [e1, ENNReal.ofReal_one, one_mul]
  have e2 : ∀ i, ENNReal.ofReal (forceRest w k i) *
      (ENNReal.ofReal (forceAcc w k i) * f (i, forceAlpha w k) +
        ENNReal.ofReal (1 - forceAcc w k i) * f (k, forceAlpha w k)) =
      ENNReal.ofReal (forceQ w k i) * f (i, forceAlpha w k) +
        ENNReal.ofReal (forceRest w k i - forceQ w k i) * f (k, forceAlpha w k) := by
    intro i
    rw [mul_add, ← mul_assoc, ← mul_assoc, ← ENNReal.ofReal_mul (hr.nonneg i),
      ← ENNReal.ofReal_mul (hr.nonneg i)]
    congr 3
    rw [forceQ]; ring
  simp only [e2, sum_add_distrib, ← sum_mul]
  rw [add_comm, add_assoc, ← add_mul]
  congr 2
  have e3 : ∀ i ∈ univ.erase k, 0 ≤ forceRest w k i - forceQ w k i := by
    intro i _
    have := mul_le_mul_of_nonneg_left (forceAcc_mem hw k i).2 (hr.nonneg i)
    rw [forceQ]; linarith
  rw [← ENNReal.ofReal_sum_of_nonneg e3, ← ENNReal.ofReal_add (sum_nonneg e3) (hr.nonneg k)]
  congr 1
  rw [sum_sub_distrib]
  have := Finset.add_sum_erase univ (forceRest w k) (mem_univ k)
  rw [hr.sum_one] at this
  linarith

theorem forceQ_sum_le {w : Fin (n + 1) → ℝ} (hw : IsProb w) (k : Fin (n + 1)) :
    ∑ l ∈ univ.erase k, forceQ w k l ≤ 1 := by
  have hr := forceRest_isProb hw k
  calc ∑ l ∈ univ.erase k, forceQ w k l ≤ ∑ l ∈ univ.erase k, forceRest w k l :=
        sum_le_sum fun l _ => by
          have := mul_le_mul_of_nonneg_left (forceAcc_mem hw k l).2 (hr.nonneg l)
          rw [forceQ]; linarith
    _ ≤ ∑ l, forceRest w k l :=
        sum_le_sum_of_subset_of_nonneg (erase_subset _ _) fun i _ _ => hr.nonneg i
    _ = 1 := hr.sum_one

/-- `w` is outside the guarded regime of `force_move`. -/
def Unguarded (w : Fin (n + 1) → ℝ) (k : Fin (n + 1)) : Prop :=
  w k < forceThreshold (n + 1) ∨ w k = 1

theorem forceQ_balance {w : Fin (n + 1) → ℝ} (hw : IsProb w) {k l : Fin (n + 1)} (hkl : k ≠ l)
    (hk : Unguarded w k) (hl : Unguarded w l) :
    w k * forceQ w k l = w l * forceQ w l k := by
  have two : w k + w l ≤ 1 := by
    have := Finset.sum_le_sum_of_subset_of_nonneg (f := w) (subset_univ {k, l})
      fun i _ _ => hw.nonneg i
    rw [sum_pair hkl, hw.sum_one] at this; exact this
  have hkn := hw.nonneg k
  have hln := hw.nonneg l
  have ht := forceThreshold_lt_one (n + 1)
  have htp : 0 < forceThreshold (n + 1) :=
    lt_of_lt_of_le (by norm_num) (forceThreshold_ge (n + 1))
  have unfoldQ : ∀ a b, a ≠ b → w a < forceThreshold (n + 1) →
      forceQ w a b = w b / (1 - w a) * forceAcc w a b := by
    intro a b hab h
    simp only [forceQ, forceRest, h, if_true, atSet_ne _ _ hab.symm]
  have one : ∀ a b, w a + w b ≤ 1 → 0 ≤ w b → w a = 1 → w b * forceQ w b a = w a * forceQ w a b := by
    intro a b h hb ha
    have hb0 : w b = 0 := by linarith
    simp [forceQ, forceAcc, ha, hb0]
  rcases hk with hk | hk
  · rcases hl with hl | hl
    · rw [unfoldQ k l hkl hk, unfoldQ l k hkl.symm hl]
      have h1 : 0 < 1 - w k := by linarith
      have h2 : 0 < 1 - w l := by linarith
      unfold forceAcc
      by_cases hle : w k ≤ w l
      · rcases eq_or_lt_of_le hle with he | hlt
        · simp only [he, le_refl, and_true]
        · have : ¬ (w l ≤ w k) := not_le.mpr hlt
          simp only [hle, this, and_true, and_false, if_false,
            show w k < 1 by linarith, if_true]
          field_simp
      · have h3 : w l ≤ w k := (not_le.mp hle).le
        simp only [hle, h3, and_true, and_false, if_false, show w l < 1 by linarith, if_true]
        field_simp
    · exact one l k (by linarith) hkn hl
  · exact (one k l two hln hk).symm

/-- Detailed balance off the diagonal gives invariance. -/
theorem force_invariant_of_balance {w : Fin (n + 1) → ℝ} (hw : IsProb w)
    (hb : ∀ k l, k ≠ l → w k * forceQ w k l = w l * forceQ w l k) (key : Key)
    (f : Fin (n + 1) → ℝ≥0∞) :
    ∑ k, ENNReal.ofReal (w k) * (force_move key w k : Ex _) (fun r => f r.1) =
      ∑ k, ENNReal.ofReal (w k) * f k := by
  have h1 : ∀ k, ENNReal.ofReal (w k) * (force_move key w k : Ex _) (fun r => f r.1) =
      (∑ l, if k = l then 0 else ENNReal.ofReal (w k * forceQ w k l) * f l) +
      ENNReal.ofReal (w k - ∑ l, if k = l then 0 else w k * forceQ w k l) * f k := by
    intro k
    have hwk := hw.nonneg k
    have e : ∀ g : Fin (n + 1) → ℝ≥0∞, ∑ l ∈ univ.erase k, g l = ∑ l, if k = l then 0 else g l := by
      intro g
      rw [← Finset.add_sum_erase univ _ (mem_univ k)]
      simp only [if_true, zero_add]
      exact sum_congr rfl fun l hl => by simp [(ne_of_mem_erase hl).symm]
    have e' : ∀ g : Fin (n + 1) → ℝ, ∑ l ∈ univ.erase k, g l = ∑ l, if k = l then 0 else g l := by
      intro g
      rw [← Finset.add_sum_erase univ _ (mem_univ k)]
      simp only [if_true, zero_add]
      exact sum_congr rfl fun l hl => by simp [(ne_of_mem_erase hl).symm]
    rw [force_move_law' hw, mul_add, ← mul_assoc, ← ENNReal.ofReal_mul hwk, mul_sum, e]
    congr 1
    · refine sum_congr rfl fun l _ => ?_
      split_ifs
      · rfl
      · rw [← mul_assoc, ← ENNReal.ofReal_mul hwk]
    · congr 2
      rw [mul_sub, mul_one, mul_sum, e']
  simp only [h1, sum_add_distrib]
  rw [sum_comm, ← sum_add_distrib]
  refine sum_congr rfl fun k _ => ?_
  have h2 : (∑ l, if l = k then (0 : ℝ≥0∞) else ENNReal.ofReal (w l * forceQ w l k) * f k) =
      ENNReal.ofReal (∑ l, if k = l then 0 else w k * forceQ w k l) * f k := by
    rw [ENNReal.ofReal_sum_of_nonneg, sum_mul]
    · refine Finset.sum_congr rfl (fun l _ => ?_)
      by_cases h : l = k
      · simp [h]
      · simp only [h, Ne.symm h, if_false]
        rw [hb l k h]
    · intro l _
      split_ifs
      · exact le_rfl
      · exact mul_nonneg (hw.nonneg k) (forceQ_nonneg hw k l)
  rw [h2, ← add_mul, ← ENNReal.ofReal_add]
  · congr 2; exact add_sub_cancel _ _
  · refine Finset.sum_nonneg (fun l _ => ?_)
    split_ifs
    · exact le_rfl
    · exact mul_nonneg (hw.nonneg k) (forceQ_nonneg hw k l)
  · have h3 := forceQ_sum_le hw k
    have e' : (∑ l, if k = l then 0 else w k * forceQ w k l) =
        w k * ∑ l ∈ univ.erase k, forceQ w k l := by
      rw [← Finset.add_sum_erase univ _ (mem_univ k), mul_sum]
      simp only [if_true, zero_add]
      exact sum_congr rfl fun l hl => by simp [(ne_of_mem_erase hl).symm]
    rw [e']
    nlinarith [hw.nonneg k]

end Verif
