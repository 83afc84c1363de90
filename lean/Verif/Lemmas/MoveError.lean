import Mathlib.Algebra.Order.BigOperators.Ring.Finset
import Verif.Lemmas.MoveLaw

/-!
# The invariance error of `force_move` in its guarded regime
-/

open scoped ENNReal
open MeasureTheory Finset

namespace Verif
open Model Spec

variable {n : ℕ}

/-- Expectation (real) of `f` after a forced move from `k`. -/
noncomputable def forceR (w f : Fin (n + 1) → ℝ) (k : Fin (n + 1)) : ℝ :=
  (∑ l ∈ univ.erase k, forceQ w k l * f l) + (1 - ∑ l ∈ univ.erase k, forceQ w k l) * f k

theorem force_move_ofReal {w : Fin (n + 1) → ℝ} (hw : IsProb w) (key : Key) (k : Fin (n + 1))
    (f : Fin (n + 1) → ℝ) (hf : ∀ l, 0 ≤ f l) :
    (force_move key w k : Ex _) (fun r => ENNReal.ofReal (f r.1)) =
      ENNReal.ofReal (forceR w f k) := by
  have h1 : 0 ≤ 1 - ∑ l ∈ univ.erase k, forceQ w k l := by linarith [forceQ_sum_le hw k]
  have h2 : ∀ l ∈ univ.erase k, 0 ≤ forceQ w k l * f l :=
    fun l _ => mul_nonneg (forceQ_nonneg hw k l) (hf l)
  rw [force_move_law' hw, forceR, ENNReal.ofReal_add (sum_nonneg h2) (mul_nonneg h1 (hf k)),
    ENNReal.ofReal_sum_of_nonneg h2, ENNReal.ofReal_mul h1]
  congr 1
  exact sum_congr rfl fun l _ => by rw [ENNReal.ofReal_mul (forceQ_nonneg hw k l)]

theorem forceR_mem {w : Fin (n + 1) → ℝ} (hw : IsProb w) (k : Fin (n + 1))
    (f : Fin (n + 1) → ℝ) (hf : ∀ l, 0 ≤ f l ∧ f l ≤ 1) : 0 ≤ forceR w f k ∧ forceR w f k ≤ 1 := by
  have h1 : 0 ≤ 1 - ∑ l ∈ univ.erase k, forceQ w k l := by linarith [forceQ_sum_le hw k]
  have h2 : ∀ l ∈ univ.erase k, 0 ≤ forceQ w k l * f l :=
    fun l _ => mul_nonneg (forceQ_nonneg hw k l) (hf l).1
  have h3 : ∑ l ∈ univ.erase k, forceQ w k l * f l ≤ ∑ l ∈ univ.erase k, forceQ w k l :=
    sum_le_sum fun l _ => mul_le_of_le_one_right (forceQ_nonneg hw k l) (hf l).2
  have h4 := mul_nonneg h1 (hf k).1
  have h5 := mul_le_of_le_one_right h1 (hf k).2
  exact ⟨by unfold forceR; linarith [sum_nonneg h2], by unfold forceR; linarith⟩

/-- The invariance error is an antisymmetric sum over pairs. -/
theorem force_error_eq (w f : Fin (n + 1) → ℝ) :
    ∑ k, w k * forceR w f k - ∑ k, w k * f k =
      ∑ k, ∑ l, if k = l then 0 else w k * forceQ w k l * (f l - f k) := by
  rw [← sum_sub_distrib]
  refine sum_congr rfl fun k _ => ?_
  rw [← Finset.add_sum_erase univ _ (mem_univ k)]
  simp only [if_true, zero_add]
  have : ∑ l ∈ univ.erase k, (if k = l then 0 else w k * forceQ w k l * (f l - f k)) =
      ∑ l ∈ univ.erase k, (w k * (forceQ w k l * f l) - w k * f k * forceQ w k l) :=
    sum_congr rfl fun l hl => by simp only [(ne_of_mem_erase hl).symm, if_false]; ring
  rw [this, sum_sub_distrib, ← mul_sum, ← mul_sum, forceR]
  ring

/-- Bound on the invariance error of the forced move: twice the mass left out of the threshold. -/
theorem force_error_le {w : Fin (n + 1) → ℝ} (hw : IsProb w) (f : Fin (n + 1) → ℝ)
    (hf : ∀ l, 0 ≤ f l ∧ f l ≤ 1) :
    |∑ k, w k * forceR w f k - ∑ k, w k * f k| ≤ 2 * (1 - forceThreshold (n + 1)) := by
  have ht := forceThreshold_lt_one (n + 1)
  have htg := forceThreshold_ge (n + 1)
  rw [force_error_eq]
  set g : Fin (n + 1) → Fin (n + 1) → ℝ :=
    fun k l => if k = l then 0 else w k * forceQ w k l * (f l - f k) with hg
  have hsym : (∑ k, ∑ l, g k l) + (∑ k, ∑ l, g k l) = ∑ k, ∑ l, (g k l + g l k) := by
    simp only [sum_add_distrib]
    congr 1
    exact sum_comm
  by_cases hall : ∀ k, Unguarded w k
  · have : ∑ k, ∑ l, (g k l + g l k) = 0 := by
      refine sum_eq_zero fun k _ => sum_eq_zero fun l _ => ?_
      by_cases h : k = l
      · simp [hg, h]
      · have hb := forceQ_balance hw h (hall k) (hall l)
        simp only [hg, h, Ne.symm h, if_false]
        rw [hb]; ring
    have h0 : ∑ k, ∑ l, g k l = 0 := by linarith
    rw [h0]; simp; linarith
  · push Not at hall
    obtain ⟨c, hc⟩ := hall
    have hcg : forceThreshold (n + 1) ≤ w c := by
      by_contra h; exact hc (Or.inl (not_le.mp h))
    have hc1 := hw.le_one c
    have hothers : ∀ l, l ≠ c → w l ≤ 1 - w c := by
      intro l hl
      have := Finset.sum_le_sum_of_subset_of_nonneg (f := w) (subset_univ {l, c})
        fun i _ _ => hw.nonneg i
      rw [sum_pair hl, hw.sum_one] at this; linarith
    have hcbig : (0.9 : ℝ) ≤ w c := by norm_num at htg ⊢; linarith
    have hun : ∀ l, l ≠ c → Unguarded w l := fun l hl => Or.inl (by
      have := hothers l hl; norm_num at htg hcbig ⊢; linarith)
    -- only pairs containing c contribute
    have hpair : ∑ k, ∑ l, (g k l + g l k) = 2 * ∑ l, (g c l + g l c) := by
      rw [← Finset.add_sum_erase univ _ (mem_univ c)]
      have : ∑ k ∈ univ.erase c, ∑ l, (g k l + g l k) = ∑ k ∈ univ.erase c, (g k c + g c k) := by
        refine sum_congr rfl fun k hk => ?_
        have hkc := ne_of_mem_erase hk
        rw [sum_eq_single c]
        · intro l _ hl
          by_cases h : k = l
          · simp [hg, h]
          · have hb := forceQ_balance hw h (hun k hkc) (hun l hl)
            simp only [hg, h, Ne.symm h, if_false]
            rw [hb]; ring
        · simp
      rw [this]
      have h2 : ∑ l, (g c l + g l c) = ∑ k ∈ univ.erase c, (g k c + g c k) := by
        rw [← Finset.add_sum_erase univ _ (mem_univ c)]
        simp only [hg, if_true, add_zero, zero_add]
        exact sum_congr rfl fun l _ => add_comm _ _
      rw [← h2]; ring
    have hS : ∑ k, ∑ l, g k l = ∑ l, (g c l + g l c) := by linarith
    rw [hS, sum_add_distrib]
    have hfd : ∀ a b, |f a - f b| ≤ 1 := fun a b => by
      rw [abs_le]; constructor <;> linarith [(hf a).1, (hf a).2, (hf b).1, (hf b).2]
    have b1 : |∑ l, g c l| ≤ 1 - w c := by
      refine (abs_sum_le_sum_abs _ _).trans ?_
      have hterm : ∀ l ∈ univ, |g c l| ≤ (1 - w c) * (1 / ((n : ℝ) + 1)) := by
        intro l _
        by_cases h : c = l
        · simp only [hg, h, if_true, abs_zero]
          have : 0 ≤ 1 - w l := by rw [← h]; linarith
          positivity
        · simp only [hg, h, if_false]
          rw [abs_mul, abs_of_nonneg (mul_nonneg (hw.nonneg c) (forceQ_nonneg hw c l))]
          have hQ : w c * forceQ w c l ≤ (1 - w c) * (1 / ((n : ℝ) + 1)) := by
            have hlc := hothers l (Ne.symm h)
            have hnle : ¬ (w c ≤ w l) := by norm_num at hcbig; linarith
            simp only [forceQ, forceRest, not_lt.mpr hcg, if_false, forceAcc, hnle, and_false]
            have h1 : 0 < 1 - w l := by norm_num at hcbig; linarith
            have h2 : w c * (1 - w c) ≤ (1 - w c) * (1 - w l) := by nlinarith
            rw [show w c * (1 / ((n : ℝ) + 1) * ((1 - w c) / (1 - w l))) =
              (w c * (1 - w c) / (1 - w l)) * (1 / ((n : ℝ) + 1)) by ring]
            exact mul_le_mul_of_nonneg_right ((div_le_iff₀ h1).mpr h2) (by positivity)
          calc w c * forceQ w c l * |f l - f c| ≤ w c * forceQ w c l * 1 :=
                mul_le_mul_of_nonneg_left (hfd l c)
                  (mul_nonneg (hw.nonneg c) (forceQ_nonneg hw c l))
            _ ≤ _ := by rw [mul_one]; exact hQ
      refine (sum_le_sum hterm).trans ?_
      simp
      field_simp
      exact le_rfl
    have b2 : |∑ l, g l c| ≤ 1 - w c := by
      refine (abs_sum_le_sum_abs _ _).trans ?_
      rw [← Finset.add_sum_erase univ _ (mem_univ c)]
      have hz : |g c c| = 0 := by simp [hg]
      rw [hz, zero_add]
      have hterm : ∀ l ∈ univ.erase c, |g l c| ≤ w l := by
        intro l hl
        have h := ne_of_mem_erase hl
        simp only [hg, h, if_false]
        rw [abs_mul, abs_of_nonneg (mul_nonneg (hw.nonneg l) (forceQ_nonneg hw l c))]
        have hQ1 : forceQ w l c ≤ 1 :=
          mul_le_one₀ ((forceRest_isProb hw l).le_one c) (forceAcc_mem hw l c).1
            (forceAcc_mem hw l c).2
        calc w l * forceQ w l c * |f c - f l| ≤ w l * 1 * 1 := by
              refine mul_le_mul (mul_le_mul_of_nonneg_left hQ1 (hw.nonneg l)) (hfd c l)
                (abs_nonneg _) (by have := hw.nonneg l; linarith)
          _ = w l := by ring
      refine (sum_le_sum hterm).trans ?_
      have := Finset.add_sum_erase univ w (mem_univ c)
      rw [hw.sum_one] at this; linarith
    calc |∑ l, g c l + ∑ l, g l c| ≤ |∑ l, g c l| + |∑ l, g l c| := abs_add_le _ _
      _ ≤ 2 * (1 - forceThreshold (n + 1)) := by linarith

end Verif
