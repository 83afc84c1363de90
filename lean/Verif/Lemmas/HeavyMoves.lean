import Verif.Spec.Heavy
import Verif.Props.Resampling
import Verif.Lemmas.MovePairs
import Verif.Lemmas.MoveLaw
import Verif.Lemmas.Schemes

/-!
# Multinomial and killing resampling, Barker and forced moves follow a particle with most of the weight
-/

open scoped ENNReal
open MeasureTheory ProbabilityTheory Finset

namespace Verif
open Verif.Spec Verif.Model Verif.Props

variable {N : ℕ}

theorem IsProb.other_le {w : Fin (N + 1) → ℝ} (hw : IsProb w) {k l : Fin (N + 1)} (h : l ≠ k) : w l ≤ 1 - w k := by
  have h1 : w l + w k ≤ 1 := by
    rw [← hw.sum_one, ← Finset.sum_pair h]
    exact sum_le_sum_of_subset_of_nonneg (subset_univ _) fun i _ _ => hw.nonneg i
  linarith

theorem multinomial_givesToHeavy (key : Key) : GivesToHeavy (fun w i j => (multinomial (n := N) key w i j true : Ex _)) := by
  refine ⟨ENNReal.ofReal (3 / 4) ^ (N + 1), by positivity, fun w hw _ i j k hk => ?_⟩
  show _ ≤ ∑ a : Fin (N + 1) → Fin (N + 1), (∏ t, catP w (a t)) *
    (if atSet a j i = Function.update (fun _ => k) j i then (1 : ℝ≥0∞) else 0)
  refine le_trans ?_ (single_le_sum (f := fun a : Fin (N + 1) → Fin (N + 1) => (∏ t, catP w (a t)) *
    (if atSet a j i = Function.update (fun _ => k) j i then (1 : ℝ≥0∞) else 0)) (fun _ _ => zero_le)
    (mem_univ fun _ => k))
  rw [if_pos (show atSet (fun _ => k) j i = Function.update (fun _ => k) j i from rfl), mul_one, prod_const, card_univ, Fintype.card_fin, catP_of_isProb hw]
  gcongr

theorem killK_heavy {w : Fin (N + 1) → ℝ} (hw : IsProb w) {k : Fin (N + 1)} (hk : 3 / 4 ≤ w k) (t : Fin (N + 1)) :
    1 / 2 ≤ killK w t k := by
  have hm : maxA w ≤ 1 := sup'_le _ _ fun i _ => hw.le_one i
  have hm0 := maxA_pos hw
  have hr := ratio_mem hw t
  by_cases h : t = k
  · subst h
    have h1 : w t ≤ w t / maxA w := by
      rw [le_div_iff₀ hm0]
      nlinarith [hw.nonneg t]
    have h2 : 0 ≤ (1 - w t / maxA w) * w t := mul_nonneg (by linarith) (hw.nonneg t)
    rw [killK, if_pos rfl]
    linarith
  · have h1 := IsProb.other_le hw h
    have h2 : w t / maxA w ≤ 1 / 3 := by
      rw [div_le_iff₀ hm0]
      have := le_maxA w k
      linarith
    rw [killK, if_neg h, zero_add]
    nlinarith

theorem killing_givesToHeavy (key : Key) : GivesToHeavy (fun w i j => (killing (n := N) key w i j true : Ex _)) := by
  classical
  refine ⟨ENNReal.ofReal (1 / (N + 1)) * ENNReal.ofReal (1 / 2) ^ N, ?_, fun w hw hp i j k hk => ?_⟩
  · have : (0 : ℝ) < 1 / (N + 1) := by positivity
    exact mul_ne_zero (by simpa using this) (by positivity)
  set A := Function.update (fun _ : Fin (N + 1) => k) j i with hA
  have h0 := C03_killing_conditional hw key key key i j fun a => if a = A then 1 else 0
  rw [rotatedKilling_law hw] at h0
  have h1 : ENNReal.ofReal (w i) * ENNReal.ofReal (1 / 2) ^ N ≤
      ∏ t, ENNReal.ofReal (killK w (t - (j - i)) (A t)) := by
    rw [← mul_prod_erase univ _ (mem_univ j)]
    refine mul_le_mul' (ENNReal.ofReal_le_ofReal ?_) ?_
    · rw [hA, Function.update_self, sub_sub_cancel, killK, if_pos rfl]
      have hr := ratio_mem hw i
      have h2 : 0 ≤ (1 - w i / maxA w) * w i := mul_nonneg (by linarith) (hw.nonneg i)
      have h3 : w i ≤ w i / maxA w := by
        rw [le_div_iff₀ (maxA_pos hw)]
        have hm : maxA w ≤ 1 := sup'_le _ _ fun i _ => hw.le_one i
        nlinarith [hw.nonneg i]
      linarith
    · have : ENNReal.ofReal (1 / 2) ^ N = ∏ t ∈ univ.erase j, ENNReal.ofReal (1 / 2) := by
        rw [prod_const, card_erase_of_mem (mem_univ _), card_univ, Fintype.card_fin, Nat.add_sub_cancel]
      rw [this]
      refine prod_le_prod' fun t ht => ENNReal.ofReal_le_ofReal ?_
      rw [hA, Function.update_of_ne (ne_of_mem_erase ht)]
      exact killK_heavy hw hk _
  have h2 : ENNReal.ofReal (w i) * (ENNReal.ofReal (1 / (N + 1)) * ENNReal.ofReal (1 / 2) ^ N) ≤
      ENNReal.ofReal (w i) * (killing key w i j true : Ex _) fun a => if a = A then 1 else 0 := by
    rw [h0]
    calc _ = ENNReal.ofReal (1 / (N + 1)) * (ENNReal.ofReal (w i) * ENNReal.ofReal (1 / 2) ^ N) := by ring
      _ ≤ _ := by
        refine mul_le_mul_right ?_ _
        refine le_trans ?_ (single_le_sum (f := fun s => ∑ a : Fin (N + 1) → Fin (N + 1),
          (∏ t, ENNReal.ofReal (killK w (t - s) (a t))) * if a j = i then (if a = A then (1 : ℝ≥0∞) else 0) else 0)
          (fun _ _ => zero_le) (mem_univ (j - i)))
        refine le_trans ?_ (single_le_sum (f := fun a : Fin (N + 1) → Fin (N + 1) =>
          (∏ t, ENNReal.ofReal (killK w (t - (j - i)) (a t))) * if a j = i then (if a = A then (1 : ℝ≥0∞) else 0) else 0)
          (fun _ _ => zero_le) (mem_univ A))
        have hj : A j = i := by rw [hA, Function.update_self]
        simp only
        rw [if_pos hj, if_true, mul_one]
        exact h1
  exact (ENNReal.mul_le_mul_iff_right (by simpa using hp i) ENNReal.ofReal_ne_top).mp h2

theorem barker_keepsHeavy (key : Key) : KeepsHeavy (moveIndex (N := N) (fun key w k => barker_move key w k) key) := by
  refine ⟨ENNReal.ofReal (3 / 4), by positivity, fun w hw _ k hk => ?_⟩
  rw [barker_law key hw]
  refine le_trans ?_ (single_le_sum (f := fun i => ENNReal.ofReal (w i) * if i = k then (1 : ℝ≥0∞) else 0)
    (fun _ _ => zero_le) (mem_univ k))
  simp only
  rw [if_true, mul_one]
  exact ENNReal.ofReal_le_ofReal hk

theorem force_keepsHeavy (key : Key) : KeepsHeavy (moveIndex (N := N) (fun key w k => force_move key w k) key) := by
  refine ⟨ENNReal.ofReal (1 / 2), by positivity, fun w hw _ k hk => ?_⟩
  have h0 : moveIndex (fun key w k => force_move key w k) key w k (fun l => if l = k then (1 : ℝ≥0∞) else 0) =
      (force_move key w k : Ex _) fun r => if r.1 = k then 1 else 0 := rfl
  rw [h0, force_move_law hw]
  have hr := forceRest_isProb hw k
  have h1 : ENNReal.ofReal (1 / 2) = ∑ i, ENNReal.ofReal (forceRest w k i) * ENNReal.ofReal (1 / 2) := by
    rw [← sum_mul, sum_ofReal_of_isProb hr, one_mul]
  rw [h1]
  refine sum_le_sum fun i _ => mul_le_mul_right ?_ _
  have ha := forceAcc_mem hw k i
  by_cases h : i = k
  · rw [if_pos h, if_pos rfl, mul_one, mul_one, ← ENNReal.ofReal_add ha.1 (by linarith [ha.2])]
    exact ENNReal.ofReal_le_ofReal (by linarith)
  · rw [if_neg h, if_pos rfl, mul_zero, zero_add, mul_one]
    refine ENNReal.ofReal_le_ofReal ?_
    have h2 := IsProb.other_le hw h
    have h3 : forceAcc w k i ≤ 1 / 3 := by
      rw [forceAcc, if_neg (by rintro ⟨-, h⟩; linarith), div_le_iff₀ (by linarith)]
      linarith
    linarith

/-- A particle whose log-weight exceeds the others' by `K` has most of the weight. -/
theorem normalizeW_heavy {lw : Fin (N + 1) → ℝ} {k : Fin (N + 1)} {K : ℝ} (hK : 4 * (N + 1) ≤ Real.exp K)
    (h : ∀ i, i ≠ k → K ≤ lw k - lw i) : 3 / 4 ≤ normalizeW lw k := by
  have hs : ∑ i ∈ univ.erase k, Real.exp (lw i) ≤ (N + 1) * (Real.exp (lw k) / Real.exp K) := by
    have h1 : ∀ i ∈ univ.erase k, Real.exp (lw i) ≤ Real.exp (lw k) / Real.exp K := fun i hi => by
      rw [← Real.exp_sub]
      exact Real.exp_le_exp.mpr (by linarith [h i (ne_of_mem_erase hi)])
    refine (sum_le_sum h1).trans ?_
    rw [sum_const, card_erase_of_mem (mem_univ _), card_univ, Fintype.card_fin, Nat.add_sub_cancel, nsmul_eq_mul]
    have : 0 ≤ Real.exp (lw k) / Real.exp K := by positivity
    nlinarith
  have h4 : (N + 1) * (Real.exp (lw k) / Real.exp K) ≤ Real.exp (lw k) / 4 := by
    rw [mul_div_assoc', div_le_div_iff₀ (Real.exp_pos _) (by norm_num)]
    nlinarith [Real.exp_pos (lw k)]
  rw [normalize_eq, le_div_iff₀ (sum_exp_pos _), ← add_sum_erase univ _ (mem_univ k)]
  have := Real.exp_pos (lw k)
  linarith

end Verif
