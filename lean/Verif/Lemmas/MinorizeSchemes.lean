import Verif.Lemmas.Schemes
import Verif.Lemmas.Near
import Verif.Spec.Ergodic

/-!
# The resampling schemes and the moves reach every particle
-/

open scoped ENNReal
open MeasureTheory ProbabilityTheory Finset

namespace Verif
open Verif.Spec Verif.Model

variable {N : ℕ} {w : Fin (N + 1) → ℝ}

theorem offspring_prod {α : Type} [Fintype α] [DecidableEq α] {p : Fin (N + 1) → α → ℝ≥0∞} (hp : ∀ t, ∑ l, p t l = 1) (i l : α)
    (j : Fin (N + 1)) :
    ∑ a : Fin (N + 1) → α, (∏ t, p t (a t)) * ∑ c ∈ univ.erase j, (if atSet a j i c = l then (1 : ℝ≥0∞) else 0) =
      ∑ c ∈ univ.erase j, p c l := by
  have e : ∀ a : Fin (N + 1) → α, ∑ c ∈ univ.erase j, (if atSet a j i c = l then (1 : ℝ≥0∞) else 0) =
      ∑ c ∈ univ.erase j, if a c = l then 1 else 0 := fun a =>
    sum_congr rfl fun c hc => by rw [atSet_ne _ _ (ne_of_mem_erase hc)]
  simp only [e, mul_sum]
  rw [sum_comm]
  refine sum_congr rfl fun c _ => ?_
  have h := sum_prod_marginal p c hp fun x => if x = l then (1 : ℝ≥0∞) else 0
  simpa using h

theorem multinomial_spreads (key : Key) (backward : Bool) :
    Spreads N backward (fun w i j => (multinomial (n := N) key w i j true : Ex _)) := by
  intro w hw _ i j l _
  have e : offspring (fun w i j => (multinomial (n := N) key w i j true : Ex _)) w i j l =
      ∑ a : Fin (N + 1) → Fin (N + 1), (∏ t, catP w (a t)) * ∑ c ∈ univ.erase j, (if atSet a j i c = l then (1 : ℝ≥0∞) else 0) := rfl
  rw [e, offspring_prod (p := fun _ => catP w) fun _ => by simp only [catP_of_isProb hw, sum_ofReal_of_isProb hw]]
  rw [sum_const, card_erase_of_mem (mem_univ _), card_univ, Fintype.card_fin, catP_of_isProb hw]
  simp

theorem inv_maxA_le (hw : IsProb w) : 1 / maxA w ≤ (N : ℝ) + 1 := by
  have hm := maxA_pos hw
  rw [div_le_iff₀ hm]
  have h : ∑ i, w i ≤ ∑ _i : Fin (N + 1), maxA w := sum_le_sum fun i _ => le_maxA w i
  rw [hw.sum_one] at h
  simpa using h

theorem killK_prod (hw : IsProb w) {i l : Fin (N + 1)} (hl : l ≠ i) :
    ∑ J, killK w J i * killK w J l ≤ 2 * (N + 1) * (w i * w l) := by
  have hm := maxA_pos hw
  have hinv := inv_maxA_le hw
  have e : ∀ J, killK w J i * killK w J l = (if J = i then w i / maxA w * (1 - w i / maxA w) * w l else 0) +
      (if J = l then w l / maxA w * (1 - w l / maxA w) * w i else 0) + (1 - w J / maxA w) ^ 2 * (w i * w l) := fun J => by
    unfold killK
    by_cases h1 : J = i
    · subst h1
      rw [if_pos rfl, if_neg hl.symm, if_pos rfl, if_neg hl.symm]
      ring
    · by_cases h2 : J = l
      · subst h2
        rw [if_neg h1, if_pos rfl, if_neg h1, if_pos rfl]
        ring
      · rw [if_neg h1, if_neg h2, if_neg h1, if_neg h2]
        ring
  rw [sum_congr rfl fun J _ => e J, sum_add_distrib, sum_add_distrib, sum_ite_eq' univ i, sum_ite_eq' univ l, ← sum_mul]
  simp only [mem_univ, if_true]
  have hsq : ∑ J, (1 - w J / maxA w) ^ 2 ≤ (N + 1) - 1 / maxA w := by
    calc ∑ J, (1 - w J / maxA w) ^ 2 ≤ ∑ J, (1 - w J / maxA w) := sum_le_sum fun J _ => by
          have h := ratio_mem hw J
          nlinarith
      _ = (N + 1) - 1 / maxA w := by
          rw [sum_sub_distrib, ← sum_div, hw.sum_one]
          simp
  have hi := hw.nonneg i
  have hl' := hw.nonneg l
  have hp : 0 ≤ w i * w l := mul_nonneg hi hl'
  have h1 : w i / maxA w * (1 - w i / maxA w) * w l ≤ 1 / maxA w * (w i * w l) := by
    have h := ratio_mem hw i
    have : w i / maxA w * (1 - w i / maxA w) ≤ w i / maxA w := by nlinarith
    calc _ ≤ w i / maxA w * w l := by gcongr
      _ = _ := by ring
  have h2 : w l / maxA w * (1 - w l / maxA w) * w i ≤ 1 / maxA w * (w i * w l) := by
    have h := ratio_mem hw l
    have : w l / maxA w * (1 - w l / maxA w) ≤ w l / maxA w := by nlinarith
    calc _ ≤ w l / maxA w * w i := by gcongr
      _ = _ := by ring
  have h3 := mul_le_mul_of_nonneg_right hsq hp
  have h4 := mul_le_mul_of_nonneg_right hinv hp
  nlinarith

theorem killing_offspring (key : Key) (hw : IsProb w) (i j l : Fin (N + 1)) :
    offspring (fun w i j => (killing (n := N) key w i j true : Ex _)) w i j l =
      ENNReal.ofReal ((N + 1) * w l - ∑ J, killingJProb w i J * killK w J l) := by
  obtain ⟨hp, -⟩ := killingJProb_isProb hw i
  refine (killing_law_true hw key i j _).trans ?_
  have h1 : ∀ J, ∑ a : Fin (N + 1) → Fin (N + 1), (∏ t, ENNReal.ofReal (killK w (t - (j - J)) (a t))) *
      ∑ c ∈ univ.erase j, (if atSet a j i c = l then (1 : ℝ≥0∞) else 0) = ENNReal.ofReal ((N + 1) * w l - killK w J l) := fun J => by
    rw [offspring_prod (p := fun t l => ENNReal.ofReal (killK w (t - (j - J)) l)) fun t => by
      rw [← ENNReal.ofReal_sum_of_nonneg fun l _ => killK_nonneg hw _ _, killK_sum hw, ENNReal.ofReal_one]]
    rw [← ENNReal.ofReal_sum_of_nonneg fun l _ => killK_nonneg hw _ _]
    congr 1
    have h2 := Finset.add_sum_erase univ (fun c => killK w (c - (j - J)) l) (mem_univ j)
    have h3 : ∑ c, killK w (c - (j - J)) l = (N + 1) * w l := by
      rw [← killK_sum' hw l]
      exact Fintype.sum_equiv (Equiv.subRight (j - J)) _ _ fun _ => rfl
    have h4 : j - (j - J) = J := by abel
    simp only [h4, h3] at h2
    linarith
  simp only [h1]
  have hn : ∀ J, 0 ≤ (N + 1) * w l - killK w J l := fun J => by
    rw [← killK_sum' hw l]
    have := Finset.add_sum_erase univ (fun c => killK w c l) (mem_univ J)
    have h5 : 0 ≤ ∑ c ∈ univ.erase J, killK w c l := sum_nonneg fun c _ => killK_nonneg hw _ _
    linarith
  simp only [← ENNReal.ofReal_mul (hp.nonneg _)]
  rw [← ENNReal.ofReal_sum_of_nonneg fun J _ => mul_nonneg (hp.nonneg J) (hn J)]
  congr 1
  simp only [mul_sub]
  rw [sum_sub_distrib, ← sum_mul, hp.sum_one, one_mul]

/-- Every particle other than the reference may have descendants. -/
theorem killing_offspring_ne (key : Key) (hw : IsProb w) (hpos : ∀ i, 0 < w i) {i l : Fin (N + 1)} (hl : l ≠ i) (j : Fin (N + 1)) :
    offspring (fun w i j => (killing (n := N) key w i j true : Ex _)) w i j l ≠ 0 := by
  rw [killing_offspring key hw]
  obtain ⟨hp, hpK⟩ := killingJProb_isProb hw i
  have hk : ∀ t, 0 < killK w t t := fun t => by
    unfold killK
    rw [if_pos rfl]
    have := ratio_mem hw t
    have : 0 < w t / maxA w := div_pos (hpos t) (maxA_pos hw)
    have := hpos t
    nlinarith
  have hpi : 0 < killingJProb w i i := by
    have h1 := hpK i
    have h2 := hk i
    have h3 : 0 < w i * killingJProb w i i := by rw [h1]; positivity
    exact pos_of_mul_pos_right h3 (hpos i).le
  have hpl : killingJProb w i l < 1 := by
    rw [← hp.sum_one, ← Finset.add_sum_erase univ (killingJProb w i) (mem_univ l)]
    have : killingJProb w i i ≤ ∑ x ∈ univ.erase l, killingJProb w i x :=
      single_le_sum (fun x _ => hp.nonneg x) (mem_erase.mpr ⟨hl.symm, mem_univ _⟩)
    linarith
  have hle : ∀ J, killingJProb w i J ≤ 1 := fun J => by
    rw [← hp.sum_one]
    exact single_le_sum (fun x _ => hp.nonneg x) (mem_univ J)
  refine (ENNReal.ofReal_pos.mpr ?_).ne'
  rw [← killK_sum' hw l, ← sum_sub_distrib]
  refine sum_pos' (fun J _ => ?_) ⟨l, mem_univ _, ?_⟩
  · have := killK_nonneg hw J l
    nlinarith [hle J]
  · have := hk l
    nlinarith

theorem killing_spreads (key : Key) : Spreads ((N - 1 : ℕ) : ℝ≥0∞) false (fun w i j => (killing (n := N) key w i j true : Ex _)) := by
  intro w hw hpos i j l hl
  have hl := hl rfl
  obtain ⟨hp, hpK⟩ := killingJProb_isProb hw i
  have hwi := hpos i
  have e := killing_offspring key hw i j l
  rw [e]
  have h2 : ∑ J, killingJProb w i J * killK w J l ≤ 2 * w l := by
    have h3 : w i * ∑ J, killingJProb w i J * killK w J l = (∑ J, killK w J i * killK w J l) / (N + 1) := by
      rw [mul_sum, sum_div]
      refine sum_congr rfl fun J _ => ?_
      rw [← mul_assoc, hpK J]
      ring
    have h4 := killK_prod hw hl
    have hN : (0 : ℝ) < N + 1 := by positivity
    refine le_of_mul_le_mul_left ?_ hwi
    rw [h3, div_le_iff₀ hN]
    linarith
  have hN : ((N - 1 : ℕ) : ℝ≥0∞) * ENNReal.ofReal (w l) = ENNReal.ofReal (((N - 1 : ℕ) : ℝ) * w l) := by
    rw [ENNReal.ofReal_mul (by positivity), ENNReal.ofReal_natCast]
  rw [hN]
  refine ENNReal.ofReal_le_ofReal ?_
  have hl' := hw.nonneg l
  have hsub : ((N - 1 : ℕ) : ℝ) * w l ≤ (N - 1) * w l ∨ N = 0 := by
    rcases Nat.eq_zero_or_pos N with h | h
    · exact Or.inr h
    · left
      rw [Nat.cast_sub h, Nat.cast_one]
  rcases hsub with h | h
  · nlinarith
  · subst h
    exact absurd (by omega : l = i) hl

theorem barker_movesAway (key : Key) : MovesAway (N := N) 1 (moveIndex (fun key w k => barker_move key w k) key) := by
  intro w hw _ k f
  have h : moveIndex (fun key w k => barker_move key w k) key w k f = ∑ i, ENNReal.ofReal (w i) * f i := by
    show ∑ i, catP w i * f i = _
    simp only [catP_of_isProb hw]
  rw [h, one_mul]
  exact sum_le_sum_of_subset (erase_subset _ _)

theorem forceQ_ge (hw : IsProb w) {k l : Fin (N + 1)} (hkl : l ≠ k) : 1 / ((N : ℝ) + 1) * w l ≤ forceQ w k l := by
  have hN : 1 / ((N : ℝ) + 1) ≤ 1 := by
    rw [div_le_one (by positivity)]
    linarith [(Nat.cast_nonneg N : (0 : ℝ) ≤ N)]
  have h2 := pair_le_one hw hkl
  have hl := hw.nonneg l
  have hk' := hw.nonneg k
  by_cases hk : w k < forceThreshold (N + 1)
  · rw [forceQ_eq_liuQ hw hkl hk, liuQ]
    have h1 : w k < 1 := hk.trans (forceThreshold_lt_one _)
    have hpos : 0 < max (1 - w k) (1 - w l) := lt_max_of_lt_left (by linarith)
    have hle : max (1 - w k) (1 - w l) ≤ 1 := max_le (by linarith) (by linarith)
    calc 1 / ((N : ℝ) + 1) * w l ≤ 1 * w l := by gcongr
      _ = w l := one_mul _
      _ ≤ _ := by
        rw [le_div_iff₀ hpos]
        nlinarith
  · simp only [forceQ, forceRest, hk, if_false]
    refine mul_le_mul_of_nonneg_left ?_ (by positivity)
    unfold forceAcc
    split_ifs with h
    · linarith
    · have htg := forceThreshold_ge (N + 1)
      have hkk := not_lt.mp hk
      have hpos : 0 < 1 - w l := by norm_num at htg; linarith
      rw [le_div_iff₀ hpos]
      nlinarith

theorem force_movesAway (key : Key) :
    MovesAway (N := N) (ENNReal.ofReal (1 / (N + 1))) (moveIndex (fun key w k => force_move key w k) key) := by
  intro w hw _ k f
  have e : moveIndex (fun key w k => force_move key w k) key w k f =
      (∑ l ∈ univ.erase k, ENNReal.ofReal (forceQ w k l) * f l) +
      ENNReal.ofReal (1 - ∑ l ∈ univ.erase k, forceQ w k l) * f k := force_move_law' hw key k (fun r => f r.1)
  rw [e, mul_sum]
  refine le_trans (sum_le_sum fun l hl => ?_) le_self_add
  rw [← mul_assoc, ← ENNReal.ofReal_mul (by positivity)]
  gcongr
  exact forceQ_ge hw (ne_of_mem_erase hl)

end Verif
