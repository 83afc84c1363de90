import Mathlib.Analysis.Complex.ExponentialBounds
import Mathlib.Tactic.FinCases
import Verif.Lemmas.MoveError

/-!
# C07 - C11: selection of the final index
-/

open scoped ENNReal
open Finset

namespace Verif.Props
open Verif Verif.Model Verif.Spec Verif.Poss

variable {n : ℕ}

/-! ## C07: Barker move -/

/-- C07: `barker_move` returns `l` with probability `w l`, whatever the current index `k`. -/
theorem C07_barker_law {w : Fin (n + 1) → ℝ} (hw : IsProb w) (key : Key) (k l : Fin (n + 1)) :
    Ex.Pr (barker_move key w k) (fun r => r.1 = l) = ENNReal.ofReal (w l) := by
  show (∑ i, catP w i * (if i = l then (1 : ℝ≥0∞) else 0)) = _
  simp [catP_of_isProb hw]

/-- C07: `barker_move` leaves the weights invariant. -/
theorem C07_barker_invariant {w : Fin (n + 1) → ℝ} (hw : IsProb w) (key : Key)
    (f : Fin (n + 1) → ℝ≥0∞) :
    ∑ k, ENNReal.ofReal (w k) * (barker_move key w k : Ex _) (fun r => f r.1) =
      ∑ k, ENNReal.ofReal (w k) * f k := by
  show (∑ k, ENNReal.ofReal (w k) * ∑ i, catP w i * f i) = _
  rw [← sum_mul, sum_ofReal_of_isProb hw, one_mul]
  simp only [catP_of_isProb hw]

/-- C07: detailed balance. -/
theorem C07_barker_reversible {w : Fin (n + 1) → ℝ} (hw : IsProb w) (key : Key)
    (k l : Fin (n + 1)) :
    ENNReal.ofReal (w k) * Ex.Pr (barker_move key w k) (fun r => r.1 = l) =
      ENNReal.ofReal (w l) * Ex.Pr (barker_move key w l) (fun r => r.1 = k) := by
  rw [C07_barker_law hw, C07_barker_law hw, mul_comm]

/-- C07: the second output is the probability of leaving `k`. -/
theorem C07_barker_alpha {w : Fin (n + 1) → ℝ} (hw : IsProb w) (key : Key) (k : Fin (n + 1)) :
    Always (barker_move key w k) (fun r =>
      ENNReal.ofReal r.2 = Ex.Pr (barker_move key w k) (fun r => r.1 ≠ k)) := by
  refine always_bind' fun i => always_pure ?_
  show ENNReal.ofReal (1 - w k) = ∑ i, catP w i * (if i ≠ k then (1 : ℝ≥0∞) else 0)
  rw [← Finset.add_sum_erase univ _ (mem_univ k)]
  have h1 : ∑ x ∈ univ.erase k, catP w x * (if x ≠ k then (1 : ℝ≥0∞) else 0) =
      ∑ x ∈ univ.erase k, ENNReal.ofReal (w x) :=
    sum_congr rfl fun x hx => by simp [ne_of_mem_erase hx, catP_of_isProb hw]
  rw [h1, ← ENNReal.ofReal_sum_of_nonneg fun i _ => hw.nonneg i]
  have := Finset.add_sum_erase univ w (mem_univ k)
  rw [hw.sum_one] at this
  simp only [ne_eq, not_true, if_false, mul_zero, zero_add]
  congr 1; linarith

/-! ## C08: forced move -/

/-- Probability of moving from `k` to `l ≠ k`. -/
theorem force_move_pr {w : Fin (n + 1) → ℝ} (hw : IsProb w) (key : Key) {k l : Fin (n + 1)}
    (hkl : k ≠ l) :
    Ex.Pr (force_move key w k) (fun r => r.1 = l) = ENNReal.ofReal (forceQ w k l) := by
  rw [Ex.Pr, force_move_law' hw]
  simp only [hkl, if_false, mul_zero, add_zero, mul_ite, mul_one]
  rw [sum_ite_eq' (univ.erase k) l]
  simp [hkl.symm]

/-- C08 (partial: excludes `forceThreshold ≤ w k < 1`, where the guard of the code makes the claim
false, see `C08_force_guard_not_reversible`): detailed balance. -/
theorem C08_force_reversible_partial {w : Fin (n + 1) → ℝ} (hw : IsProb w)
    (hg : ∀ k, w k < forceThreshold (n + 1) ∨ w k = 1) (key key' : Key) (k l : Fin (n + 1)) :
    ENNReal.ofReal (w k) * Ex.Pr (force_move key w k) (fun r => r.1 = l) =
      ENNReal.ofReal (w l) * Ex.Pr (force_move key' w l) (fun r => r.1 = k) := by
  by_cases h : k = l
  · subst h; rw [Ex.Pr, Ex.Pr, force_move_law' hw, force_move_law' hw]
  · rw [force_move_pr hw key h, force_move_pr hw key' (Ne.symm h), ← ENNReal.ofReal_mul (hw.nonneg k),
      ← ENNReal.ofReal_mul (hw.nonneg l), forceQ_balance hw h (hg k) (hg l)]

/-- C08 (partial: same restriction): the forced move leaves the weights invariant. -/
theorem C08_force_invariant_partial {w : Fin (n + 1) → ℝ} (hw : IsProb w)
    (hg : ∀ k, w k < forceThreshold (n + 1) ∨ w k = 1) (key : Key) (f : Fin (n + 1) → ℝ≥0∞) :
    ∑ k, ENNReal.ofReal (w k) * (force_move key w k : Ex _) (fun r => f r.1) =
      ∑ k, ENNReal.ofReal (w k) * f k :=
  force_invariant_of_balance hw (fun k l h => forceQ_balance hw h (hg k) (hg l)) key f

/-- C08: the forced move never returns an index of weight zero, except the current one. -/
theorem C08_force_support {w : Fin (n + 1) → ℝ} (hw : IsProb w) (key : Key) {k l : Fin (n + 1)}
    (hkl : k ≠ l) (hl : w l = 0) (hk : w k < forceThreshold (n + 1)) :
    Ex.Pr (force_move key w k) (fun r => r.1 = l) = 0 := by
  rw [force_move_pr hw key hkl]
  simp [forceQ, forceRest, hk, atSet_ne _ _ (Ne.symm hkl), hl]

theorem thr_big (M : ℕ) : (0.9 : ℝ) < forceThreshold M := by
  have := forceThreshold_ge M; norm_num at this ⊢; linarith

/-- A weight vector meeting the hypotheses of C08. -/
example : IsProb ![(1 : ℝ) / 5, 3 / 10, 1 / 2] ∧
    ∀ k, ![(1 : ℝ) / 5, 3 / 10, 1 / 2] k < forceThreshold 3 ∨ ![(1 : ℝ) / 5, 3 / 10, 1 / 2] k = 1 := by
  have h := thr_big 3
  refine ⟨⟨fun k => by fin_cases k <;> norm_num, by norm_num [Fin.sum_univ_succ]⟩, fun k => Or.inl ?_⟩
  fin_cases k <;> norm_num at h ⊢ <;> linarith

/-- Weights on which the guard of `force_move` is taken from index 0. -/
noncomputable def guardedW : Fin 2 → ℝ := ![1 - 1e-13, 1e-13]

theorem guardedW_isProb : IsProb guardedW :=
  ⟨fun k => by fin_cases k <;> norm_num [guardedW], by norm_num [guardedW, Fin.sum_univ_succ]⟩

theorem thr_two : forceThreshold 2 = 1 - 1e-12 := by
  unfold forceThreshold
  apply max_eq_right
  have h2 : Real.exp 2 < 9 := by
    have h := Real.exp_one_lt_d9
    have h0 := Real.exp_pos 1
    have : Real.exp 2 = Real.exp 1 * Real.exp 1 := by rw [← Real.exp_add]; norm_num
    rw [this]; nlinarith
  have h3 : (1 : ℝ) / 9 < Real.exp (-(2 : ℕ)) := by
    rw [show (-((2 : ℕ) : ℝ)) = -2 by norm_num, Real.exp_neg, ← one_div]
    exact one_div_lt_one_div_of_lt (Real.exp_pos 2) h2
  norm_num at h3 ⊢
  linarith

theorem guardedQ01 : guardedW 0 * forceQ guardedW 0 1 = 5e-14 := by
  have : ¬ guardedW 0 < forceThreshold 2 := by rw [thr_two]; norm_num [guardedW]
  have h2 : ¬ guardedW 0 ≤ guardedW 1 := by norm_num [guardedW]
  simp only [forceQ, forceRest, this, if_false, forceAcc, h2, and_false]
  norm_num [guardedW]

theorem guardedQ10 : forceQ guardedW 1 0 = 1 := by
  have : guardedW 1 < forceThreshold 2 := by rw [thr_two]; norm_num [guardedW]
  have h2 : guardedW 1 ≤ guardedW 0 := by norm_num [guardedW]
  have h3 : guardedW 1 < 1 := by norm_num [guardedW]
  have h4 : (0 : Fin 2) ≠ 1 := by decide
  simp only [forceQ, forceRest, this, if_true, forceAcc, h2, h3, and_self, atSet_ne _ _ h4]
  norm_num [guardedW]

/-- C08 fails in the guarded regime: with weights `(1 - 1e-13, 1e-13)` detailed balance (and,
with two states, invariance) does not hold. -/
theorem C08_force_guard_not_reversible (key : Key) :
    ENNReal.ofReal (guardedW 0) * Ex.Pr (force_move key guardedW 0) (fun r => r.1 = 1) ≠
      ENNReal.ofReal (guardedW 1) * Ex.Pr (force_move key guardedW 1) (fun r => r.1 = 0) := by
  rw [force_move_pr guardedW_isProb key (by decide), force_move_pr guardedW_isProb key (by decide),
    ← ENNReal.ofReal_mul (guardedW_isProb.nonneg 0), guardedQ01, guardedQ10,
    ← ENNReal.ofReal_mul (guardedW_isProb.nonneg 1)]
  intro h
  rw [ENNReal.ofReal_eq_ofReal_iff (by norm_num) (by norm_num [guardedW])] at h
  norm_num [guardedW] at h

/-- C08 fails in the guarded regime: the weights are not invariant. -/
theorem C08_force_guard_not_invariant (key : Key) :
    ∑ k, ENNReal.ofReal (guardedW k) * Ex.Pr (force_move key guardedW k) (fun r => r.1 = 1) ≠
      ENNReal.ofReal (guardedW 1) := by
  have e : (univ : Finset (Fin 2)).erase 1 = {0} := by decide
  have h1 : Ex.Pr (force_move key guardedW 1) (fun r => r.1 = 1) = 0 := by
    rw [Ex.Pr, force_move_law' guardedW_isProb]
    simp [e, guardedQ10]
  rw [Fin.sum_univ_two, h1, force_move_pr guardedW_isProb key (by decide), mul_zero, add_zero,
    ← ENNReal.ofReal_mul (guardedW_isProb.nonneg 0), guardedQ01]
  intro h
  rw [ENNReal.ofReal_eq_ofReal_iff (by norm_num) (by norm_num [guardedW])] at h
  norm_num [guardedW] at h

/-! ## C09: degenerate weights -/

/-- C09: if all the mass is on the current index, the forced move stays there for every outcome of the
draws. -/
theorem C09_force_degenerate_stay {w : Fin (n + 1) → ℝ} (hw : IsProb w) (key : Key)
    (k : Fin (n + 1)) (hk : w k = 1) : Always (force_move key w k) (fun r => r.1 = k ∧ r.2 = 0) := by
  refine always_bind' fun i => ?_
  refine always_bind (R := fun u => 0 ≤ u ∧ u < 1) (fun u L h => h.1) fun u hu => always_pure ?_
  have h1 : ¬ u * (1 - w i) < 1 - w k := by
    rw [hk]; have := hw.le_one i; have := mul_nonneg hu.1 (by linarith : 0 ≤ 1 - w i); linarith
  refine ⟨by simp [h1], ?_⟩
  simp [forceAlpha, hk]

/-- C09: if all the mass is on another index `l`, the forced move goes there for every outcome, and
reports acceptance probability one. -/
theorem C09_force_degenerate_move {w : Fin (n + 1) → ℝ} (hw : IsProb w) (key : Key)
    (k l : Fin (n + 1)) (hkl : k ≠ l) (hl : w l = 1) :
    Always (force_move key w k) (fun r => r.1 = l ∧ r.2 = 1) := by
  have hz : ∀ i, i ≠ l → w i = 0 := by
    intro i hi
    have := Finset.sum_le_sum_of_subset_of_nonneg (f := w) (subset_univ {i, l})
      fun i _ _ => hw.nonneg i
    rw [sum_pair hi, hw.sum_one] at this
    exact le_antisymm (by linarith) (hw.nonneg i)
  have hk : w k = 0 := hz k hkl
  have hrest : forceRest w k = w := by
    have h0 : w k < forceThreshold (n + 1) := by
      rw [hk]; have := thr_big (n + 1); norm_num at this; linarith
    funext i
    simp only [forceRest, h0, if_true, atSet_apply]
    rw [hk, sub_zero, div_one]
    split_ifs with h
    · rw [h, hk]
    · rfl
  refine always_bind (R := fun i => i = l) (fun i L h => ?_) fun i hi => ?_
  · rw [hrest] at h
    by_contra hne
    rcases h.1 with h | h
    · rw [hz i hne] at h; exact lt_irrefl _ h
    · have := h l; rw [hl] at this; linarith
  · subst hi
    refine always_bind' fun u => always_pure ⟨?_, ?_⟩
    · simp [hl, hk]
    · have hex : ∃ j, 1 - w j = 0 ∧ 0 < (1 - w k) * forceRest w k j :=
        ⟨i, by rw [hl]; norm_num, by rw [hrest, hk, hl]; norm_num⟩
      simp [forceAlpha, hex]

/-- C09: whatever the weights (guard taken or not), starting from an index with law `w` the law of
the returned index differs from `w` by at most `2e-12` in total variation. -/
theorem C09_force_tv_bound {w : Fin (n + 1) → ℝ} (hw : IsProb w) (key : Key)
    (S : Finset (Fin (n + 1))) :
    |(∑ k, ENNReal.ofReal (w k) * Ex.Pr (force_move key w k) (fun r => r.1 ∈ S)).toReal -
      ∑ k ∈ S, w k| ≤ 2e-12 := by
  set f : Fin (n + 1) → ℝ := fun l => if l ∈ S then 1 else 0 with hf
  have hfm : ∀ l, 0 ≤ f l ∧ f l ≤ 1 := fun l => by rw [hf]; dsimp only; split_ifs <;> norm_num
  have h1 : ∀ k, Ex.Pr (force_move key w k) (fun r => r.1 ∈ S) = ENNReal.ofReal (forceR w f k) := by
    intro k
    rw [← force_move_ofReal hw key k f fun l => (hfm l).1, Ex.Pr]
    have : (fun r : Fin (n + 1) × ℝ => if r.1 ∈ S then (1 : ℝ≥0∞) else 0) =
        fun r => ENNReal.ofReal (f r.1) := by
      funext r; rw [hf]; dsimp only; split_ifs <;> simp
    rw [this]
  have h2 : (∑ k, ENNReal.ofReal (w k) * Ex.Pr (force_move key w k) (fun r => r.1 ∈ S)).toReal =
      ∑ k, w k * forceR w f k := by
    simp only [h1]
    have : ∀ k, ENNReal.ofReal (w k) * ENNReal.ofReal (forceR w f k) =
        ENNReal.ofReal (w k * forceR w f k) := fun k => (ENNReal.ofReal_mul (hw.nonneg k)).symm
    simp only [this]
    have hn : ∀ k ∈ univ, 0 ≤ w k * forceR w f k :=
      fun k _ => mul_nonneg (hw.nonneg k) (forceR_mem hw k f hfm).1
    rw [← ENNReal.ofReal_sum_of_nonneg hn, ENNReal.toReal_ofReal (sum_nonneg hn)]
  have h3 : ∑ k ∈ S, w k = ∑ k, w k * f k := by
    rw [hf]; simp [mul_ite]
  rw [h2, h3]
  refine (force_error_le hw f hfm).trans ?_
  have := forceThreshold_ge (n + 1)
  norm_num at this ⊢; linarith

example : IsProb (![1, 0] : Fin 2 → ℝ) ∧ (![1, 0] : Fin 2 → ℝ) 0 = 1 :=
  ⟨⟨fun k => by fin_cases k <;> norm_num, by norm_num [Fin.sum_univ_succ]⟩, rfl⟩

/-! ## C10: the acceptance probability reported by the forced move -/

theorem force_move_pr_ne {w : Fin (n + 1) → ℝ} (hw : IsProb w) (key : Key) (k : Fin (n + 1)) :
    Ex.Pr (force_move key w k) (fun r => r.1 ≠ k) =
      ENNReal.ofReal (∑ l ∈ univ.erase k, forceQ w k l) := by
  rw [Ex.Pr, force_move_law' hw, ENNReal.ofReal_sum_of_nonneg fun l _ => forceQ_nonneg hw k l]
  simp only [ne_eq, not_true, if_false, mul_zero, add_zero]
  exact sum_congr rfl fun l hl => by simp [ne_of_mem_erase hl]

theorem force_move_alpha (key : Key) (w : Fin (n + 1) → ℝ) (k : Fin (n + 1)) :
    Always (force_move key w k) (fun r => r.2 = forceAlpha w k) :=
  always_bind' fun _ => always_bind' fun _ => always_pure rfl

/-- C10 is false of the code: with weights `(0.2, 0.3, 0.5)` from index 1, the reported value is 1 but
the probability of moving is `27/28`. -/
theorem C10_force_alpha_wrong (key : Key) :
    Always (force_move key ![(1 : ℝ) / 5, 3 / 10, 1 / 2] 1) (fun r => r.2 = 1) ∧
      Ex.Pr (force_move key ![(1 : ℝ) / 5, 3 / 10, 1 / 2] 1) (fun r => r.1 ≠ 1) =
        ENNReal.ofReal (27 / 28) := by
  set w : Fin 3 → ℝ := ![(1 : ℝ) / 5, 3 / 10, 1 / 2] with hwdef
  have hw : IsProb w :=
    ⟨fun k => by fin_cases k <;> norm_num [hwdef], by norm_num [hwdef, Fin.sum_univ_succ]⟩
  have w0 : w 0 = 1 / 5 := rfl
  have w1 : w 1 = 3 / 10 := rfl
  have w2 : w 2 = 1 / 2 := rfl
  have ht : w 1 < forceThreshold 3 := by
    have := thr_big 3; rw [w1]; norm_num at this ⊢; linarith
  have r0 : forceRest w 1 0 = 2 / 7 := by
    simp only [forceRest, ht, if_true, atSet_ne _ _ (by decide : (0 : Fin 3) ≠ 1)]
    rw [w0, w1]; norm_num
  have r1 : forceRest w 1 1 = 0 := by
    simp only [forceRest, ht, if_true, atSet_same]; norm_num
  have r2 : forceRest w 1 2 = 5 / 7 := by
    simp only [forceRest, ht, if_true, atSet_ne _ _ (by decide : (2 : Fin 3) ≠ 1)]
    rw [w2, w1]; norm_num
  constructor
  · refine always_mono (force_move_alpha key w 1) fun r hr => ?_
    rw [hr]
    have hne : ¬ ∃ i, 1 - w i = 0 ∧ 0 < (1 - w 1) * forceRest w 1 i := by
      rintro ⟨i, hi, _⟩
      fin_cases i <;> norm_num [hwdef] at hi
    have hs : ∑ i, (1 - w 1) * forceRest w 1 i / (1 - w i) = 5 / 4 := by
      rw [Fin.sum_univ_three, r0, r1, r2, w0, w1, w2]; norm_num
    have : forceAlpha w 1 = min (max (5 / 4) 0) 1 := by
      rw [← hs]; exact if_neg hne
    rw [this]; norm_num
  · rw [force_move_pr_ne hw]
    have e : (univ : Finset (Fin 3)).erase 1 = {0, 2} := by decide
    rw [e, sum_pair (by decide)]
    simp only [forceQ, forceAcc, r0, r2, w0, w1, w2]
    norm_num

/-- C10 (partial: the code reports an upper bound only). -/
theorem C10_force_alpha_upper_partial {w : Fin (n + 1) → ℝ} (hw : IsProb w) (key : Key)
    (k : Fin (n + 1)) :
    Always (force_move key w k) (fun r => (0 ≤ r.2 ∧ r.2 ≤ 1) ∧
      Ex.Pr (force_move key w k) (fun r => r.1 ≠ k) ≤ ENNReal.ofReal r.2) := by
  refine always_mono (force_move_alpha key w k) fun r hr => ?_
  rw [hr, force_move_pr_ne hw]
  have hr' := forceRest_isProb hw k
  refine ⟨?_, ENNReal.ofReal_le_ofReal ?_⟩
  · unfold forceAlpha
    dsimp only
    split_ifs
    · norm_num
    · exact ⟨le_min (le_max_right _ _) zero_le_one, min_le_right _ _⟩
  · unfold forceAlpha
    dsimp only
    split_ifs with hex
    · exact forceQ_sum_le hw k
    · refine le_min (le_max_of_le_left ?_) (forceQ_sum_le hw k)
      have hterm : ∀ l, 0 ≤ (1 - w k) * forceRest w k l / (1 - w l) := fun l =>
        div_nonneg (mul_nonneg (by linarith [hw.le_one k]) (hr'.nonneg l)) (by linarith [hw.le_one l])
      refine le_trans (sum_le_sum fun l hl => ?_)
        (sum_le_sum_of_subset_of_nonneg (erase_subset k univ) fun l _ _ => hterm l)
      have hl1 := hw.le_one l
      rcases eq_or_lt_of_le hl1 with h1 | h1
      · have h2 : (1 - w k) * forceRest w k l = 0 := by
          refine le_antisymm ?_ (mul_nonneg (by linarith [hw.le_one k]) (hr'.nonneg l))
          by_contra hcon
          exact hex ⟨l, by rw [h1]; norm_num, not_le.mp hcon⟩
        rw [h2, zero_div]
        rcases mul_eq_zero.mp h2 with h3 | h3
        · simp [forceQ, forceAcc, h1, show w k = 1 by linarith]
        · simp [forceQ, h3]
      · have hpos : 0 < 1 - w l := by linarith
        have : forceAcc w k l ≤ (1 - w k) / (1 - w l) := by
          unfold forceAcc
          split_ifs with h
          · rw [le_div_iff₀ hpos]; linarith [h.2]
          · exact le_rfl
        calc forceQ w k l ≤ forceRest w k l * ((1 - w k) / (1 - w l)) :=
              mul_le_mul_of_nonneg_left this (hr'.nonneg l)
          _ = _ := by ring

/-- C10 (partial: exact when the current index carries the largest weight and the guard is not
taken). -/
theorem C10_force_alpha_exact_partial {w : Fin (n + 1) → ℝ} (hw : IsProb w) (key : Key)
    (k : Fin (n + 1)) (hmax : ∀ l, w l ≤ w k) (hg : w k < forceThreshold (n + 1) ∨ w k = 1) :
    Always (force_move key w k) (fun r =>
      Ex.Pr (force_move key w k) (fun r => r.1 ≠ k) = ENNReal.ofReal r.2) := by
  refine always_mono (force_move_alpha key w k) fun r hr => ?_
  rw [hr, force_move_pr_ne hw]
  congr 1
  rcases hg with hg | hg
  · have hk1 : w k < 1 := hg.trans (forceThreshold_lt_one _)
    have hex : ¬ ∃ i, 1 - w i = 0 ∧ 0 < (1 - w k) * forceRest w k i := by
      rintro ⟨i, hi, _⟩; have := hmax i; linarith
    have hsum : ∑ i, (1 - w k) * forceRest w k i / (1 - w i) =
        ∑ l ∈ univ.erase k, forceQ w k l := by
      rw [← Finset.add_sum_erase univ _ (mem_univ k)]
      have h0 : forceRest w k k = 0 := by simp [forceRest, hg]
      rw [h0, mul_zero, zero_div, zero_add]
      refine sum_congr rfl fun l _ => ?_
      have hpos : 0 < 1 - w l := by linarith [hmax l]
      unfold forceQ forceAcc
      split_ifs with h
      · have he : w l = w k := le_antisymm (hmax l) h.2
        rw [he]; field_simp [show (1 - w k) ≠ 0 by linarith]
      · ring
    simp only [forceAlpha, hex, if_false, hsum]
    rw [max_eq_left (sum_nonneg fun l _ => forceQ_nonneg hw k l), min_eq_left (forceQ_sum_le hw k)]
  · have h1 : ∀ l ∈ univ.erase k, forceQ w k l = 0 := by
      intro l _; simp [forceQ, forceAcc, hg]
    rw [sum_eq_zero h1]
    simp [forceAlpha, hg]

example : IsProb ![(1 : ℝ) / 5, 3 / 10, 1 / 2] ∧
    (∀ l, ![(1 : ℝ) / 5, 3 / 10, 1 / 2] l ≤ ![(1 : ℝ) / 5, 3 / 10, 1 / 2] 2) := by
  refine ⟨⟨fun k => by fin_cases k <;> norm_num, by norm_num [Fin.sum_univ_succ]⟩, fun k => ?_⟩
  have h2 : ![(1 : ℝ) / 5, 3 / 10, 1 / 2] 2 = 1 / 2 := rfl
  rw [h2]
  fin_cases k <;> norm_num

/-! ## C11: `_log_1_m_exp` -/

/-- What `_log_1_m_exp` computes: `log (exp max - exp a)` on entries below the maximum. -/
theorem C11_log_1_m_exp_value (arr : Fin (n + 1) → ℝ) (i : Fin (n + 1)) (h : arr i < maxA arr) :
    log_1_m_exp arr i = Real.log (Real.exp (maxA arr) - Real.exp (arr i)) := by
  have h1 : 0 < -(Real.exp (arr i - maxA arr) - 1) := by
    have : Real.exp (arr i - maxA arr) < 1 := Real.exp_lt_one_iff.mpr (by linarith)
    linarith
  rw [log_1_m_exp]
  dsimp only
  have h2 : Real.exp (maxA arr) - Real.exp (arr i) =
      -(Real.exp (arr i - maxA arr) - 1) * Real.exp (maxA arr) := by
    rw [Real.exp_sub]
    field_simp
    ring
  rw [h2, Real.log_mul h1.ne' (Real.exp_pos _).ne', Real.log_exp]

/-- C11 is false of the code: on `(-1, -2)` the second entry is not `log (1 - exp (-2))`. -/
theorem C11_log_1_m_exp_wrong :
    log_1_m_exp ![(-1 : ℝ), -2] 1 ≠ Real.log (1 - Real.exp (-2)) := by
  have hm : maxA ![(-1 : ℝ), -2] = -1 := by
    apply le_antisymm
    · obtain ⟨k, hk⟩ := maxA_mem ![(-1 : ℝ), -2]
      rw [hk]; fin_cases k <;> norm_num
    · exact le_maxA ![(-1 : ℝ), -2] 0
  have h1 : (![(-1 : ℝ), -2] : Fin 2 → ℝ) 1 = -2 := rfl
  rw [C11_log_1_m_exp_value _ _ (by rw [hm, h1]; norm_num), hm, h1]
  have a1 : Real.exp (-2) < Real.exp (-1) := Real.exp_lt_exp.mpr (by norm_num)
  have a2 : Real.exp (-1 : ℝ) < 1 := Real.exp_lt_one_iff.mpr (by norm_num)
  intro h
  have := Real.log_injOn_pos (Set.mem_Ioi.mpr (by linarith)) (Set.mem_Ioi.mpr (by linarith)) h
  linarith

/-- C11 (partial: only when the maximum of the array is `0`). -/
theorem C11_log_1_m_exp_partial (arr : Fin (n + 1) → ℝ) (hm : maxA arr = 0) (i : Fin (n + 1))
    (h : arr i < 0) : log_1_m_exp arr i = Real.log (1 - Real.exp (arr i)) := by
  rw [C11_log_1_m_exp_value arr i (by rw [hm]; exact h), hm, Real.exp_zero]

example : ∃ arr : Fin 2 → ℝ, maxA arr = 0 ∧ arr 1 < 0 := by
  refine ⟨![0, -1], ?_, by norm_num⟩
  apply le_antisymm
  · obtain ⟨k, hk⟩ := maxA_mem (![0, -1] : Fin 2 → ℝ)
    rw [hk]; fin_cases k <;> norm_num
  · exact le_maxA (![0, -1] : Fin 2 → ℝ) 0

end Verif.Props
