import Verif.Spec.Stats
import Verif.Props.SvRunsKeys

/-!
# C65: the target statistic of the twisted kernels
-/

namespace Verif.Props
open Verif Verif.Model Verif.Spec Finset

variable {k : ℕ}

theorem sortedVals_some (h : Fin k → ℝ) : sortedVals (fun i => some (h i)) = (List.ofFn h).insertionSort (· ≤ ·) := by
  unfold sortedVals
  have : (List.ofFn fun i => some (h i)) = (List.ofFn h).map some := by
    rw [List.map_ofFn]
    rfl
  rw [this, List.filterMap_map]
  congr 1
  exact List.filterMap_some

theorem sortedVals_length (h : Fin k → ℝ) : (sortedVals fun i => some (h i)).length = k := by
  rw [sortedVals_some, List.length_insertionSort, List.length_ofFn]

theorem countP_sortedVals (h : Fin k → ℝ) (p : ℝ → Prop) [DecidablePred p] :
    (sortedVals fun i => some (h i)).countP (fun x => decide (p x)) = Nat.card {i // p (h i)} := by
  rw [sortedVals_some, (List.perm_insertionSort (· ≤ ·) (List.ofFn h)).countP_eq, Nat.card_eq_fintype_card,
    Fintype.card_subtype, ← List.map_id (List.ofFn h), List.ofFn_eq_map, List.map_map, List.countP_map,
    List.countP_eq_length_filter]
  rw [← List.toFinset_card_of_nodup ((List.nodup_finRange k).filter _)]
  congr 1
  ext i
  simp

theorem getD_eq {l : List ℝ} {j : ℕ} (hj : j < l.length) : l.getD j 0 = l[j] := by
  rw [List.getD_eq_getElem?_getD, List.getElem?_eq_getElem hj]
  rfl

/-- The entries of the sorted array are the order statistics. -/
theorem orderStat_getD (h : Fin k → ℝ) {j : ℕ} (hj : j < k) :
    IsOrderStat h j ((sortedVals fun i => some (h i)).getD j 0) := by
  obtain ⟨l, hl⟩ : ∃ l, l = sortedVals fun i => some (h i) := ⟨_, rfl⟩
  have hlen : l.length = k := by rw [hl, sortedVals_length]
  have hs : l.Pairwise (· ≤ ·) := by
    rw [hl, sortedVals_some]
    exact List.pairwise_insertionSort (· ≤ ·) _
  have hjl : j < l.length := hlen ▸ hj
  have hd : l = l.take j ++ l[j] :: l.drop (j + 1) := by
    rw [← List.drop_eq_getElem_cons hjl, List.take_append_drop]
  have hs' := hs
  rw [hd, List.pairwise_append] at hs'
  obtain ⟨-, h2, h3⟩ := hs'
  rw [List.pairwise_cons] at h2
  rw [← hl, getD_eq hjl]
  obtain ⟨a, hae⟩ : ∃ a, a = l[j] := ⟨_, rfl⟩
  rw [← hae] at hd h2 h3 ⊢
  constructor
  · rw [← countP_sortedVals h fun x => x < a, ← hl, hd, List.countP_append, List.countP_cons_of_neg (by simp),
      List.countP_eq_zero (l := l.drop (j + 1)) |>.mpr fun x hx => by simpa using h2.1 x hx, add_zero]
    exact List.countP_le_length.trans (List.length_take_le _ _)
  · rw [← countP_sortedVals h fun x => x ≤ a, ← hl, hd, List.countP_append, List.countP_cons_of_pos (by simp)]
    have : (l.take j).countP (fun x => decide (x ≤ a)) = j := by
      rw [List.countP_eq_length.mpr fun x hx => by simpa using h3 x hx a (by simp), List.length_take]
      omega
    omega

/-- The interpolated entry of the sorted array. -/
theorem quantileOf_spec (h : Fin (k + 1) → ℝ) {q : ℝ} (h0 : 0 ≤ q) (h1 : q ≤ 1) :
    IsQuantile h q (quantileOf (sortedVals fun i => some (h i)) q) := by
  have hk : (((sortedVals fun i => some (h i)).length : ℤ) - 1) = k := by
    rw [sortedVals_length]
    push_cast
    ring
  have hp0 : 0 ≤ q * k := mul_nonneg h0 (Nat.cast_nonneg k)
  have hp1 : q * k ≤ k := mul_le_of_le_one_left (Nat.cast_nonneg k) h1
  have hf0 : 0 ≤ ⌊q * (k : ℝ)⌋ := Int.floor_nonneg.mpr hp0
  have hf1 : ⌊q * (k : ℝ)⌋ ≤ k := by
    have : (⌊q * (k : ℝ)⌋ : ℝ) ≤ k := (Int.floor_le _).trans hp1
    exact_mod_cast this
  have hc0 : 0 ≤ ⌈q * (k : ℝ)⌉ := Int.ceil_nonneg hp0
  have hc1 : ⌈q * (k : ℝ)⌉ ≤ k := Int.ceil_le.mpr (by exact_mod_cast hp1)
  refine ⟨_, _, orderStat_getD h (j := ⌊q * (k : ℝ)⌋.toNat) (by omega), orderStat_getD h (j := ⌈q * (k : ℝ)⌉.toNat) (by omega), ?_⟩
  unfold quantileOf
  rw [hk]
  simp only [Int.cast_natCast]
  rw [max_eq_left hf0, min_eq_left hf1, max_eq_left hc0, min_eq_left hc1, Int.fract]
  ring

/-- Beyond level 1 the quantile is the largest value. -/
theorem quantileOf_large (h : Fin (k + 1) → ℝ) {q : ℝ} (h1 : 1 ≤ q) :
    IsOrderStat h k (quantileOf (sortedVals fun i => some (h i)) q) := by
  have hk : (((sortedVals fun i => some (h i)).length : ℤ) - 1) = k := by
    rw [sortedVals_length]
    push_cast
    ring
  have hp1 : (k : ℝ) ≤ q * k := le_mul_of_one_le_left (Nat.cast_nonneg k) h1
  have hf1 : (k : ℤ) ≤ ⌊q * (k : ℝ)⌋ := Int.le_floor.mpr (by exact_mod_cast hp1)
  have hc1 : (k : ℤ) ≤ ⌈q * (k : ℝ)⌉ := hf1.trans (Int.floor_le_ceil _)
  have e : quantileOf (sortedVals fun i => some (h i)) q = (sortedVals fun i => some (h i)).getD k 0 := by
    unfold quantileOf
    rw [hk]
    simp only [Int.cast_natCast]
    rw [max_eq_left (by omega), min_eq_right hf1, max_eq_left (by omega), min_eq_right hc1, Int.toNat_natCast]
    ring
  rw [e]
  exact orderStat_getD h (Nat.lt_succ_self k)

theorem orderStat_last {h : Fin (k + 1) → ℝ} {a : ℝ} (ha : IsOrderStat h k a) : (∀ i, h i ≤ a) ∧ ∃ i, h i = a := by
  have h1 : Nat.card {i // h i ≤ a} = k + 1 := by
    refine le_antisymm ?_ ha.2
    have := Nat.card_le_card_of_injective (fun i : {i // h i ≤ a} => i.1) Subtype.val_injective
    simpa using this
  have hall : ∀ i, h i ≤ a := by
    intro i
    have hb : Function.Bijective (fun i : {i // h i ≤ a} => i.1) := by
      refine (Nat.bijective_iff_injective_and_card _).mpr ⟨Subtype.val_injective, ?_⟩
      simpa using h1
    obtain ⟨i', rfl⟩ := hb.2 i
    exact i'.2
  refine ⟨hall, ?_⟩
  by_contra hne
  push Not at hne
  have : Nat.card {i // h i < a} = k + 1 := by
    have e : ∀ i, h i < a := fun i => lt_of_le_of_ne (hall i) (hne i)
    rw [Nat.card_congr (Equiv.subtypeUnivEquiv e)]
    simp
  have := ha.1
  omega

theorem orderStat_first {h : Fin (k + 1) → ℝ} {a : ℝ} (ha : IsOrderStat h 0 a) : (∀ i, a ≤ h i) ∧ ∃ i, h i = a := by
  have h1 : IsEmpty {i // h i < a} := Finite.card_eq_zero_iff.mp (Nat.le_zero.mp ha.1)
  have hall : ∀ i, a ≤ h i := fun i => not_lt.mp fun hi => h1.false ⟨i, hi⟩
  have : Nonempty {i // h i ≤ a} := (Nat.card_pos_iff.mp ha.2).1
  obtain ⟨i, hi⟩ := this
  exact ⟨hall, i, le_antisymm hi (hall i)⟩

/-- A quantile lies between two values of the array. -/
theorem quantile_between {h : Fin (k + 1) → ℝ} {q r : ℝ} (hr : IsQuantile h q r) : (∃ i, h i ≤ r) ∧ ∃ i, r ≤ h i := by
  have mem : ∀ {j a}, IsOrderStat h j a → ∃ i, h i = a := fun {j a} ha => by
    by_contra hne
    push Not at hne
    have : Nat.card {i // h i ≤ a} ≤ Nat.card {i // h i < a} :=
      Nat.card_le_card_of_injective (fun i => ⟨i.1, lt_of_le_of_ne i.2 (hne i.1)⟩) fun i i' e => Subtype.ext (by simpa using e)
    have := ha.1
    have := ha.2
    omega
  obtain ⟨a, b, ha, hb, rfl⟩ := hr
  obtain ⟨i, hi⟩ := mem ha
  obtain ⟨j, hj⟩ := mem hb
  have f0 := Int.fract_nonneg (q * (k : ℝ))
  have f1 := (Int.fract_lt_one (q * (k : ℝ))).le
  rcases le_total a b with hab | hab
  · exact ⟨⟨i, by rw [hi]; nlinarith⟩, ⟨j, by rw [hj]; nlinarith⟩⟩
  · exact ⟨⟨j, by rw [hj]; nlinarith⟩, ⟨i, by rw [hi]; nlinarith⟩⟩

theorem strict_some (f : List ℝ → ℝ) (h : Fin k → ℝ) : strict f (fun i => some (h i)) = some (f (sortedVals fun i => some (h i))) :=
  if_pos fun _ => rfl

theorem nanmean_some (h : Fin (k + 1) → ℝ) : nanmean (fun i => some (h i)) = some ((∑ i, h i) / (k + 1 : ℕ)) := by
  unfold nanmean
  simp

/-- **C65** (`--target-stat`): what the acceptance rate of the twisted kernels is compared with, for rates `h` of the time
steps.  A number `p` is the level `p/100` of a quantile. -/
theorem C65_target_stat (h : Fin (k + 1) → ℝ) :
    (∃ f, statOf (target_stat_of "mean") = .ok f ∧ f (fun i => some (h i)) = some ((∑ i, h i) / (k + 1 : ℕ))) ∧
    (∃ f r, statOf (target_stat_of "median") = .ok f ∧ f (fun i => some (h i)) = some r ∧ IsQuantile h 0.5 r) ∧
    (∃ f r, statOf (target_stat_of "max") = .ok f ∧ f (fun i => some (h i)) = some r ∧ (∀ i, h i ≤ r) ∧ ∃ i, h i = r) ∧
    (∃ f r, statOf (target_stat_of "min") = .ok f ∧ f (fun i => some (h i)) = some r ∧ (∀ i, r ≤ h i) ∧ ∃ i, h i = r) ∧
    ∀ p : ℕ, ∃ f r, statOf (target_stat_of p.repr) = .ok f ∧ f (fun i => some (h i)) = some r ∧
      (p ≤ 100 → IsQuantile h ((p : ℝ) / 100) r) ∧ (100 ≤ p → (∀ i, h i ≤ r) ∧ ∃ i, h i = r) := by
  have hlen := sortedVals_length h
  refine ⟨⟨_, rfl, nanmean_some h⟩, ⟨_, _, rfl, ?_, quantileOf_spec h (by norm_num) (by norm_num)⟩, ⟨_, _, rfl, strict_some _ h, ?_⟩,
    ⟨_, _, rfl, strict_some _ h, ?_⟩, fun p => ?_⟩
  · refine if_neg fun e => ?_
    rw [e] at hlen
    simp at hlen
  · apply orderStat_last
    have hk : k < (sortedVals fun i => some (h i)).length := by rw [hlen]; exact Nat.lt_succ_self k
    have e : (sortedVals fun i => some (h i)).getLastD 0 = (sortedVals fun i => some (h i)).getD k 0 := by
      rw [List.getLastD_eq_getLast?, List.getLast?_eq_getElem?, hlen, Nat.add_sub_cancel, List.getElem?_eq_getElem hk,
        getD_eq hk]
      rfl
    rw [e]
    exact orderStat_getD h (Nat.lt_succ_self k)
  · apply orderStat_first
    have := orderStat_getD h (Nat.succ_pos k)
    have e : (sortedVals fun i => some (h i)).headD 0 = (sortedVals fun i => some (h i)).getD 0 0 := by
      cases sortedVals fun i => some (h i) <;> rfl
    rw [e]
    exact this
  · have hn : isNumeric p.repr = true := by
      unfold isNumeric
      rw [Nat.toList_repr]
      simp only [Bool.and_eq_true, Bool.not_eq_true', List.all_eq_true]
      refine ⟨?_, fun c hc => Nat.isDigit_of_mem_toDigits (by norm_num) (by norm_num) hc⟩
      rw [List.isEmpty_eq_false_iff]
      exact Nat.toDigits_ne_nil
    have hf : floatOf p.repr = p := by
      unfold floatOf
      rw [Nat.toList_repr]
      exact Nat.ofDigitChars_toDigits (by norm_num) (by norm_num)
    have e : target_stat_of p.repr = .level ((p : ℝ) / 100) := by
      rw [target_stat_of, if_pos hn, hf]
    rw [e]
    refine ⟨_, _, rfl, strict_some _ h, fun hp => ?_, fun hp => ?_⟩
    · refine quantileOf_spec h (by positivity) ?_
      rw [div_le_one (by norm_num)]
      exact_mod_cast hp
    · refine orderStat_last (quantileOf_large h ?_)
      rw [le_div_iff₀ (by norm_num), one_mul]
      exact_mod_cast hp

/-- **C65** (`--target-stat`): whatever the accepted option, the rate that drives the step sizes lies between two of the
rates of the time steps; so it is between 0 and 1. -/
theorem C65_stat_range {s : String} {f : (Fin (k + 1) → Option ℝ) → Option ℝ} (hs : statOf (target_stat_of s) = .ok f)
    (h : Fin (k + 1) → ℝ) : ∃ r, f (fun i => some (h i)) = some r ∧ (∃ i, h i ≤ r) ∧ ∃ i, r ≤ h i := by
  have hT := C65_target_stat h
  by_cases hn : isNumeric s = true
  · have e : target_stat_of s = .level ((floatOf s : ℝ) / 100) := if_pos hn
    rw [e] at hs
    cases hs
    refine ⟨_, strict_some _ h, ?_⟩
    rcases le_total ((floatOf s : ℝ) / 100) 1 with h1 | h1
    · exact quantile_between (quantileOf_spec h (by positivity) h1)
    · obtain ⟨h2, i, hi⟩ := orderStat_last (quantileOf_large h h1)
      exact ⟨⟨i, h2 i⟩, ⟨i, hi.ge⟩⟩
  · have hok : svStatOK s := by
      by_contra hno
      rw [statOf_error hno] at hs
      cases hs
    rcases hok with hok | rfl | rfl | rfl | rfl
    · exact absurd hok hn
    · obtain ⟨f', h1, h2⟩ := hT.1
      cases h1.symm.trans hs
      refine ⟨_, h2, ?_, ?_⟩
      · by_contra hno
        push Not at hno
        have := Finset.sum_lt_sum_of_nonempty (univ_nonempty (α := Fin (k + 1))) fun i _ => hno i
        rw [sum_const, card_univ, Fintype.card_fin, nsmul_eq_mul, mul_div_cancel₀ _ (by positivity)] at this
        exact lt_irrefl _ this
      · by_contra hno
        push Not at hno
        have := Finset.sum_lt_sum_of_nonempty (univ_nonempty (α := Fin (k + 1))) fun i _ => hno i
        rw [sum_const, card_univ, Fintype.card_fin, nsmul_eq_mul, mul_div_cancel₀ _ (by positivity)] at this
        exact lt_irrefl _ this
    · obtain ⟨f', r, h1, h2, h3⟩ := hT.2.1
      cases h1.symm.trans hs
      exact ⟨r, h2, quantile_between h3⟩
    · obtain ⟨f', r, h1, h2, h3, i, hi⟩ := hT.2.2.1
      cases h1.symm.trans hs
      exact ⟨r, h2, ⟨i, h3 i⟩, ⟨i, hi.ge⟩⟩
    · obtain ⟨f', r, h1, h2, h3, i, hi⟩ := hT.2.2.2.1
      cases h1.symm.trans hs
      exact ⟨r, h2, ⟨i, hi.le⟩, ⟨i, h3 i⟩⟩

/-! ## Examples -/

/-- `--target-stat 25` with three rates: halfway between the two smallest ones. -/
example : ∃ f, statOf (target_stat_of "25") = .ok f ∧ f (fun i => some (![0.8, 0.2, 0.4] i)) = some 0.3 := by
  obtain ⟨f, r, h1, h2, h3, -⟩ := (C65_target_stat (k := 2) ![0.8, 0.2, 0.4]).2.2.2.2 25
  refine ⟨f, h1, h2.trans (congrArg some ((h3 (by norm_num)).unique ⟨0.2, 0.4, ?_, ?_, ?_⟩))⟩
  · have e : ⌊((25 : ℕ) : ℝ) / 100 * (2 : ℕ)⌋.toNat = 0 := by norm_num [Int.floor_eq_iff]
    rw [e]
    simp only [IsOrderStat, Nat.card_eq_fintype_card, Fintype.card_subtype]
    constructor
    · rw [Nat.le_zero, card_eq_zero, filter_eq_empty_iff]
      intro i _
      fin_cases i <;> norm_num
    · rw [card_pos]
      exact ⟨1, by simp⟩
  · have e : ⌈((25 : ℕ) : ℝ) / 100 * (2 : ℕ)⌉.toNat = 1 := by
      have : ⌈((25 : ℕ) : ℝ) / 100 * (2 : ℕ)⌉ = 1 := by rw [Int.ceil_eq_iff]; norm_num
      rw [this]; rfl
    rw [e]
    simp only [IsOrderStat, Nat.card_eq_fintype_card, Fintype.card_subtype]
    constructor
    · rw [card_le_one]
      intro i hi j hj
      rw [mem_filter] at hi hj
      have e : ∀ i : Fin 3, ![(0.8 : ℝ), 0.2, 0.4] i < 0.4 → i = 1 := by
        intro i hi
        fin_cases i <;> first | rfl | (norm_num at hi)
      rw [e i hi.2, e j hj.2]
    · rw [one_lt_card]
      refine ⟨1, ?_, 2, ?_, by decide⟩
      · rw [mem_filter]
        exact ⟨mem_univ _, by show (0.2 : ℝ) ≤ 0.4; norm_num⟩
      · rw [mem_filter]
        exact ⟨mem_univ _, le_refl (0.4 : ℝ)⟩
  · have : Int.fract (((25 : ℕ) : ℝ) / 100 * (2 : ℕ)) = 0.5 := by
      rw [Int.fract_eq_iff]
      exact ⟨by norm_num, by norm_num, 0, by norm_num⟩
    rw [this]
    norm_num

end Verif.Props
