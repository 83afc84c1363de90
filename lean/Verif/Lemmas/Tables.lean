import Verif.Model.ResultsAnalysis
import Verif.Spec.Tables
import Verif.Props.SvStats

/-!
# Product indices and flattened arrays
-/

namespace Verif.Lemmas
open Verif Verif.Model Verif.Spec

theorem zip_product {α ι κ β : Type} (l : List α) (g : α → ι) (m : List κ) (h : α → List β) (hl : ∀ a, (h a).length = m.length) :
    ((l.map g) ×ˢ m).zip (l.flatMap h) = l.flatMap fun a => (m.zip (h a)).map fun q => ((g a, q.1), q.2) := by
  induction l with
  | nil => rfl
  | cons a l ih =>
    rw [List.map_cons, List.product_cons, List.flatMap_cons, List.flatMap_cons, List.zip_append (by simp [hl]), ih, List.zip_map_left]
    rfl

theorem mem_zip_product {α ι κ β : Type} {l : List α} {g : α → ι} {m : List κ} {h : α → List β} (hl : ∀ a, (h a).length = m.length)
    {i : ι} {j : κ} {v : β} :
    ((i, j), v) ∈ ((l.map g) ×ˢ m).zip (l.flatMap h) ↔ ∃ a ∈ l, g a = i ∧ (j, v) ∈ m.zip (h a) := by
  rw [zip_product l g m h hl]
  simp only [List.mem_flatMap, List.mem_map, Prod.mk.injEq]
  constructor
  · rintro ⟨a, ha, q, hq, ⟨h1, h2⟩, h3⟩
    exact ⟨a, ha, h1, by rw [← h2, ← h3]; exact hq⟩
  · rintro ⟨a, ha, h1, hq⟩
    exact ⟨a, ha, (j, v), hq, ⟨h1, rfl⟩, rfl⟩

/-- A range written with `Fin`. -/
theorem pyRange_eq (n g : ℕ) : pyRange n g = (List.finRange (strideLen n g)).map fun k => k.1 * g := by
  have h : List.range (strideLen n g) = (List.finRange (strideLen n g)).map fun k => k.1 := by
    rw [List.map_coe_finRange_eq_range]
  rw [pyRange, h, List.map_map]
  rfl

theorem strideLen_one (n : ℕ) : strideLen n 1 = n := by simp [strideLen]

theorem pyRange_one (n : ℕ) : pyRange n 1 = (List.finRange n).map fun k => k.1 := by
  rw [pyRange, strideLen_one, List.map_coe_finRange_eq_range]
  simp

theorem pyRange_length (n g : ℕ) : (pyRange n g).length = strideLen n g := by simp [pyRange]

theorem pyRange_nodup (n : ℕ) {g : ℕ} (hg : 0 < g) : (pyRange n g).Nodup :=
  List.nodup_range.map fun _ _ h => Nat.eq_of_mul_eq_mul_right hg h

variable {a b c d : ℕ}

theorem flat1_eq {α : Type} (x : Fin a → α) : flat1 x = (List.finRange a).map x := List.ofFn_eq_map

theorem flat1_length {α : Type} (x : Fin a → α) : (flat1 x).length = a := List.length_ofFn

theorem length_flatMap_const {α β : Type} (l : List α) (h : α → List β) (k : ℕ) (hk : ∀ x ∈ l, (h x).length = k) :
    (l.flatMap h).length = l.length * k := by
  induction l with
  | nil => simp
  | cons x l ih =>
    rw [List.flatMap_cons, List.length_append, hk x (by simp), ih fun y hy => hk y (by simp [hy]), List.length_cons]
    ring

theorem flat2_length {α : Type} (x : Fin a → Fin b → α) : (flat2 x).length = a * b := by
  rw [flat2, length_flatMap_const _ _ b fun y _ => flat1_length y, flat1_length]

theorem flat3_length {α : Type} (x : Fin a → Fin b → Fin c → α) : (flat3 x).length = a * (b * c) := by
  rw [flat3, length_flatMap_const _ _ _ fun y _ => flat2_length y, flat1_length]

theorem flat4_length {α : Type} (x : Fin a → Fin b → Fin c → Fin d → α) : (flat4 x).length = a * (b * (c * d)) := by
  rw [flat4, length_flatMap_const _ _ _ fun y _ => flat3_length y, flat1_length]

/-- One axis. -/
theorem mem_zip1 {α ι : Type} {x : Fin a → α} {g : Fin a → ι} {i : ι} {v : α} :
    (i, v) ∈ ((List.finRange a).map g).zip (flat1 x) ↔ ∃ k, g k = i ∧ x k = v := by
  rw [flat1_eq, List.zip_map']
  simp

theorem flatMap_flat1 {α β : Type} (x : Fin a → α) (f : α → List β) : (flat1 x).flatMap f = (List.finRange a).flatMap fun k => f (x k) := by
  rw [flat1_eq, List.flatMap_map]

/-- Several axes, from the first one on. -/
theorem mem_zip_axis {α ι κ β : Type} {x : Fin a → α} {g : Fin a → ι} {m : List κ} {f : α → List β} (hl : ∀ y, (f y).length = m.length)
    {i : ι} {j : κ} {v : β} :
    ((i, j), v) ∈ (((List.finRange a).map g) ×ˢ m).zip ((flat1 x).flatMap f) ↔ ∃ k, g k = i ∧ (j, v) ∈ m.zip (f (x k)) := by
  rw [flatMap_flat1, mem_zip_product fun k => hl (x k)]
  simp

theorem length_product_map {α ι κ : Type} (l : List α) (g : α → ι) (m : List κ) : ((l.map g) ×ˢ m).length = l.length * m.length := by
  rw [List.length_product, List.length_map]

theorem setColumn_ok {ι : Type} {index : List ι} {values : List ℝ} (h : values.length = index.length) :
    setColumn index values = .ok (index.zip values) := if_pos h

theorem tabulates_zip {ι : Type} {index : List ι} {values : List ℝ} {R : ι → ℝ → Prop} (h : values.length = index.length)
    (hn : index.Nodup) (hR : ∀ i v, (i, v) ∈ index.zip values ↔ R i v) : Tabulates (index.zip values) R := by
  refine ⟨?_, hR⟩
  rw [List.map_fst_zip h.ge]
  exact hn

/-- Smallest, middle and largest entries. -/
theorem minOf_spec {k : ℕ} (x : Fin (k + 1) → ℝ) : IsLeast (Set.range x) (minOf x) := by
  have h := Props.orderStat_first (Props.orderStat_getD x (Nat.succ_pos k))
  rw [Props.sortedVals_some] at h
  have e : minOf x = ((List.ofFn x).insertionSort (· ≤ ·)).getD 0 0 := by
    unfold minOf
    cases (List.ofFn x).insertionSort (· ≤ ·) <;> rfl
  rw [e]
  exact ⟨h.2, by rintro _ ⟨i, rfl⟩; exact h.1 i⟩

theorem maxOf_spec {k : ℕ} (x : Fin (k + 1) → ℝ) : IsGreatest (Set.range x) (maxOf x) := by
  have h := Props.orderStat_last (Props.orderStat_getD x (Nat.lt_succ_self k))
  rw [Props.sortedVals_some] at h
  have e : maxOf x = ((List.ofFn x).insertionSort (· ≤ ·)).getD k 0 := by
    unfold maxOf
    have hlen : ((List.ofFn x).insertionSort (· ≤ ·)).length = k + 1 := by rw [List.length_insertionSort, List.length_ofFn]
    rw [List.getLastD_eq_getLast?, List.getLast?_eq_getElem?, hlen, List.getD_eq_getElem?_getD]
    rfl
  rw [e]
  exact ⟨h.2, by rintro _ ⟨i, rfl⟩; exact h.1 i⟩

theorem medianOf_spec {k : ℕ} (x : Fin (k + 1) → ℝ) : IsQuantile x (1 / 2) (medianOf x) := by
  have h := Props.quantileOf_spec x (q := 1 / 2) (by norm_num) (by norm_num)
  rw [Props.sortedVals_some] at h
  have e : (0.5 : ℝ) = 1 / 2 := by norm_num
  rw [medianOf, e]
  exact h

end Verif.Lemmas
