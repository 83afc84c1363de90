import Mathlib.Data.Real.Basic
import Mathlib.Algebra.Order.Floor.Ring
import Mathlib.Algebra.Order.Archimedean.Real.Basic
import Mathlib.SetTheory.Cardinal.Finite

/-!
# Specification vocabulary: order statistics
-/

namespace Verif.Spec

/-- `a` is the value at position `j` (from 0) of the increasing rearrangement of `h`: at most `j` values are below it and
more than `j` are not above it. -/
def IsOrderStat {k : ℕ} (h : Fin k → ℝ) (j : ℕ) (a : ℝ) : Prop :=
  Nat.card {i // h i < a} ≤ j ∧ j < Nat.card {i // h i ≤ a}

/-- `r` is the quantile of level `q` of `h`, interpolated linearly between two order statistics. -/
def IsQuantile {k : ℕ} (h : Fin (k + 1) → ℝ) (q r : ℝ) : Prop :=
  ∃ a b, IsOrderStat h ⌊q * k⌋.toNat a ∧ IsOrderStat h ⌈q * k⌉.toNat b ∧ r = a + Int.fract (q * k) * (b - a)

/-- An order statistic is determined by its position. -/
theorem IsOrderStat.unique {k : ℕ} {h : Fin k → ℝ} {j : ℕ} {a b : ℝ} (ha : IsOrderStat h j a) (hb : IsOrderStat h j b) :
    a = b := by
  have key : ∀ {a b : ℝ}, IsOrderStat h j a → IsOrderStat h j b → ¬ a < b := fun {a b} ha hb hab => by
    have : Nat.card {i // h i ≤ a} ≤ Nat.card {i // h i < b} :=
      Nat.card_le_card_of_injective (fun i => ⟨i.1, i.2.trans_lt hab⟩) fun i i' e => Subtype.ext (by simpa using e)
    exact absurd (ha.2.trans_le (this.trans hb.1)) (lt_irrefl j)
  exact le_antisymm (not_lt.mp (key hb ha)) (not_lt.mp (key ha hb))

/-- A quantile is determined by its level. -/
theorem IsQuantile.unique {k : ℕ} {h : Fin (k + 1) → ℝ} {q r r' : ℝ} (hr : IsQuantile h q r) (hr' : IsQuantile h q r') :
    r = r' := by
  obtain ⟨a, b, ha, hb, rfl⟩ := hr
  obtain ⟨a', b', ha', hb', rfl⟩ := hr'
  rw [ha.unique ha', hb.unique hb']

end Verif.Spec
