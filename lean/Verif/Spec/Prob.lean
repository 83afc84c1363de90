import Mathlib.Algebra.BigOperators.Fin
import Mathlib.Data.Real.Basic
import Mathlib.Algebra.Order.BigOperators.Group.Finset

/-!
# Specification vocabulary: probability vectors
-/

namespace Verif.Spec

/-- `w` is a probability vector ("the weights are assumed to be normalised already"). -/
structure IsProb {n : ℕ} (w : Fin n → ℝ) : Prop where
  nonneg : ∀ k, 0 ≤ w k
  sum_one : ∑ k, w k = 1

theorem IsProb.le_one {n : ℕ} {w : Fin n → ℝ} (hw : IsProb w) (k : Fin n) : w k ≤ 1 := by
  rw [← hw.sum_one]
  exact Finset.single_le_sum (fun i _ => hw.nonneg i) (Finset.mem_univ k)

end Verif.Spec
