import Mathlib.Algebra.BigOperators.Fin
import Mathlib.Analysis.SpecialFunctions.Exp

/-!
# Weighted particle genealogies

Specification of what the log-weights and the ancestors of a particle filter mean, independent of the models.
-/

namespace Verif.Spec

variable {X : Type} {N n : ℕ}

/-- `b` follows a particle of the last time back through its ancestors: `A t i` is the index at time `t` of the parent
of particle `i` of time `t + 1`. -/
def Lineage (A : Fin n → Fin (N + 1) → Fin (N + 1)) (b : Fin (n + 1) → Fin (N + 1)) : Prop :=
  ∀ t : Fin n, b t.castSucc = A t (b t.succ)

/-- Along every lineage the log-weights sum to `f` of the trajectory carried by the lineage, up to one additive constant
common to all lineages. -/
def LineageWeight (x : Fin (n + 1) → Fin (N + 1) → X) (A : Fin n → Fin (N + 1) → Fin (N + 1))
    (lw : Fin (n + 1) → Fin (N + 1) → ℝ) (f : (Fin (n + 1) → X) → ℝ) : Prop :=
  ∃ c : ℝ, ∀ b, Lineage A b → ∑ t, lw t (b t) = f (fun t => x t (b t)) - c

/-- The probabilities proportional to the exponentials of the log-weights. -/
noncomputable def weightsOf (lw : Fin (N + 1) → ℝ) (i : Fin (N + 1)) : ℝ :=
  Real.exp (lw i) / ∑ k, Real.exp (lw k)

end Verif.Spec
