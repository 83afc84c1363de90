import Verif.Core.Rand

/-!
# Specification vocabulary: key discipline of `jax.random`
-/

namespace Verif.Spec
open Verif

/-- Neither key is the other one or was obtained from the other one by `split`. -/
def KeyDisj (k k' : Key) : Prop := ¬ k <:+ k' ∧ ¬ k' <:+ k

/-- In every execution of the program, every key that is passed to a draw is `key` or was obtained from it by
`split`, and no such key equals, or is an ancestor of, another one. -/
def FreshKeys {α : Type} (key : Key) (P : Poss α) : Prop :=
  ∀ a L, P a L → (∀ k ∈ L, key <:+ k) ∧ L.Pairwise KeyDisj

end Verif.Spec
