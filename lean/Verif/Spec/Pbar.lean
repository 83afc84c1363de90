import Verif.Model.Pbar

/-!
# Specification vocabulary: what a sequence of callbacks does to the bar
-/

namespace Verif.Spec
open Verif.Model

/-- State of the bar: not created, open at a position, closed at a position. -/
inductive Bar
  | absent
  | opened (pos : ℕ)
  | closed (pos : ℕ)
  deriving DecidableEq

/-- Effect of a callback; `none` for an invalid one (update of a bar that does not exist, second creation, any
use after closing). -/
def Bar.apply {V : Type} : Bar → PbarEvent V → Option Bar
  | .absent, .define => some (.opened 0)
  | .opened p, .update k _ => some (.opened (p + k))
  | .opened p, .close => some (.closed p)
  | _, _ => none

/-- Effect of a log of callbacks. -/
def Bar.run {V : Type} (b : Bar) : List (PbarEvent V) → Option Bar
  | [] => some b
  | e :: l => (b.apply e).bind fun b' => b'.run l

end Verif.Spec
