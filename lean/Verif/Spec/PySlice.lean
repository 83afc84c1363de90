import Mathlib.Data.List.OfFn
import Mathlib.Data.List.Range

/-!
# Python's slices

What `a[i:j]`, `a[i::-1]` and `a[i]` mean for a list, negative and out of range bounds included.
-/

namespace Verif.Spec

variable {α : Type}

/-- A bound of a slice of a list of length `n`: negative bounds count from the end, and all bounds are clipped to `[0, n]`. -/
def pyBound (n : ℕ) (i : ℤ) : ℕ := if i < 0 then (n + i).toNat else min i.toNat n

/-- `l[a:b]`; a missing bound is `none`. -/
def pySlice (l : List α) (a b : Option ℤ) : List α :=
  (l.take (b.elim l.length (pyBound l.length))).drop (a.elim 0 (pyBound l.length))

/-- `l[i::-1]` for negative `i`: from entry `i` down to the first. -/
def pyDown (l : List α) (i : ℤ) : List α := (l.take ((l.length : ℤ) + i + 1).toNat).reverse

/-- The entry that `l[i]` reads; indices out of range are clamped to the nearest entry, as `jax` does. -/
def pyAt (l : List α) (i : ℤ) : Option α :=
  l[(max 0 (min (l.length - 1) (if i < 0 then l.length + i else i)) : ℤ).toNat]?

/-- `l[::g]`: the entries at the multiples of `g`. -/
def pyStride (l : List α) (g : ℕ) : List α := ((List.range l.length).filter fun i => g ∣ i).filterMap fun i => l[i]?

end Verif.Spec
