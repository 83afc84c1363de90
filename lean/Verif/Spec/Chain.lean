import Verif.Core.Rand

/-!
# Specification vocabulary: chains, and traces of scans
-/

namespace Verif.Spec
open Verif

/-- All states visited by `n` steps of a Markov chain, the initial state included; step `i` uses key `keys i`. -/
def chain {m : Type → Type} [Monad m] {S : Type} (step : Key → S → m S) :
    {n : ℕ} → S → (Fin n → Key) → m (Fin (n + 1) → S)
  | 0, s, _ => pure fun _ => s
  | _ + 1, s, keys => do
    let s' ← step (keys 0) s
    let rest ← chain step s' (tailA keys)
    pure (insert0 s rest)

/-- The body of a scan, returning in addition the carry before and after the step. -/
def traced {m : Type → Type} [Monad m] {C I O : Type} (body : C → I → m (C × O)) (c : C) (inp : I) :
    m (C × (C × C)) := do
  let r ← body c inp
  pure (r.1, (c, r.1))

/-- Mean of the last `k` values `a (i - k), …, a (i - 1)`. -/
noncomputable def lastMean (a : ℕ → ℝ) (i k : ℕ) : ℝ := (∑ j ∈ Finset.range k, a (i - 1 - j)) / k

end Verif.Spec
