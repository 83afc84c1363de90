import Verif.Spec.Prob
import Verif.Core.KerSem

/-!
# Schemes that follow a particle with most of the weight
-/

open scoped ENNReal

namespace Verif.Spec
open Verif

variable {N : ℕ}

/-- When one particle has at least three quarters of the weight, then with positive probability all particles but the
frozen one descend from it. -/
def GivesToHeavy (R : (Fin (N + 1) → ℝ) → Fin (N + 1) → Fin (N + 1) → Ex (Fin (N + 1) → Fin (N + 1))) : Prop :=
  ∃ c : ℝ≥0∞, c ≠ 0 ∧ ∀ w, IsProb w → (∀ i, 0 < w i) → ∀ i j k, 3 / 4 ≤ w k →
    c ≤ R w i j fun A => if A = Function.update (fun _ => k) j i then 1 else 0

/-- When the current particle has at least three quarters of the weight, then it is kept with positive probability. -/
def KeepsHeavy (move : (Fin (N + 1) → ℝ) → Fin (N + 1) → Ex (Fin (N + 1))) : Prop :=
  ∃ c : ℝ≥0∞, c ≠ 0 ∧ ∀ w, IsProb w → (∀ i, 0 < w i) → ∀ k, 3 / 4 ≤ w k →
    c ≤ move w k fun l => if l = k then 1 else 0

end Verif.Spec
