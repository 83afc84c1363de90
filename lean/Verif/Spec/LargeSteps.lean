import Verif.Model.RwCsmc
import Mathlib.Order.Filter.Pi

/-!
# Specification vocabulary: large step sizes
-/

open scoped Topology
open Filter

namespace Verif.Spec
open Verif Verif.Model

/-- Step sizes, one for each time, all tending to infinity. -/
def largeSteps (n : ℕ) : Filter (Fin (n + 1) → ℝ) := Filter.pi fun _ => atTop

/-- A potential that, with the parameter `y`, tends to minus infinity far away whatever the previous state. -/
def VanishesFar {d : ℕ} {G : Type} (Γ : Vec d → Vec d → G → ℝ) (y : G) : Prop :=
  ∃ φ : Vec d → ℝ, Tendsto φ (cocompact _) atBot ∧ ∀ x' x, Γ x' x y ≤ φ x

end Verif.Spec
