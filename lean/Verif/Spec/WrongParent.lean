import Mathlib.Algebra.Order.Floor.Ring
import Mathlib.Algebra.Order.Archimedean.Real.Basic
import Verif.Model.RwCsmc
import Verif.Core.KerSem

/-!
# A model with three times for which the parents of the particles at time one matter

The potentials are piecewise linear or constant, so that their gradients, where they exist, are piecewise constant:
`Γ_0(x_0) = -⌊x_0²⌋`, `Γ_1(x_0, x_1) = -⌊x_1²⌋ + 1[0 ≤ x_1 < 1] 1[0 < x_0] (C + x_1)`,
`Γ_2(x_1, x_2) = -⌊x_2²⌋ + 1[0 ≤ x_1 < 1] x_1`.
-/

namespace Verif.Spec
open Verif Verif.Model

/-- `-⌊x²⌋`: bounded above, integrable after exponentiation, zero on `(-1, 1)` and locally constant off a null set. -/
noncomputable def wall (x : Vec 1) : ℝ := -(⌊x 0 ^ 2⌋ : ℝ)

/-- The interval `[0, 1)`. -/
def InUnit (x : Vec 1) : Prop := 0 ≤ x 0 ∧ x 0 < 1

noncomputable instance (x : Vec 1) : Decidable (InUnit x) := Classical.propDecidable _

/-- `1[0 < x]`. -/
noncomputable def posStep (x : Vec 1) : ℝ := if 0 < x 0 then 1 else 0

/-- The two potentials `Γ_1` (parameter 0) and `Γ_2` (parameter 1). -/
noncomputable def parentGamma (C : ℝ) (y x : Vec 1) (g : Fin 2) : ℝ :=
  if g = 0 then wall x + (if InUnit x then posStep y * (C + x 0) else 0) else wall x + (if InUnit y then y 0 else 0)

/-- Their gradients with respect to the first argument. -/
noncomputable def parentGrad0 (y _x : Vec 1) (g : Fin 2) : Vec 1 := fun _ => if g = 0 then 0 else if InUnit y then 1 else 0

/-- Their gradients with respect to the second argument. -/
noncomputable def parentGrad1 (y x : Vec 1) (g : Fin 2) : Vec 1 :=
  fun _ => if g = 0 then (if InUnit x then posStep y else 0) else 0

/-- With equal weights, a particle pinned as its own child can be left without other children. -/
def CanLeaveAlone {N : ℕ} (R : (Fin (N + 1) → ℝ) → Fin (N + 1) → Fin (N + 1) → Ex (Fin (N + 1) → Fin (N + 1))) : Prop :=
  R (fun _ => 1 / (N + 1)) 0 0 ({A | ∀ k, k ≠ 0 → A k ≠ 0}.indicator 1) ≠ 0

end Verif.Spec
