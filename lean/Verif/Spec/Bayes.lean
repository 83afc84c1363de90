import Verif.Core.Rand

/-!
# Conditional laws
-/

open scoped ENNReal
open MeasureTheory

namespace Verif.Spec
open Verif

/-- `eta` is the law of the second component of the pair drawn by `P`, and `post y` the conditional law of the first one
when the second one is `y`. -/
def CondLaw {X Y : Type} [MeasurableSpace X] [MeasurableSpace Y] (P : Ex (X × Y)) (eta : Measure Y) (post : Y → Measure X) : Prop :=
  (∀ g, Measurable g → P (fun p => g p.2) = ∫⁻ y, g y ∂eta) ∧ ∀ f, Measurable f → P f = ∫⁻ y, ∫⁻ x, f (x, y) ∂post y ∂eta

end Verif.Spec
