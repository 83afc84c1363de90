import Verif.Core.Rand
import Mathlib.MeasureTheory.Integral.Bochner.Basic

/-!
# Specification vocabulary: averages over the samples of a chain
-/

open scoped ENNReal
open MeasureTheory

namespace Verif.Spec
open Verif

/-- Average of `f` over `M` samples. -/
noncomputable def avgOf {X : Type} {M : ℕ} (f : X → ℝ) (xs : Fin M → X) : ℝ := (∑ k, f (xs k)) / M

/-- The average of any bounded function over the samples estimates its expectation under `π`, with a mean squared error of at most
`c` times the squared range of the function. -/
def AveragesNear {X : Type} [MeasurableSpace X] {M : ℕ} (c : ℝ≥0∞) (π : Measure X) (D : Ex (Fin M → X)) : Prop :=
  ∀ (a b : ℝ) (f : X → ℝ), Measurable f → (∀ x, a ≤ f x ∧ f x ≤ b) →
    D (fun xs => ENNReal.ofReal ((avgOf f xs - ∫ x, f x ∂π) ^ 2)) ≤ c * ENNReal.ofReal ((b - a) ^ 2)

end Verif.Spec
