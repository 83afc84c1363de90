import Verif.Spec.Esjd

/-!
# Specification vocabulary: the squared distance of independent draws, and independent Metropolis-Hastings with many candidates
-/

open scoped ENNReal
open MeasureTheory

namespace Verif.Spec
open Verif

variable {T d : ℕ}

/-- The expected squared distance, at time `t`, between two independent trajectories with law `π`. -/
noncomputable def independentJump (π : Measure (Fin T → Fin d → ℝ)) (t : Fin T) : ℝ≥0∞ :=
  ∫⁻ x, ∫⁻ x', ENNReal.ofReal (sqJump (x, x') t) ∂π ∂π

/-- The mean, at time `t`, of a trajectory with law `π`. -/
noncomputable def meanAt (π : Measure (Fin T → Fin d → ℝ)) (t : Fin T) (j : Fin d) : ℝ := ∫ x, x t j ∂π

/-- A bound on the distance in total variation between the target and one step of independent Metropolis-Hastings with `N` proposals: `Z` is the
mass of the target and `exp B` bounds its ratio to the proposal. -/
noncomputable def imhManyErr (N : ℕ) (B : ℝ) (Z : ℝ≥0∞) : ℝ≥0∞ := 2 * ENNReal.ofReal (Real.exp B) / ((N + 1) * Z)

end Verif.Spec
