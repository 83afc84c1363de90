import Verif.Spec.Replicates

/-!
# Specification vocabulary: the expected squared jump distance of one step, and the spread of a law
-/

open scoped ENNReal
open MeasureTheory

namespace Verif.Spec
open Verif

variable {T d : ℕ}

/-- The expected squared distance, at time `t`, between a trajectory with law `π` and the trajectory after one step `J` from it. -/
noncomputable def expectedJump (π : Measure (Fin T → Fin d → ℝ)) (J : (Fin T → Fin d → ℝ) → Ex (Fin T → Fin d → ℝ)) (t : Fin T) : ℝ≥0∞ :=
  ∫⁻ x, J x (fun x' => ENNReal.ofReal (sqJump (x, x') t)) ∂π

/-- The moment of order `2 p` of the distance, at time `t`, between a trajectory with law `π` and the point `c`. -/
noncomputable def spread (π : Measure (Fin T → Fin d → ℝ)) (c : Fin d → ℝ) (t : Fin T) (p : ℕ) : ℝ≥0∞ :=
  ∫⁻ x, ENNReal.ofReal ((∑ j, (x t j - c j) ^ 2) ^ p) ∂π

end Verif.Spec
