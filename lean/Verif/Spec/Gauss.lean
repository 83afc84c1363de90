import Mathlib.Analysis.SpecialFunctions.Log.Basic
import Mathlib.Analysis.SpecialFunctions.Sqrt
import Mathlib.Analysis.Real.Pi.Bounds
import Mathlib.LinearAlgebra.Matrix.NonsingularInverse

/-!
# Specification vocabulary: multivariate normal log-densities
-/

namespace Verif.Spec
open Matrix

/-- Log-density of `N(0, I)` in dimension `d`. -/
noncomputable def stdLogpdf {d : ℕ} (z : Fin d → ℝ) : ℝ :=
  -(z ⬝ᵥ z) / 2 - d / 2 * Real.log (2 * Real.pi)

/-- Log-density of `N(m, C)` for a positive definite covariance matrix `C`. -/
noncomputable def normalLogpdf {d : ℕ} (m : Fin d → ℝ) (C : Matrix (Fin d) (Fin d) ℝ)
    (x : Fin d → ℝ) : ℝ :=
  -((x - m) ⬝ᵥ (C⁻¹ *ᵥ (x - m))) / 2 - d / 2 * Real.log (2 * Real.pi) - Real.log C.det / 2

end Verif.Spec
