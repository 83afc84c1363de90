import Verif.Spec.Gauss
import Mathlib.LinearAlgebra.Matrix.PosDef

/-!
# Singular value decomposition, and the conditional covariance of a Gaussian seen through isotropic noise
-/

namespace Verif.Spec
open Matrix

variable {d : ℕ}

/-- `Q = U diag(Γ) V` is a singular value decomposition. -/
structure IsSvd (Q U : Matrix (Fin d) (Fin d) ℝ) (Γ : Fin d → ℝ) (V : Matrix (Fin d) (Fin d) ℝ) : Prop where
  U_orth : U * Uᵀ = 1
  V_orth : V * Vᵀ = 1
  nonneg : ∀ j, 0 ≤ Γ j
  eq : Q = U * diagonal Γ * V

/-- Gain `Q (Q + r I)⁻¹` of the observation `u = x + noise` with `x ∼ N(·, Q)` and noise covariance `r I`. -/
noncomputable def isoGain (r : ℝ) (Q : Matrix (Fin d) (Fin d) ℝ) : Matrix (Fin d) (Fin d) ℝ := Q * (Q + r • 1)⁻¹

/-- Covariance of `x` given `u`. -/
noncomputable def isoPost (r : ℝ) (Q : Matrix (Fin d) (Fin d) ℝ) : Matrix (Fin d) (Fin d) ℝ := Q - isoGain r Q * Q

/-- No eigenvalue of the symmetric matrix `A` is below `floor`. -/
def AtLeast (floor : ℝ) (A : Matrix (Fin d) (Fin d) ℝ) : Prop := (A - floor • 1).PosSemidef

end Verif.Spec
