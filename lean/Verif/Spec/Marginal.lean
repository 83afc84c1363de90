import Verif.Spec.Gauss
import Mathlib.LinearAlgebra.Matrix.Kronecker
import Mathlib.LinearAlgebra.Matrix.PosDef

/-!
# Joint Gaussian law of the particles other than one of them
-/

namespace Verif.Spec
open Matrix Kronecker

/-- `N` vectors stacked into one. -/
def stack {N d : ℕ} (x : Fin N → Fin d → ℝ) : Fin (N * d) → ℝ :=
  fun k => x (finProdFinEquiv.symm k).1 (finProdFinEquiv.symm k).2

/-- Covariance of `N` stacked vectors: `I ⊗ C + 11ᵀ ⊗ B E Bᵀ`. -/
noncomputable def stackCov (N : ℕ) {d : ℕ} (B C E : Matrix (Fin d) (Fin d) ℝ) : Matrix (Fin (N * d)) (Fin (N * d)) ℝ :=
  reindex finProdFinEquiv finProdFinEquiv
    ((1 : Matrix (Fin N) (Fin N) ℝ) ⊗ₖ C + (Matrix.of fun _ _ => 1 : Matrix (Fin N) (Fin N) ℝ) ⊗ₖ (B * E * Bᵀ))

/-- `log q(x_{-i} | x_i)`: the other particles are jointly Gaussian with means `d_m + B (x_i + phi_i)` and covariance
`I ⊗ C + 11ᵀ ⊗ B E Bᵀ`. -/
noncomputable def othersLogpdf {N d : ℕ} (xs ds : Fin (N + 1) → Fin d → ℝ) (B C E : Matrix (Fin d) (Fin d) ℝ)
    (i : Fin (N + 1)) (phi : Fin d → ℝ) : ℝ :=
  normalLogpdf (stack fun m => ds (i.succAbove m) + B *ᵥ (xs i + phi)) (stackCov N B C E)
    (stack fun m => xs (i.succAbove m))

end Verif.Spec
