import Mathlib.LinearAlgebra.Matrix.NonsingularInverse
import Mathlib.Analysis.SpecialFunctions.Log.Basic
import Mathlib.Analysis.SpecialFunctions.Sqrt
import Mathlib.Analysis.Real.Pi.Bounds
import Verif.Core.Rand
import Verif.Model.RwCsmc

/-!
# Linear algebra primitives and `gradient_csmc/utils/math.py`
-/

namespace Verif.Model
open Verif Matrix

/-- A real matrix of shape `(k, d)`. -/
abbrev Mat (k d : ℕ) := Matrix (Fin k) (Fin d) ℝ

/-- Lower triangular with positive diagonal. -/
def IsCholFactor {d : ℕ} (L : Mat d d) : Prop := (∀ i j, i < j → L i j = 0) ∧ ∀ i, 0 < L i i

open Classical in
/-- `jnp.linalg.cholesky(P)`: the lower triangular matrix `L` with positive diagonal such that `L Lᵀ = P`.
When there is none (`P` is not symmetric positive definite) JAX returns `NaN`s; the model returns zero, which is
also what the callers obtain after `jnp.nan_to_num` (`/repo/gradient_csmc/utils/kalman/sampling.py:32, 37`). -/
noncomputable def cholesky {d : ℕ} (P : Mat d d) : Mat d d :=
  if h : ∃ L : Mat d d, IsCholFactor L ∧ L * Lᵀ = P then h.choose else 0

/-- `jax.scipy.linalg.cho_solve((L, True), B)`: solution `X` of `L Lᵀ X = B`. -/
noncomputable def choSolve {d k : ℕ} (L : Mat d d) (B : Mat d k) : Mat d k := (L * Lᵀ)⁻¹ * B

/-- `jax.scipy.linalg.solve_triangular(L, v, lower=True)`: solution `y` of `L y = v`, `L` lower triangular. -/
noncomputable def solveTri {d : ℕ} (L : Mat d d) (v : Vec d) : Vec d := L⁻¹ *ᵥ v

/-- `jax.scipy.linalg.solve(S, B, assume_a="pos")`: solution `X` of `S X = B`. -/
noncomputable def solvePos {d k : ℕ} (S : Mat d d) (B : Mat d k) : Mat d k := S⁻¹ * B

/-- `_logpdf`: `/repo/gradient_csmc/utils/math.py:98-102`. -/
noncomputable def logpdf_chol {d : ℕ} (x m : Vec d) (chol : Mat d d) : ℝ :=
  let y := solveTri chol (x - m)
  let norm_y := ∑ j, y j * y j
  (-0.5 : ℝ) * norm_y

/-- `_logpdf_with_inv`: `/repo/gradient_csmc/utils/math.py:90-95` (finite entries). -/
noncomputable def logpdf_with_inv {d : ℕ} (x m : Vec d) (chol_inv : Mat d d) : ℝ :=
  let y := chol_inv *ᵥ (x - m)
  let norm_y := ∑ j, y j * y j
  (-0.5 : ℝ) * norm_y

/-- `tril_log_det` of a matrix: `/repo/gradient_csmc/utils/math.py:53-59` (finite entries; `nansum` drops nothing,
and `log 0 = -inf` does not occur for a Cholesky factor). -/
noncomputable def tril_log_det {d : ℕ} (chol : Mat d d) : ℝ := ∑ j, Real.log |chol j j|

/-- `_get_constant`: `/repo/gradient_csmc/utils/math.py:46-50` (finite diagonal: `dim = d`). -/
noncomputable def get_constant {d : ℕ} (chol : Mat d d) : ℝ :=
  tril_log_det chol + 0.5 * (d : ℝ) * Real.log (2 * Real.pi)

/-- `mvn_logpdf(x, m, chol, chol_inv, constant)`: `/repo/gradient_csmc/utils/math.py:11-43`.
With `constant=True` the factor `chol` itself is required, also when `chol_inv` is given. -/
noncomputable def mvn_logpdf {d : ℕ} (x m : Vec d) (chol : Mat d d) (chol_inv : Option (Mat d d)) (constant : Bool) :
    ℝ :=
  let out := match chol_inv with
    | some chol_inv => logpdf_with_inv x m chol_inv
    | none => logpdf_chol x m chol
  let normalizing_constant := if constant then get_constant chol else 0
  out - normalizing_constant

/-- `norm_logpdf(x, loc, scale, constant)`: `/repo/gradient_csmc/utils/math.py:83-87`
(`jax.scipy.stats.norm.logpdf(x, loc, scale) = -(log(2π scale²) + (x-loc)²/scale²)/2`). -/
noncomputable def norm_logpdf (x loc scale : ℝ) (constant : Bool) : ℝ :=
  if constant then -(Real.log (2 * Real.pi * scale ^ 2) + (x - loc) ^ 2 / scale ^ 2) / 2
  else
    let z := (x - loc) / scale
    (-0.5 : ℝ) * z ^ 2

variable {m : Type → Type} [RandM m]

/-- `rvs(key, m, chol)` for a batch of means of shape `(k, d)`: `/repo/gradient_csmc/utils/math.py:62-80`. -/
def rvs (key : Key) {k d : ℕ} (mean : Fin k → Vec d) (chol : Mat d d) : m (Fin k → Vec d) := do
  let eps ← normal2 key k d
  pure (fun i => mean i + chol *ᵥ eps i)

end Verif.Model
