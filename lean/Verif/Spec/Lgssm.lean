import Verif.Spec.Gauss
import Verif.Spec.Invariance

/-!
# Specification vocabulary: linear Gaussian state-space models
-/

namespace Verif.Spec
open Verif Matrix

variable {n dx dy : ℕ}

/-- Log-density of a trajectory of `x_0 ~ N(m0, P0)`, `x_{t+1} ~ N(F_t x_t + b_t, Q_t)`. -/
noncomputable def gaussPathLog (m0 : Fin dx → ℝ) (P0 : Matrix (Fin dx) (Fin dx) ℝ)
    (Fs Qs : Fin n → Matrix (Fin dx) (Fin dx) ℝ) (bs : Fin n → Fin dx → ℝ) (x : Fin (n + 1) → Fin dx → ℝ) : ℝ :=
  pathLogDensity (normalLogpdf m0 P0) (fun t x x' => normalLogpdf (Fs t *ᵥ x + bs t) (Qs t) x') x

/-- Log-likelihood of independent observations `y_t ~ N(H_t x_t + c_t, R_t)`. -/
noncomputable def obsLog {k : ℕ} (Hs : Fin k → Matrix (Fin dy) (Fin dx) ℝ) (Rs : Fin k → Matrix (Fin dy) (Fin dy) ℝ)
    (cs ys : Fin k → Fin dy → ℝ) (x : Fin k → Fin dx → ℝ) : ℝ :=
  ∑ t, normalLogpdf (Hs t *ᵥ x t + cs t) (Rs t) (ys t)

end Verif.Spec
