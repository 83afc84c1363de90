import Verif.Model.AtpCsmcF

/-!
# Models whose last state is independent of the others
-/

namespace Verif.Spec
open Verif Verif.Model

variable {MP RP : Type} {n d : ℕ}

/-- Under the model the last state does not depend on the one before it: its prior mean is `m`, its log-potential is `h`.
The gradient of the last log-potential in its first argument is zero, and `delta` times that in its second argument as
well: `delta` is zero, or the potential is piecewise constant. -/
structure LastAlone (M : GaussModel MP RP (n + 1) d) (rt_grad0 : Vec d → Vec d → RP → Vec d) (delta : ℝ) (m : Vec d)
    (h : Vec d → ℝ) : Prop where
  mu : ∀ y, M.mu y (lastA M.mu_params) = m
  rt : ∀ y x, M.rt y x (lastA M.rt_params) = h x
  grad0 : ∀ y x, rt_grad0 y x (lastA M.rt_params) = 0
  grad : ∀ y x, delta • M.rt_grad y x (lastA M.rt_params) = 0

end Verif.Spec
