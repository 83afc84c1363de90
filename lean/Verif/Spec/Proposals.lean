import Mathlib.Probability.Distributions.Gaussian.Real
import Mathlib.MeasureTheory.Constructions.Pi
import Verif.Model.RwCsmc

/-!
# What one proposed particle looks like

The resampling scheme and the move are arguments of the kernels.  With the scheme that always takes slot `i` and the
move that takes slot `i`, the trajectory that a kernel returns is made of the particles of slot `i`, so the law of the
proposals can be read off the output.
-/

open MeasureTheory ProbabilityTheory

namespace Verif.Spec
open Verif.Model

/-- The resampling scheme that takes slot `i` as the ancestor of everybody. -/
def follow {m : Type → Type} [Monad m] {N : ℕ} (i : Fin (N + 1)) : Resampling m N := fun _ _ _ _ _ => pure fun _ => i

/-- The move that takes slot `i`. -/
noncomputable def pick {m : Type → Type} [Monad m] {N : ℕ} (i : Fin (N + 1)) : AncestorMove m N := fun _ _ _ => pure (i, 0)

/-- The Langevin step from `x` with gradient `g`: the Gaussian law with mean `x + δ/2 g` and covariance `ℓ I`. -/
noncomputable def langevin {d : ℕ} (x g : Vec d) (delta ell : ℝ) : Measure (Vec d) :=
  Measure.pi fun j => gaussianReal (x j + delta / 2 * g j) ell.toNNReal

/-- Slot `i` holds the reference where the reference sits in slot `i`, and independent Langevin steps from the reference
elsewhere. -/
noncomputable def slotLaw {N k d : ℕ} (i : Fin (N + 1)) (xstar : Fin k → Vec d) (bstar : Fin k → Fin (N + 1))
    (g : Fin k → Vec d) (deltas ells : Fin k → ℝ) : Measure (Fin k → Vec d) :=
  Measure.pi fun t => if bstar t = i then Measure.dirac (xstar t) else langevin (xstar t) (g t) (deltas t) (ells t)

end Verif.Spec
