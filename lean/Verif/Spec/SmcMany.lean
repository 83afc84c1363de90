import Verif.Spec.Smc
import Verif.Spec.ManyParticles

/-!
# Specification vocabulary: particle filters with many particles
-/

open scoped ENNReal
open MeasureTheory Finset

namespace Verif.Spec
open Verif Verif.Model

/-- Expected products over pairs of different children are at most those of independent draws from the weights. -/
def PairsFree {N : ℕ} (R : (Fin (N + 1) → ℝ) → Fin (N + 1) → Fin (N + 1) → Ex (Fin (N + 1) → Fin (N + 1))) : Prop :=
  ∀ w, IsProb w → ∀ i j (f g : Fin (N + 1) → ℝ≥0∞),
    R w i j (fun A => ∑ k, ∑ m ∈ univ.erase k, f (A k) * g (A m)) ≤
      (N + 1) ^ 2 * ((∑ l, ENNReal.ofReal (w l) * f l) * ∑ l, ENNReal.ofReal (w l) * g l)

/-- A bound on the distance in total variation between the target and a trajectory of a particle filter with `N + 1` particles
and `n + 1` time steps, and on the relative variance of its evidence estimate; `Z` is the mass of the target and `exp (B t)` bounds
the weights at time `t`. -/
noncomputable def filterErr (N n : ℕ) (B : Fin (n + 1) → ℝ) (Z : ℝ≥0∞) : ℝ≥0∞ :=
  (n + 1) * (∏ t, ENNReal.ofReal (Real.exp (B t))) / Z / (N + 1)

end Verif.Spec
