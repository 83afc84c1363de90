import Verif.Spec.Ergodic

/-!
# Specification vocabulary: conditional SMC with many particles
-/

open scoped ENNReal
open MeasureTheory Finset

namespace Verif.Spec
open Verif Verif.Model

/-- Expected products over pairs of different children, neither of them the reference's, are at most those of independent
draws from the weights, one for each of the `N + 1` children. -/
def PairsSpread {N : ℕ} (R : (Fin (N + 1) → ℝ) → Fin (N + 1) → Fin (N + 1) → Ex (Fin (N + 1) → Fin (N + 1))) : Prop :=
  ∀ w, IsProb w → ∀ i j (f g : Fin (N + 1) → ℝ≥0∞),
    R w i j (fun A => ∑ k ∈ univ.erase j, ∑ m ∈ (univ.erase j).erase k, f (A k) * g (A m)) ≤
      (N + 1) ^ 2 * ((∑ l, ENNReal.ofReal (w l) * f l) * ∑ l, ENNReal.ofReal (w l) * g l)

/-- Particles have on average at most `N + 1` times their weight as children other than the reference's. -/
def FewOffspring {N : ℕ} (R : (Fin (N + 1) → ℝ) → Fin (N + 1) → Fin (N + 1) → Ex (Fin (N + 1) → Fin (N + 1))) : Prop :=
  ∀ w, IsProb w → ∀ i j l, offspring R w i j l ≤ (N + 1) * ENNReal.ofReal (w l)

/-- A bound on the distance in total variation between the target and the trajectory returned by one conditional SMC step
with `N + 1` particles and `n + 1` time steps; `Z` is the mass of the target and `exp (B t)` bounds the weights at time `t`. -/
noncomputable def manyErr (N n : ℕ) (B : Fin (n + 1) → ℝ) (Z : ℝ≥0∞) : ℝ≥0∞ :=
  (4 * n + 2 + 2 * (n + 1) * (∏ t, ENNReal.ofReal (Real.exp (B t))) / Z) / (N + 1)

/-- The same, for resampling schemes that may give the reference no children besides its own. -/
noncomputable def manyErrAny (N n : ℕ) (B : Fin (n + 1) → ℝ) (Z : ℝ≥0∞) : ℝ≥0∞ :=
  (4 * n + 2) * (1 + (∏ t, ENNReal.ofReal (Real.exp (B t))) / Z) / (N + 1)

end Verif.Spec
