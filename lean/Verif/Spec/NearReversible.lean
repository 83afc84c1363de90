import Verif.Spec.Near

/-!
# Specification vocabulary: reversibility up to a total-variation error
-/

open scoped ENNReal
open MeasureTheory

namespace Verif.Spec
open Verif

/-- For `x` with density `exp logpi`, the pair of the state `init x` and of the state after the kernel `K`, and the same
pair in the other order, differ by at most `ε` times the total mass, in total variation. -/
def StateNearReversible {X S : Type} [MeasurableSpace X] [MeasurableSpace S] (ε : ℝ≥0∞) (lam : Measure X) (logpi : X → ℝ)
    (init : X → S) (K : S → Ex S) : Prop :=
  TVLe (ε * ∫⁻ x, ENNReal.ofReal (Real.exp (logpi x)) ∂lam)
    (fun H : S × S → ℝ≥0∞ => ∫⁻ x, ENNReal.ofReal (Real.exp (logpi x)) * K (init x) (fun s => H (init x, s)) ∂lam)
    (fun H : S × S → ℝ≥0∞ => ∫⁻ x, ENNReal.ofReal (Real.exp (logpi x)) * K (init x) (fun s => H (s, init x)) ∂lam)

end Verif.Spec
