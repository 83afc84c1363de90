import Verif.Core.KerSem
import Mathlib.MeasureTheory.Constructions.Pi

/-!
# One step from the target, compared with the target
-/

open scoped ENNReal
open MeasureTheory

namespace Verif.Spec
open Verif

variable {N n : ℕ} {X : Type} [MeasurableSpace X]

/-- For a trajectory drawn from the density `exp logpi`, and indices `b`, every event is at most `C` times as probable
after one step of `K` as before. -/
def StepDominated (C : ℝ≥0∞) (lam : Measure X) (logpi : (Fin (n + 1) → X) → ℝ) (b : Fin (n + 1) → Fin (N + 1))
    (K : (Fin (n + 1) → X) → (Fin (n + 1) → Fin (N + 1)) → Ex ((Fin (n + 1) → X) × (Fin (n + 1) → Fin (N + 1)))) : Prop :=
  ∀ f : (Fin (n + 1) → X) → ℝ≥0∞, Measurable f →
    ∫⁻ x, ENNReal.ofReal (Real.exp (logpi x)) * K x b (fun r => f r.1) ∂(Measure.pi fun _ => lam) ≤
      C * ∫⁻ x, ENNReal.ofReal (Real.exp (logpi x)) * f x ∂(Measure.pi fun _ => lam)

end Verif.Spec
