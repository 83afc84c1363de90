import Verif.Spec.Near

/-!
# Specification vocabulary: independent replicates of one jump from a law
-/

open scoped ENNReal
open MeasureTheory

namespace Verif.Spec
open Verif

variable {X : Type} [MeasurableSpace X]

/-- The probability law with density proportional to `exp logpi`. -/
noncomputable def lawOf (lam : Measure X) (logpi : X → ℝ) : Measure X :=
  (∫⁻ x, ENNReal.ofReal (Real.exp (logpi x)) ∂lam)⁻¹ • lam.withDensity fun x => ENNReal.ofReal (Real.exp (logpi x))

/-- `μ` is the joint law of `(x, x')`, where `x` has law `π` and `x'` is obtained from `x` by the step `J`. -/
def IsJump (π : Measure X) (J : X → Ex X) (μ : Measure (X × X)) : Prop :=
  ∀ f, Measurable f → ∫⁻ p, f p ∂μ = ∫⁻ x, J x (fun x' => f (x, x')) ∂π

/-- The step `J` changes the law `π` by at most `ε` in total variation. -/
def NearStationary (ε : ℝ≥0∞) (π : Measure X) (J : X → Ex X) : Prop :=
  TVLe ε (fun f => ∫⁻ x, J x f ∂π) (fun f => ∫⁻ x, f x ∂π)

/-- Squared distance, at time `t`, between two trajectories. -/
def sqJump {T d : ℕ} (p : (Fin T → Fin d → ℝ) × (Fin T → Fin d → ℝ)) (t : Fin T) : ℝ := ∑ j, (p.1 t j - p.2 t j) ^ 2

/-- Its mean over `M` pairs. -/
noncomputable def meanSqJump {M T d : ℕ} (p : Fin M → (Fin T → Fin d → ℝ) × (Fin T → Fin d → ℝ)) (t : Fin T) : ℝ :=
  (∑ i, sqJump (p i) t) / M

end Verif.Spec
