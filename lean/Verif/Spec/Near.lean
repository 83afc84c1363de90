import Verif.Spec.Invariance

/-!
# Specification vocabulary: invariance up to a total-variation error
-/

open scoped ENNReal
open MeasureTheory Finset

namespace Verif.Spec
open Verif

/-- Probability of moving from `k` to `l ≠ k` in the Metropolised Gibbs sampler (Liu, 1996) for the weights `w`: propose
`l ≠ k` with probability `w_l / (1 - w_k)`, accept with probability `min(1, (1 - w_k) / (1 - w_l))`. -/
noncomputable def liuQ {N : ℕ} (w : Fin (N + 1) → ℝ) (k l : Fin (N + 1)) : ℝ := w l / max (1 - w k) (1 - w l)

/-- The Metropolised Gibbs sampler. -/
noncomputable def liuMove {N : ℕ} (w : Fin (N + 1) → ℝ) (k : Fin (N + 1)) : Ex (Fin (N + 1)) := fun f =>
  (∑ l ∈ univ.erase k, ENNReal.ofReal (liuQ w k l) * f l) +
    ENNReal.ofReal (1 - ∑ l ∈ univ.erase k, liuQ w k l) * f k

/-- Two laws differ by at most `ε` on every event (on every measurable function with values in `[0, 1]`). -/
def TVLe {α : Type} [MeasurableSpace α] (ε : ℝ≥0∞) (P Q : Ex α) : Prop :=
  ∀ f : α → ℝ≥0∞, Measurable f → (∀ a, f a ≤ 1) → P f ≤ Q f + ε ∧ Q f ≤ P f + ε

/-- The kernel `K` changes the measure with density `exp logpi` (times the uniform law on index vectors) by at most `ε`
times its total mass, in total variation. -/
def LeavesNearInvariant {X : Type} [MeasurableSpace X] {N n : ℕ} (ε : ℝ≥0∞) (lam : Measure X)
    (logpi : (Fin (n + 1) → X) → ℝ)
    (K : (Fin (n + 1) → X) → (Fin (n + 1) → Fin (N + 1)) →
      Ex ((Fin (n + 1) → X) × (Fin (n + 1) → Fin (N + 1)))) : Prop :=
  TVLe (ε * ∑ _b : Fin (n + 1) → Fin (N + 1), ∫⁻ x, ENNReal.ofReal (Real.exp (logpi x)) ∂(Measure.pi fun _ => lam))
    (fun f => ∑ b, ∫⁻ x, ENNReal.ofReal (Real.exp (logpi x)) * K x b f ∂(Measure.pi fun _ => lam))
    (fun f => ∑ b, ∫⁻ x, ENNReal.ofReal (Real.exp (logpi x)) * f (x, b) ∂(Measure.pi fun _ => lam))

/-- The kernel `K` on states changes the law of `init x`, for `x` with density `exp logpi`, by at most `ε` times its total
mass, in total variation. -/
def StateNearInvariant {X S : Type} [MeasurableSpace X] [MeasurableSpace S] (ε : ℝ≥0∞) (lam : Measure X) (logpi : X → ℝ)
    (init : X → S) (K : S → Ex S) : Prop :=
  TVLe (ε * ∫⁻ x, ENNReal.ofReal (Real.exp (logpi x)) ∂lam)
    (fun f => ∫⁻ x, ENNReal.ofReal (Real.exp (logpi x)) * K (init x) f ∂lam)
    (fun f => ∫⁻ x, ENNReal.ofReal (Real.exp (logpi x)) * f (init x) ∂lam)

end Verif.Spec
