import Verif.Core.KerSem
import Verif.Spec.Prob

/-!
# Specification vocabulary: invariance of conditional SMC kernels
-/

open scoped ENNReal
open MeasureTheory ProbabilityTheory Finset

namespace Verif.Spec
open Verif

/-- A conditional resampling scheme: `R w i j` is the conditional law, given that entry `j` of the ancestor
vector is `i`, of one and the same unconditional law `U w` with marginals `w`. -/
structure CondResampling {N : ℕ}
    (R : (Fin (N + 1) → ℝ) → Fin (N + 1) → Fin (N + 1) → Ex (Fin (N + 1) → Fin (N + 1))) : Prop where
  /-- the program is a measurable family of measures -/
  ker : IsKer (fun p : (Fin (N + 1) → ℝ) × Fin (N + 1) × Fin (N + 1) => R p.1 p.2.1 p.2.2)
  /-- the program always terminates with some ancestor vector -/
  mass : ∀ w, IsProb w → ∀ i j, R w i j (fun _ => 1) = 1
  /-- conditional law -/
  law : ∃ U : (Fin (N + 1) → ℝ) → (Fin (N + 1) → Fin (N + 1)) → ℝ≥0∞,
    ∀ w, IsProb w → (∀ i, 0 < w i) → ∀ i j f,
      ENNReal.ofReal (w i) * R w i j f = ∑ a, U w a * (if a j = i then f a else 0)

/-- A move of the last index that is a measurable family of measures. -/
abbrev MoveKer {N : ℕ} (move : (Fin (N + 1) → ℝ) → Fin (N + 1) → Ex (Fin (N + 1))) : Prop :=
  IsKer (fun p : (Fin (N + 1) → ℝ) × Fin (N + 1) => move p.1 p.2)

/-- A move of the last index that leaves the weights invariant. -/
structure MoveInvariant {N : ℕ} (move : (Fin (N + 1) → ℝ) → Fin (N + 1) → Ex (Fin (N + 1))) : Prop where
  /-- the program is a measurable family of measures -/
  ker : MoveKer move
  /-- invariance -/
  inv : ∀ w, IsProb w → (∀ i, 0 < w i) → ∀ f : Fin (N + 1) → ℝ≥0∞,
    ∑ k, ENNReal.ofReal (w k) * move w k f = ∑ k, ENNReal.ofReal (w k) * f k

/-- Log-density of a trajectory: `Γ_0(x_0) + Σ_t Γ_t(x_{t-1}, x_t)`. -/
noncomputable def pathLogDensity {X : Type} {n : ℕ} (Γ0 : X → ℝ) (Γ : Fin n → X → X → ℝ)
    (x : Fin (n + 1) → X) : ℝ :=
  Γ0 (x 0) + ∑ t, Γ t (x t.castSucc) (x t.succ)

/-- The kernel `K` on (trajectory, indices) leaves the measure with density `exp logpi` with respect to
the product of `lam` (on trajectories), times the uniform law on index vectors, invariant.
The measure need not be normalised. -/
def LeavesInvariant {X : Type} [MeasurableSpace X] {N n : ℕ} (lam : Measure X)
    (logpi : (Fin (n + 1) → X) → ℝ)
    (K : (Fin (n + 1) → X) → (Fin (n + 1) → Fin (N + 1)) →
      Ex ((Fin (n + 1) → X) × (Fin (n + 1) → Fin (N + 1)))) : Prop :=
  ∀ f : (Fin (n + 1) → X) × (Fin (n + 1) → Fin (N + 1)) → ℝ≥0∞, Measurable f →
    ∑ b, ∫⁻ x, ENNReal.ofReal (Real.exp (logpi x)) * K x b f ∂(Measure.pi fun _ => lam) =
      ∑ b, ∫⁻ x, ENNReal.ofReal (Real.exp (logpi x)) * f (x, b) ∂(Measure.pi fun _ => lam)

/-- The program `P` draws independent particles, particle `i` with log-density `q i` with respect to `lam`. -/
structure SamplesFrom {X : Type} [MeasurableSpace X] {k : ℕ} (lam : Measure X) (q : Fin k → X → ℝ)
    (P : Ex (Fin k → X)) : Prop where
  meas : ∀ i, Measurable (q i)
  /-- `exp (q i)` integrates to one -/
  norm : ∀ i, ∫⁻ x, ENNReal.ofReal (Real.exp (q i x)) ∂lam = 1
  /-- the law of the particles -/
  law : ∀ f, Measurable f →
    P f = ∫⁻ x, f x ∂(Measure.pi fun i => lam.withDensity fun x => ENNReal.ofReal (Real.exp (q i x)))

end Verif.Spec
