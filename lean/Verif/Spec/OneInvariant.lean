import Verif.Spec.Reach

/-!
# Specification vocabulary: chains of states with cached values
-/

open scoped ENNReal
open MeasureTheory

namespace Verif.Spec
open Verif

/-- The kernel has at most one invariant law. -/
def AtMostOneInvariant {S : Type} [MeasurableSpace S] (K : S → Ex S) : Prop :=
  ∀ (π₁ π₂ : Measure S) [IsProbabilityMeasure π₁] [IsProbabilityMeasure π₂], IsInvariant π₁ K → IsInvariant π₂ K → π₁ = π₂

/-- In every invariant law of the kernel, the cached values `s.2` are those that `cache` computes from the position `s.1`. -/
def CacheSettles {X R : Type} [MeasurableSpace X] [MeasurableSpace R] (cache : X → R) (K : X × R → Ex (X × R)) : Prop :=
  ∀ (ρ : Measure (X × R)) [IsProbabilityMeasure ρ], IsInvariant ρ K → ∀ᵐ s ∂ρ, s.2 = cache s.1

/-- A lower bound on the probability that one step of independent Metropolis-Hastings with `N` proposals draws its trajectory
from the target: `Z` is the mass of the target and `exp B` bounds its ratio to the proposal. -/
noncomputable def imhRate (N : ℕ) (B : ℝ) (Z : ℝ≥0∞) : ℝ≥0∞ :=
  ENNReal.ofReal (1 / (N + 1)) * N * ENNReal.ofReal (Real.exp (-B) / (N + 1)) * Z

/-- A kernel on trajectories and indices has at most one invariant law of trajectories, whether the indices of the reference are
fixed or carried along. -/
def AtMostOneTraj {X : Type} [MeasurableSpace X] {N n : ℕ}
    (K : (Fin (n + 1) → X) → (Fin (n + 1) → Fin (N + 1)) → Ex ((Fin (n + 1) → X) × (Fin (n + 1) → Fin (N + 1)))) : Prop :=
  (∀ b₁ b₂ (π₁ π₂ : Measure (Fin (n + 1) → X)) [IsProbabilityMeasure π₁] [IsProbabilityMeasure π₂],
    IsInvariant π₁ (fun x => K x b₁ >>= fun r => pure r.1) → IsInvariant π₂ (fun x => K x b₂ >>= fun r => pure r.1) → π₁ = π₂) ∧
  (∀ b (π : Measure (Fin (n + 1) → X)) (ρ : Measure ((Fin (n + 1) → X) × (Fin (n + 1) → Fin (N + 1)))) [IsProbabilityMeasure π]
    [IsProbabilityMeasure ρ], IsInvariant π (fun x => K x b >>= fun r => pure r.1) → IsInvariant ρ (fun s => K s.1 s.2) →
    ρ.map Prod.fst = π) ∧
  ∀ (ρ₁ ρ₂ : Measure ((Fin (n + 1) → X) × (Fin (n + 1) → Fin (N + 1)))) [IsProbabilityMeasure ρ₁] [IsProbabilityMeasure ρ₂],
    IsInvariant ρ₁ (fun s => K s.1 s.2) → IsInvariant ρ₂ (fun s => K s.1 s.2) → ρ₁.map Prod.fst = ρ₂.map Prod.fst

end Verif.Spec
