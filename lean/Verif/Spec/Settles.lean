import Verif.Spec.ErgodicRuns
import Verif.Spec.Reach

/-!
# Specification vocabulary: convergence up to an error that does not grow
-/

open scoped ENNReal
open MeasureTheory

namespace Verif.Spec
open Verif Verif.Model

/-- From every state, the samples of a chain of this kernel settle near `π`: sample `k` is within `r ^ (k + 1) + c` of `π`. -/
def SettlesNear {T d : ℕ} (r c : ℝ≥0∞) (π : Measure (Traj T d)) (K : SvKernel Ex T d) (delta : StepSize T) : Prop :=
  ∀ key n_steps (k : Fin (strideLen n_steps 1)) (s : K.S), TVLe (r ^ (k + 1 : ℕ) + c)
    (fun f => K.experiment_all key s (fun k s => K.kernel k s delta) n_steps fun r => f (r.1 k)) fun f => ∫⁻ x, f x ∂π

/-- The kernel has exactly one invariant law, and the law of `p s` for `s` from it is within `ε` of `π`. -/
def SoleInvariantNear {S X : Type} [MeasurableSpace S] [MeasurableSpace X] (ε : ℝ≥0∞) (p : S → X) (π : Measure X) (K : S → Ex S) :
    Prop :=
  ∃ ρ : Measure S, IsProbabilityMeasure ρ ∧ IsInvariant ρ K ∧ (∀ ρ' : Measure S, IsProbabilityMeasure ρ' → IsInvariant ρ' K → ρ' = ρ) ∧
    TVLe ε (fun f => ∫⁻ s, f (p s) ∂ρ) fun f => ∫⁻ x, f x ∂π

/-- A kernel on trajectories and indices has exactly one invariant law of trajectories, and it is within `ε` of `π`. -/
def OnlyInvariantNear {X : Type} [MeasurableSpace X] {N n : ℕ} (ε : ℝ≥0∞) (π : Measure (Fin (n + 1) → X))
    (K : (Fin (n + 1) → X) → (Fin (n + 1) → Fin (N + 1)) → Ex ((Fin (n + 1) → X) × (Fin (n + 1) → Fin (N + 1)))) : Prop :=
  ∃ μ : Measure (Fin (n + 1) → X), IsProbabilityMeasure μ ∧ OnlyInvariant μ K ∧ TVLe ε (fun f => ∫⁻ x, f x ∂μ) fun f => ∫⁻ x, f x ∂π

end Verif.Spec
