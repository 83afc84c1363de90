import Verif.Spec.Ergodic
import Verif.Spec.Indices

/-!
# Specification vocabulary: chains that can go everywhere
-/

open scoped ENNReal
open MeasureTheory

namespace Verif.Spec
open Verif

/-- One step of the kernel, from any state, has a positive probability to end up in any set that is not negligible for `lam`. -/
def Reaches {S X : Type} [MeasurableSpace X] (lam : Measure X) (K : S → Ex X) : Prop :=
  ∀ s A, MeasurableSet A → lam A ≠ 0 → K s (A.indicator 1) ≠ 0

/-- `π` is invariant for the kernel `K`. -/
def IsInvariant {X : Type} [MeasurableSpace X] (π : Measure X) (K : X → Ex X) : Prop :=
  ∀ f, Measurable f → ∫⁻ x, K x f ∂π = ∫⁻ x, f x ∂π

/-- A kernel on trajectories and indices has `μ` as its only invariant law: for every fixed indices of the reference, the laws of
trajectories that one step leaves unchanged are `μ` and nothing else; and if one step leaves a joint law of trajectory and indices
unchanged, then its trajectory has law `μ`. -/
def OnlyInvariant {X : Type} [MeasurableSpace X] {N n : ℕ} (μ : Measure (Fin (n + 1) → X))
    (K : (Fin (n + 1) → X) → (Fin (n + 1) → Fin (N + 1)) → Ex ((Fin (n + 1) → X) × (Fin (n + 1) → Fin (N + 1)))) : Prop :=
  (∀ b (π : Measure (Fin (n + 1) → X)) [IsProbabilityMeasure π], IsInvariant π (fun x => K x b >>= fun r => pure r.1) ↔ π = μ) ∧
  ∀ ρ : Measure ((Fin (n + 1) → X) × (Fin (n + 1) → Fin (N + 1))), IsProbabilityMeasure ρ → IsInvariant ρ (fun s => K s.1 s.2) →
    ρ.map Prod.fst = μ

end Verif.Spec
