import Verif.Model.SvRuns
import Verif.Spec.Replicates

/-!
# Specification vocabulary: runs of a chain, with and without their first steps
-/

open scoped ENNReal
open MeasureTheory

namespace Verif.Spec
open Verif Verif.Model

/-- Positive step sizes. -/
def PosSteps {T : ℕ} (delta : StepSize T) : Prop := ∀ t, 0 < delta.at t

/-- The samples of one chain and, for each of them, the acceptance flags of its step as numbers. -/
abbrev Run (k T d : ℕ) : Type := (Fin k → Traj T d) × (Fin k → Fin T → ℝ)

/-- The entries of a sequence after the first `b`; `a[b:]`. -/
def dropFirst {α : Type} {n : ℕ} (b : ℕ) (a : Fin (strideLen (n + b) 1) → α) : Fin (strideLen n 1) → α :=
  fun k => a ⟨k + b, by have := k.2; simp only [strideLen] at this ⊢; omega⟩

/-- A run of `n + b` steps without the first `b` steps. -/
def Run.drop {n T d : ℕ} (b : ℕ) (r : Run (strideLen (n + b) 1) T d) : Run (strideLen n 1) T d :=
  (dropFirst b r.1, dropFirst b r.2)

/-- What one call of `experiment` returns for a constructed kernel, flags as numbers. -/
def runOf {m : Type → Type} {k T d : ℕ} (K : SvKernel m T d) (r : (Fin k → Traj T d) × (Fin k → K.F)) : Run k T d :=
  (r.1, fun i => K.pct (r.2 i))

/-- `M` chains from the same state that are run for `burnin + n_samples` steps without interruption; the first `burnin`
steps of each of them are dropped. -/
def longRuns {m : Type → Type} [RandM m] {M T d : ℕ} (keys : Fin M → Key) (K : SvKernel m T d) (s : K.S) (delta : StepSize T)
    (burnin n_samples : ℕ) : m (Fin M → Run (strideLen n_samples 1) T d) :=
  vmapM (fun key => do
    let r ← K.experiment_all key s (fun k s => K.kernel k s delta) (n_samples + burnin)
    pure ((runOf K r).drop burnin)) keys

/-- A chain of this kernel started from a draw of `π` stays close to `π`: the law of its `k`-th sample is within
`(k + 1) ε` of `π` in total variation. -/
def KeepsLaw {T d : ℕ} (ε : ℝ≥0∞) (π : Measure (Traj T d)) (K : SvKernel Ex T d) (delta : StepSize T) : Prop :=
  ∀ key n_steps (k : Fin (strideLen n_steps 1)), TVLe ((k + 1 : ℕ) * ε)
    (fun f => ∫⁻ x, K.experiment_all key (K.init x) (fun k s => K.kernel k s delta) n_steps (fun r => f (r.1 k)) ∂π)
    (fun f => ∫⁻ x, f x ∂π)

end Verif.Spec
