import Verif.Spec.Near
import Verif.Spec.Chain
import Verif.Model.Mcmc

/-!
# Specification vocabulary: two successive states of a stationary chain
-/

open scoped ENNReal
open MeasureTheory Finset

namespace Verif.Spec
open Verif Verif.Model

variable {X : Type} [MeasurableSpace X] {N n : ℕ}

/-- States of a conditional SMC chain: a trajectory and its indices. -/
abbrev PathState (X : Type) (N n : ℕ) := (Fin (n + 1) → X) × (Fin (n + 1) → Fin (N + 1))

/-- Expectation of `H (z, z')` when `z` is drawn from the measure with density `exp logpi` (times the uniform law on index
vectors) and `z'` is one step of the kernel `K` from `z`. -/
noncomputable def stationaryPair (lam : Measure X) (logpi : (Fin (n + 1) → X) → ℝ)
    (K : (Fin (n + 1) → X) → (Fin (n + 1) → Fin (N + 1)) → Ex (PathState X N n))
    (H : PathState X N n → PathState X N n → ℝ≥0∞) : ℝ≥0∞ :=
  ∑ b, ∫⁻ x, ENNReal.ofReal (Real.exp (logpi x)) * K x b (H (x, b)) ∂(Measure.pi fun _ => lam)

/-- The pair of successive states has the same law in both orders. -/
def ReversibleFor (lam : Measure X) (logpi : (Fin (n + 1) → X) → ℝ)
    (K : (Fin (n + 1) → X) → (Fin (n + 1) → Fin (N + 1)) → Ex (PathState X N n)) : Prop :=
  ∀ H : PathState X N n → PathState X N n → ℝ≥0∞, Measurable (Function.uncurry H) →
    stationaryPair lam logpi K H = stationaryPair lam logpi K (fun z z' => H z' z)

/-- Total mass of the target, over all index vectors. -/
noncomputable def targetMass (N : ℕ) (lam : Measure X) (logpi : (Fin (n + 1) → X) → ℝ) : ℝ≥0∞ :=
  ∑ _b : Fin (n + 1) → Fin (N + 1), ∫⁻ x, ENNReal.ofReal (Real.exp (logpi x)) ∂(Measure.pi fun _ => lam)

/-- The laws of the pair of successive states in the two orders differ by at most `ε` times the total mass. -/
def NearReversibleFor (ε : ℝ≥0∞) (lam : Measure X) (logpi : (Fin (n + 1) → X) → ℝ)
    (K : (Fin (n + 1) → X) → (Fin (n + 1) → Fin (N + 1)) → Ex (PathState X N n)) : Prop :=
  ∀ H : PathState X N n → PathState X N n → ℝ≥0∞, Measurable (Function.uncurry H) → (∀ z z', H z z' ≤ 1) →
    stationaryPair lam logpi K H ≤ stationaryPair lam logpi K (fun z z' => H z' z) +
      ε * targetMass N lam logpi

/-- A move of the last index that is reversible with respect to the weights. -/
structure MoveReversible {N : ℕ} (move : (Fin (N + 1) → ℝ) → Fin (N + 1) → Ex (Fin (N + 1))) : Prop where
  /-- the program is a measurable family of measures -/
  ker : MoveKer move
  /-- reversibility -/
  rev : ∀ w, IsProb w → (∀ i, 0 < w i) → ∀ H : Fin (N + 1) → Fin (N + 1) → ℝ≥0∞,
    ∑ k, ENNReal.ofReal (w k) * move w k (H k) = ∑ k, ENNReal.ofReal (w k) * move w k (fun l => H l k)

/-- From every index, `move'` goes to every other index with at least the probability that `move` does. -/
def MovesMore {N : ℕ} (move move' : (Fin (N + 1) → ℝ) → Fin (N + 1) → Ex (Fin (N + 1))) : Prop :=
  ∀ w, IsProb w → ∀ k (g : Fin (N + 1) → ℝ≥0∞), g k = 0 → move w k g ≤ move' w k g

/-- From every index, `move'` goes to every set of other indices with at least the probability that `move` does,
minus `ε`. -/
def MovesNearlyMore {N : ℕ} (ε : ℝ≥0∞) (move move' : (Fin (N + 1) → ℝ) → Fin (N + 1) → Ex (Fin (N + 1))) : Prop :=
  ∀ w, IsProb w → ∀ k (g : Fin (N + 1) → ℝ≥0∞), (∀ i, g i ≤ 1) → g k = 0 → move w k g ≤ move' w k g + ε

/-- Any distance between successive states is larger under `K'` than under `K`, on average. -/
def JumpsLess (lam : Measure X) (logpi : (Fin (n + 1) → X) → ℝ)
    (K K' : (Fin (n + 1) → X) → (Fin (n + 1) → Fin (N + 1)) → Ex (PathState X N n)) : Prop :=
  ∀ H : PathState X N n → PathState X N n → ℝ≥0∞, Measurable (Function.uncurry H) → (∀ z, H z z = 0) →
    stationaryPair lam logpi K H ≤ stationaryPair lam logpi K' H

/-- The same up to `ε` times the total mass, for distances bounded by one. -/
def JumpsNearlyLess (ε : ℝ≥0∞) (lam : Measure X) (logpi : (Fin (n + 1) → X) → ℝ)
    (K K' : (Fin (n + 1) → X) → (Fin (n + 1) → Fin (N + 1)) → Ex (PathState X N n)) : Prop :=
  ∀ H : PathState X N n → PathState X N n → ℝ≥0∞, Measurable (Function.uncurry H) → (∀ z z', H z z' ≤ 1) →
    (∀ z, H z z = 0) → stationaryPair lam logpi K H ≤ stationaryPair lam logpi K' H + ε * targetMass N lam logpi

/-- Any distance between the final values of successive states is larger under `K'` than under `K`, on average. -/
def LastJumpsLess (lam : Measure X) (logpi : (Fin (n + 1) → X) → ℝ)
    (K K' : (Fin (n + 1) → X) → (Fin (n + 1) → Fin (N + 1)) → Ex (PathState X N n)) : Prop :=
  ∀ h : X → X → ℝ≥0∞, Measurable (Function.uncurry h) → (∀ v, h v v = 0) →
    stationaryPair lam logpi K (fun z z' => h (z.1 (Fin.last n)) (z'.1 (Fin.last n))) ≤
      stationaryPair lam logpi K' (fun z z' => h (z.1 (Fin.last n)) (z'.1 (Fin.last n)))

/-- The same up to `ε` times the total mass, for distances bounded by one. -/
def LastJumpsNearlyLess (ε : ℝ≥0∞) (lam : Measure X) (logpi : (Fin (n + 1) → X) → ℝ)
    (K K' : (Fin (n + 1) → X) → (Fin (n + 1) → Fin (N + 1)) → Ex (PathState X N n)) : Prop :=
  ∀ h : X → X → ℝ≥0∞, Measurable (Function.uncurry h) → (∀ v v', h v v' ≤ 1) → (∀ v, h v v = 0) →
    stationaryPair lam logpi K (fun z z' => h (z.1 (Fin.last n)) (z'.1 (Fin.last n))) ≤
      stationaryPair lam logpi K' (fun z z' => h (z.1 (Fin.last n)) (z'.1 (Fin.last n))) + ε * targetMass N lam logpi

/-- Successive states are nonnegatively correlated: `E[f]² ≤ E[f(z) f(z')]` (with the total masses put in, since the
density is not normalised), for every function `f ≥ 0` of the state. -/
def NonnegAutocov (lam : Measure X) (logpi : (Fin (n + 1) → X) → ℝ)
    (K : (Fin (n + 1) → X) → (Fin (n + 1) → Fin (N + 1)) → Ex (PathState X N n)) : Prop :=
  ∀ f : PathState X N n → ℝ≥0∞, Measurable f →
    (∑ b, ∫⁻ x, ENNReal.ofReal (Real.exp (logpi x)) * f (x, b) ∂(Measure.pi fun _ => lam)) ^ 2 ≤
      targetMass N lam logpi * stationaryPair lam logpi K (fun z z' => f z * f z')

/-- The same for functions of the final value. -/
def LastNonnegAutocov (lam : Measure X) (logpi : (Fin (n + 1) → X) → ℝ)
    (K : (Fin (n + 1) → X) → (Fin (n + 1) → Fin (N + 1)) → Ex (PathState X N n)) : Prop :=
  ∀ f : X → ℝ≥0∞, Measurable f →
    (∑ _b : Fin (n + 1) → Fin (N + 1), ∫⁻ x, ENNReal.ofReal (Real.exp (logpi x)) * f (x (Fin.last n))
        ∂(Measure.pi fun _ => lam)) ^ 2 ≤
      targetMass N lam logpi * stationaryPair lam logpi K (fun z z' => f (z.1 (Fin.last n)) * f (z'.1 (Fin.last n)))

/-- Mean of `F` under the target (not normalised), the index vectors being uniform. -/
noncomputable def targetMean (lam : Measure X) (logpi : (Fin (n + 1) → X) → ℝ) (F : PathState X N n → ℝ≥0∞) : ℝ≥0∞ :=
  ∑ b, ∫⁻ x, ENNReal.ofReal (Real.exp (logpi x)) * F (x, b) ∂(Measure.pi fun _ => lam)

/-- A stationary run read backwards has the law of a stationary run (with the keys in the opposite order). -/
def RunsReversible (lam : Measure X) (logpi : (Fin (n + 1) → X) → ℝ)
    (kernel : Key → PathState X N n → Ex (PathState X N n)) : Prop :=
  ∀ (m : ℕ) (keys : Fin m → Key) (F : (Fin (m + 1) → PathState X N n) → ℝ≥0∞), Measurable F →
    targetMean lam logpi (fun s => chain kernel s keys F) =
      targetMean lam logpi (fun s => chain kernel s (fun i => keys i.rev) (fun tr => F fun i => tr i.rev))

/-- Auto-covariances of a stationary run are nonnegative and do not increase with the lag, so that sums over the samples of
`sampling_routine` vary at least as much as sums of independent draws. Masses appear because the target is not normalised:
for a probability the inequalities are `E[f]² ≤ E[f(z₀) f(z_m)]` and
`E[(∑ₖ f(xₖ))²] ≥ M E[f²] + M (M - 1) E[f]²`. -/
structure PositivelyCorrelated (lam : Measure X) (logpi : (Fin (n + 1) → X) → ℝ)
    (kernel : Key → PathState X N n → Ex (PathState X N n)) : Prop where
  lag : ∀ f : PathState X N n → ℝ≥0∞, Measurable f → ∀ (m : ℕ) (keys : Fin m → Key), (targetMean lam logpi f) ^ 2 ≤
    targetMass N lam logpi * targetMean lam logpi (fun s => chain kernel s keys (fun tr => f (tr 0) * f (tr (Fin.last m))))
  mono : ∀ f : PathState X N n → ℝ≥0∞, Measurable f → targetMean lam logpi (fun s => f s * f s) ≠ ∞ →
    ∀ (m : ℕ) (keys : Fin m → Key) (keys' : Fin (m + 1) → Key),
      targetMean lam logpi (fun s => chain kernel s keys' (fun tr => f (tr 0) * f (tr (Fin.last (m + 1))))) ≤
        targetMean lam logpi (fun s => chain kernel s keys (fun tr => f (tr 0) * f (tr (Fin.last m))))
  average : ∀ f : (Fin (n + 1) → X) → ℝ≥0∞, Measurable f → ∀ (key : Key) (n_steps g : ℕ),
    (strideLen n_steps g : ℝ≥0∞) * (targetMass N lam logpi * targetMean (N := N) lam logpi (fun s => f s.1 * f s.1)) +
      (strideLen n_steps g * (strideLen n_steps g - 1) : ℕ) * (targetMean (N := N) lam logpi fun s => f s.1) ^ 2 ≤
    targetMass N lam logpi * targetMean lam logpi (fun s =>
      sampling_routine key s.1 s.2 kernel n_steps g (fun r => (∑ k, f (r.1 k)) ^ 2))

end Verif.Spec
