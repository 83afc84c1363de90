import Mathlib.Data.Real.Basic
import Mathlib.Data.Fin.VecNotation
import Mathlib.Algebra.BigOperators.Fin

/-!
# Directions in which the wrong parents of Particle-aMALA+ show, for the linear Gaussian model

One coordinate of the linear Gaussian model of `experiments/lgssm_scaling` with three times, `a = 1 / σ²` and step size `δ`.
-/

namespace Verif.Spec

/-- Log-density of states and observations, without constants. -/
noncomputable def lgLog (a : ℝ) (y x : Fin 3 → ℝ) : ℝ :=
  -a * x 0 ^ 2 / 2 - (y 0 - x 0) ^ 2 / 2 - a * (x 1 - x 0) ^ 2 / 2 - (y 1 - x 1) ^ 2 / 2 - a * (x 2 - x 1) ^ 2 / 2 -
    (y 2 - x 2) ^ 2 / 2

/-- Means of the auxiliary variables: the states plus `δ / 2` times the gradient of the log-density. -/
noncomputable def lgMean (a δ : ℝ) (y x : Fin 3 → ℝ) : Fin 3 → ℝ :=
  ![x 0 + δ / 2 * ((y 0 - x 0 - a * x 0) + a * (x 1 - x 0)),
    x 1 + δ / 2 * ((y 1 - x 1 - a * (x 1 - x 0)) + a * (x 2 - x 1)),
    x 2 + δ / 2 * (y 2 - x 2 - a * (x 2 - x 1))]

/-- Log-weight of a particle `p` at time zero. -/
noncomputable def lgW0 (a δ : ℝ) (y u : Fin 3 → ℝ) (p : ℝ) : ℝ :=
  -a * p ^ 2 / 2 - (y 0 - p) ^ 2 / 2 - (u 0 - (p + δ / 2 * (y 0 - p - a * p))) ^ 2 / δ + (p - u 0) ^ 2 / δ

/-- Increment at time one for the states `p`, `q` at times zero and one. -/
noncomputable def lgG1 (a δ : ℝ) (y u : Fin 3 → ℝ) (p q : ℝ) : ℝ :=
  -a * (q - p) ^ 2 / 2 - (y 1 - q) ^ 2 / 2 - (u 0 - (p + δ / 2 * (a * (q - p) + (y 0 - p - a * p)))) ^ 2 / δ -
    (u 1 - (q + δ / 2 * (y 1 - q - a * (q - p)))) ^ 2 / δ + (u 0 - (p + δ / 2 * (y 0 - p - a * p))) ^ 2 / δ

/-- Log-weight at time one of a particle `q` with parent `p`. -/
noncomputable def lgW1 (a δ : ℝ) (y u : Fin 3 → ℝ) (p q : ℝ) : ℝ := lgG1 a δ y u p q + (q - u 1) ^ 2 / δ

/-- Increment at time two for the states `o`, `p`, `q` at times zero, one and two. -/
noncomputable def lgG2 (a δ : ℝ) (y u : Fin 3 → ℝ) (o p q : ℝ) : ℝ :=
  -a * (q - p) ^ 2 / 2 - (y 2 - q) ^ 2 / 2 - (u 1 - (p + δ / 2 * (a * (q - p) + (y 1 - p - a * (p - o))))) ^ 2 / δ -
    (u 2 - (q + δ / 2 * (y 2 - q - a * (q - p)))) ^ 2 / δ + (u 1 - (p + δ / 2 * (y 1 - p - a * (p - o)))) ^ 2 / δ

/-- Log-weight at time two of a particle `q` with parent `p` and grandparent `o`. -/
noncomputable def lgW2 (a δ : ℝ) (y u : Fin 3 → ℝ) (o p q : ℝ) : ℝ := lgG2 a δ y u o p q + (q - u 2) ^ 2 / δ

/-- A reference trajectory `x`, auxiliary variables `u` and a proposed particle `z` at every time (all observations being
zero), such that: the proposed particle dominates at time zero; the reference dominates at times one and two; in the
backward pass, with the wrong parents, the proposed particle dominates at times one and zero; and the target at the
trajectory `(z 0, z 1, x 2)` is smaller than the density of this draw.  `p ∈ {x 0, u 0}` etc. are the other particles, the
reference or those at the auxiliary variable. -/
structure LgWitness (a δ : ℝ) (x u z : Fin 3 → ℝ) : Prop where
  zero : ∀ p, p = x 0 ∨ p = u 0 → lgW0 a δ 0 u p < lgW0 a δ 0 u (z 0)
  one : ∀ q, q = z 1 ∨ q = u 1 → lgW1 a δ 0 u (z 0) q < lgW1 a δ 0 u (x 0) (x 1)
  two : ∀ q, q = z 2 ∨ q = u 2 → lgW2 a δ 0 u (x 0) (x 1) q < lgW2 a δ 0 u (x 0) (x 1) (x 2)
  back1 : ∀ p q, (p = x 0 ∧ q = x 1) ∨ (p = z 0 ∧ q = u 1) →
    lgG2 a δ 0 u (x 0) q (x 2) + lgW1 a δ 0 u p q < lgG2 a δ 0 u (x 0) (z 1) (x 2) + lgW1 a δ 0 u (z 0) (z 1)
  back0 : ∀ p, p = x 0 ∨ p = u 0 → lgG1 a δ 0 u p (z 1) + lgG2 a δ 0 u p (z 1) (x 2) + lgW0 a δ 0 u p <
    lgG1 a δ 0 u (z 0) (z 1) + lgG2 a δ 0 u (z 0) (z 1) (x 2) + lgW0 a δ 0 u (z 0)
  gain : lgLog a 0 ![z 0, z 1, x 2] < lgLog a 0 x - ∑ t, (u t - lgMean a δ 0 x t) ^ 2 / δ - ∑ t, (z t - u t) ^ 2 / δ

end Verif.Spec
