import Mathlib.Data.Fin.Tuple.Basic
import Verif.Spec.LgWrong

/-!
# Directions in which the wrong parents of Particle-aMALA+ show, for the linear Gaussian model with four times or more

One coordinate of the linear Gaussian model of `experiments/lgssm_scaling` with `n + 4` times, `a = 1 / σ²` and step size
`δ`.  The increments and log-weights are those of `Spec/LgWrong`, on three consecutive times.
-/

namespace Verif.Spec

variable {n : ℕ}

/-- Three consecutive entries, from time `t` on. -/
def win {α : Type} (t : Fin (n + 2)) (v : Fin (n + 4) → α) : Fin 3 → α :=
  ![v t.castSucc.castSucc, v t.castSucc.succ, v t.succ.succ]

/-- Log-density of states and observations, without constants. -/
noncomputable def lgLogL (a : ℝ) (y x : Fin (n + 1) → ℝ) : ℝ :=
  -a * x 0 ^ 2 / 2 - (y 0 - x 0) ^ 2 / 2 -
    ∑ t : Fin n, (a * (x t.succ - x t.castSucc) ^ 2 / 2 + (y t.succ - x t.succ) ^ 2 / 2)

/-- Means of the auxiliary variables: the states plus `δ / 2` times the gradient of the log-density. -/
noncomputable def lgMeanL (a δ : ℝ) (y x : Fin (n + 1) → ℝ) (t : Fin (n + 1)) : ℝ :=
  x t + δ / 2 * ((Fin.cons (y 0 - x 0 - a * x 0) fun t : Fin n => y t.succ - x t.succ - a * (x t.succ - x t.castSucc) :
      Fin (n + 1) → ℝ) t +
    (Fin.snoc (fun t : Fin n => a * (x t.succ - x t.castSucc)) 0 : Fin (n + 1) → ℝ) t)

/-- The trajectory `x` with its first two states replaced. -/
def twoNew {α : Type} (z0 z1 : α) (x : Fin (n + 4) → α) : Fin (n + 4) → α :=
  Fin.cons z0 (Fin.cons z1 fun t : Fin (n + 2) => x t.succ.succ)

/-- A reference trajectory `x`, auxiliary variables `u` and proposed particles `z0`, `z1` at times zero and one (all
observations being zero), such that: the proposed particle dominates at time zero; the reference dominates at all other
times of the forward pass, and from the last time to time two in the backward pass; in the backward pass, with the wrong
parents, the proposed particle dominates at times one and zero; and the target at the new trajectory is smaller than the
density of this draw. -/
structure LgWitnessL (a δ : ℝ) (x u : Fin (n + 4) → ℝ) (z0 z1 : ℝ) : Prop where
  zero : ∀ p, p = x 0 ∨ p = u 0 → lgW0 a δ 0 (win 0 u) p < lgW0 a δ 0 (win 0 u) z0
  one : ∀ q, q = z1 ∨ q = u 1 → lgW1 a δ 0 (win 0 u) z0 q < lgW1 a δ 0 (win 0 u) (x 0) (x 1)
  fwd : ∀ t, lgW2 a δ 0 (win t u) (x t.castSucc.castSucc) (x t.castSucc.succ) (u t.succ.succ) <
    lgW2 a δ 0 (win t u) (x t.castSucc.castSucc) (x t.castSucc.succ) (x t.succ.succ)
  last : lgG2 a δ 0 (win (Fin.last (n + 1)) u) (x (Fin.last (n + 1)).castSucc.castSucc) (u (Fin.last (n + 1)).castSucc.succ)
        (x (Fin.last (n + 3))) +
      lgW2 a δ 0 (win (Fin.last n).castSucc u) (x (Fin.last n).castSucc.castSucc.castSucc)
        (x (Fin.last n).castSucc.castSucc.succ) (u (Fin.last n).castSucc.succ.succ) <
    lgG2 a δ 0 (win (Fin.last (n + 1)) u) (x (Fin.last (n + 1)).castSucc.castSucc) (x (Fin.last (n + 1)).castSucc.succ)
        (x (Fin.last (n + 3))) +
      lgW2 a δ 0 (win (Fin.last n).castSucc u) (x (Fin.last n).castSucc.castSucc.castSucc)
        (x (Fin.last n).castSucc.castSucc.succ) (x (Fin.last n).castSucc.succ.succ)
  back : ∀ t : Fin n,
    lgG2 a δ 0 (win t.succ.succ u) (u t.castSucc.castSucc.succ.succ) (x t.castSucc.succ.succ.succ) (x t.succ.succ.succ.succ) +
      lgG2 a δ 0 (win t.castSucc.succ u) (x t.castSucc.castSucc.castSucc.succ) (u t.castSucc.castSucc.succ.succ)
        (x t.castSucc.succ.succ.succ) +
      lgW2 a δ 0 (win t.castSucc.castSucc u) (x t.castSucc.castSucc.castSucc.castSucc) (x t.castSucc.castSucc.castSucc.succ)
        (u t.castSucc.castSucc.succ.succ) <
    lgG2 a δ 0 (win t.succ.succ u) (x t.castSucc.castSucc.succ.succ) (x t.castSucc.succ.succ.succ) (x t.succ.succ.succ.succ) +
      lgG2 a δ 0 (win t.castSucc.succ u) (x t.castSucc.castSucc.castSucc.succ) (x t.castSucc.castSucc.succ.succ)
        (x t.castSucc.succ.succ.succ) +
      lgW2 a δ 0 (win t.castSucc.castSucc u) (x t.castSucc.castSucc.castSucc.castSucc) (x t.castSucc.castSucc.castSucc.succ)
        (x t.castSucc.castSucc.succ.succ)
  back1 : ∀ p q, (p = x 0 ∧ q = x 1) ∨ (p = z0 ∧ q = u 1) →
    lgG2 a δ 0 (win 1 u) q (x 2) (x 3) + lgG2 a δ 0 (win 0 u) (x 0) q (x 2) + lgW1 a δ 0 (win 0 u) p q <
      lgG2 a δ 0 (win 1 u) z1 (x 2) (x 3) + lgG2 a δ 0 (win 0 u) (x 0) z1 (x 2) + lgW1 a δ 0 (win 0 u) z0 z1
  back0 : ∀ p, p = x 0 ∨ p = u 0 →
    lgG1 a δ 0 (win 0 u) p z1 + lgG2 a δ 0 (win 0 u) p z1 (x 2) + lgW0 a δ 0 (win 0 u) p <
      lgG1 a δ 0 (win 0 u) z0 z1 + lgG2 a δ 0 (win 0 u) z0 z1 (x 2) + lgW0 a δ 0 (win 0 u) z0
  gain : lgLogL a 0 (twoNew z0 z1 x) < lgLogL a 0 x - ∑ t, (u t - lgMeanL a δ 0 x t) ^ 2 / δ - (z0 - u 0) ^ 2 / δ -
    (z1 - u 1) ^ 2 / δ

end Verif.Spec
