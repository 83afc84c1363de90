import Mathlib.Analysis.SpecialFunctions.Log.Basic
import Verif.Core.Rand

/-!
# `gradient_csmc/utils/resamplings.py`
-/

namespace Verif.Model
open Verif

variable {m : Type → Type} [RandM m]

/-- `jax.scipy.special.logsumexp` on a real vector (used at
`/repo/gradient_csmc/utils/resamplings.py:105`). -/
noncomputable def logsumexp {n : ℕ} (lw : Fin n → ℝ) : ℝ := Real.log (∑ k, Real.exp (lw k))

/-- `normalize(log_weights, log_space=True)`:
`/repo/gradient_csmc/utils/resamplings.py:88-106`. -/
noncomputable def normalizeLog {n : ℕ} (lw : Fin n → ℝ) : Fin n → ℝ := fun k => lw k - logsumexp lw

/-- `normalize(log_weights)` (`log_space=False`):
`/repo/gradient_csmc/utils/resamplings.py:88-108`. -/
noncomputable def normalizeW {n : ℕ} (lw : Fin n → ℝ) : Fin n → ℝ :=
  fun k => Real.exp (normalizeLog lw k)

/-- `multinomial(key, weights, i, j, conditional)`:
`/repo/gradient_csmc/utils/resamplings.py:12-36`. -/
noncomputable def multinomial (key : Key) {n : ℕ} (w : Fin (n + 1) → ℝ) (i j : Fin (n + 1))
    (conditional : Bool) : m (Fin (n + 1) → Fin (n + 1)) := do
  let indices ← choices key (n + 1) w
  if conditional then
    pure (atSet indices j i)
  else
    pure indices

/-- `J_prob` of `killing`: `/repo/gradient_csmc/utils/resamplings.py:76-79`. -/
noncomputable def killingJProb {n : ℕ} (w : Fin (n + 1) → ℝ) (i : Fin (n + 1)) : Fin (n + 1) → ℝ :=
  let w_max := maxA w
  let J_prob : Fin (n + 1) → ℝ := fun t => (1 - w t / w_max) / (n + 1)
  let J_prob := atSet J_prob i 0
  let J_prob_i := max (1 - ∑ t, J_prob t) 0
  atSet J_prob i J_prob_i

/-- `killing(key, weights, i, j, conditional)`:
`/repo/gradient_csmc/utils/resamplings.py:39-85`. -/
noncomputable def killing (key : Key) {n : ℕ} (w : Fin (n + 1) → ℝ) (i j : Fin (n + 1))
    (conditional : Bool) : m (Fin (n + 1) → Fin (n + 1)) := do
  let keys := splitKey key 3
  let w_max := maxA w
  let us ← uniforms (keys 0) (n + 1)
  let repl ← choices (keys 1) (n + 1) w
  let idx : Fin (n + 1) → Fin (n + 1) := fun t => if us t * w_max ≥ w t then repl t else t
  if !conditional then
    pure idx
  else do
    let J ← choice (keys 2) (killingJProb w i)
    pure (atSet (roll idx (j - J)) j i)

end Verif.Model
