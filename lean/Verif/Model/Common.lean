import Mathlib.Analysis.SpecialFunctions.Log.Basic
import Verif.Core.Rand

/-!
# `gradient_csmc/utils/common.py`
-/

namespace Verif.Model
open Verif

variable {m : Type → Type} [RandM m]

/-- The threshold of the guard of `force_move`: `/repo/gradient_csmc/utils/common.py:36`. -/
noncomputable def forceThreshold (M : ℕ) : ℝ := max (1 - Real.exp (-M)) (1 - 1e-12)

/-- Proposal probabilities of `force_move`: `/repo/gradient_csmc/utils/common.py:32-38`. -/
noncomputable def forceRest {n : ℕ} (w : Fin (n + 1) → ℝ) (k : Fin (n + 1)) : Fin (n + 1) → ℝ :=
  let w_k := w k
  let temp := 1 - w_k
  let rest := atSet w k 0
  if w_k < forceThreshold (n + 1) then fun i => rest i / temp else fun _ => 1 / ((n : ℝ) + 1)

open Classical in
/-- Second output of `force_move`: `/repo/gradient_csmc/utils/common.py:44, 47`.
`jnp.nansum` ignores the terms `0/0` (with Lean's `x/0 = 0` these are zero); a term `x/0` with `x > 0`
is `inf` in floating point, so the sum is `inf` and is clipped to `1`. -/
noncomputable def forceAlpha {n : ℕ} (w : Fin (n + 1) → ℝ) (k : Fin (n + 1)) : ℝ :=
  let temp := 1 - w k
  let rest := forceRest w k
  if ∃ i, 1 - w i = 0 ∧ 0 < temp * rest i then 1
  else min (max (∑ i, temp * rest i / (1 - w i)) 0) 1

/-- `force_move(key, weights, k)`: `/repo/gradient_csmc/utils/common.py:8-47`. -/
noncomputable def force_move (key : Key) {n : ℕ} (w : Fin (n + 1) → ℝ) (k : Fin (n + 1)) :
    m (Fin (n + 1) × ℝ) := do
  let keys := splitKey key 2
  let temp := 1 - w k
  let rest := forceRest w k
  let i ← choice (keys 0) rest
  let u ← uniform (keys 1)
  let i' := if u * (1 - w i) < temp then i else k
  pure (i', forceAlpha w k)

/-- `barker_move(key, weights, k)`: `/repo/gradient_csmc/utils/common.py:50-72`. -/
noncomputable def barker_move (key : Key) {n : ℕ} (w : Fin (n + 1) → ℝ) (k : Fin (n + 1)) :
    m (Fin (n + 1) × ℝ) := do
  let i ← choice key w
  pure (i, 1 - w k)

/-- `_log_1_m_exp(arr)`: `/repo/gradient_csmc/utils/common.py:75-78`
(`expm1 x = exp x - 1`). -/
noncomputable def log_1_m_exp {n : ℕ} (arr : Fin (n + 1) → ℝ) : Fin (n + 1) → ℝ :=
  let max_arr := maxA arr
  fun i => Real.log (-(Real.exp (arr i - max_arr) - 1)) + max_arr

end Verif.Model
