import Verif.Spec.FlatSteps
import Mathlib.Analysis.SpecialFunctions.Exp

/-!
# Specification vocabulary: how often a kernel without backward sampling moves
-/

open scoped ENNReal

namespace Verif.Spec

/-- With `N + 1` particles that cannot be told apart and no backward sampling, the trajectory kept at time `t` is another one if it is another one at the
last time and has not met the reference since: with killing it never does, with multinomial resampling it meets the reference at each step with
probability `1 / (N + 1)`. A forced last step always changes the index at the last time. -/
noncomputable def scanLimit (N : ℕ) (resampling last_step : String) {n : ℕ} (t : Fin (n + 1)) : ℝ :=
  (if last_step = "forced" then 1 else (N : ℝ) / (N + 1)) * (if resampling = "killing" then 1 else (N : ℝ) / (N + 1)) ^ (n - t.1)

end Verif.Spec
