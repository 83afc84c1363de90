import Verif.Model.RwCsmc
import Verif.Core.KerSem
import Mathlib.Topology.MetricSpace.Pseudo.Pi

/-!
# Specification vocabulary: how often a kernel moves at one time step
-/

open scoped ENNReal Topology

namespace Verif.Spec
open Verif Verif.Model

/-- The probability that the trajectory returned has at time `t` another index than `b`. -/
noncomputable def moveProb {X : Type} {N n : ℕ} (P : Ex (KOut X N n)) (t : Fin (n + 1)) (b : Fin (N + 1)) : ℝ≥0∞ :=
  P fun o => if o.Bs t ≠ b then 1 else 0

/-- Step sizes, one for each time, all positive and tending to zero. -/
def smallSteps (n : ℕ) : Filter (Fin (n + 1) → ℝ) := 𝓝[{δ | ∀ t, 0 < δ t}] 0

/-- With `N + 1` particles that cannot be told apart, the index changes with probability `N / (N + 1)`; a forced last step always changes it. -/
noncomputable def flatLimit (N : ℕ) (last_step : String) {n : ℕ} (t : Fin (n + 1)) : ℝ≥0∞ :=
  if last_step = "forced" ∧ t = Fin.last n then 1 else ENNReal.ofReal (N / (N + 1))

end Verif.Spec
