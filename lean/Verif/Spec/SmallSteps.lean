import Verif.Core.Rand

/-!
# Specification vocabulary: acceptance probability of one step
-/

open scoped ENNReal

namespace Verif.Spec
open Verif

/-- The probability that the flag returned by a step is true. -/
noncomputable def flagProb {S : Type} (P : Ex (S × Bool)) : ℝ≥0∞ := P fun r => if r.2 then 1 else 0

end Verif.Spec
