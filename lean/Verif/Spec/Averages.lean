import Mathlib.Probability.Moments.Variance

/-!
# Specification vocabulary: the law of a sample drawn at a random time
-/

open MeasureTheory

namespace Verif.Spec

/-- The law of `X K`, with `K` uniform among the indices. -/
noncomputable def averagedLaw {L : ℕ} (μ : Fin (L + 1) → Measure ℝ) : Measure ℝ := (((L + 1 : ℕ) : ENNReal)⁻¹) • ∑ k, μ k

end Verif.Spec
