import Verif.Spec.LagLaws
import Verif.Model.Diagnostics

/-!
# Specification vocabulary: auto-correlations of a function of the samples
-/

open scoped ENNReal
open MeasureTheory

namespace Verif.Spec
open Verif Verif.Model

variable {T d : ℕ}

/-- The auto-covariance of a number computed from a sample, along a stationary run. -/
noncomputable def autoCovOf (K : SvKernel Ex T d) (delta : StepSize T) (π : Measure (Traj T d)) (f : Traj T d → ℝ) (lag : ℕ) : ℝ :=
  ∫ p, (f p.1 - ∫ x, f x ∂π) * (f p.2 - ∫ x, f x ∂π) ∂lagLaw K delta π lag

/-- The auto-correlation. -/
noncomputable def autoCorrOf (K : SvKernel Ex T d) (delta : StepSize T) (π : Measure (Traj T d)) (f : Traj T d → ℝ) (lag : ℕ) : ℝ :=
  autoCovOf K delta π f lag / ∫ x, (f x - ∫ x, f x ∂π) ^ 2 ∂π

/-- One of the auto-correlations at the lags `0` to `n_lags` that are drawn for a number that is computed from every sample of every chain
differs by more than `η` from the auto-correlation of a stationary run. -/
def AcfOff (K : SvKernel Ex T d) (π : Measure (Traj T d)) (f : Traj T d → ℝ) (n_lags : ℕ) (η : ℝ) (delta : StepSize T) {L M : ℕ}
    (numbers : Fin (strideLen (L + 1) 1) → Fin M → ℝ) : Prop :=
  ∃ lag : Fin (n_lags + 1), η < |cross_chains_autocorr (fun l : Fin (L + 1) => numbers ⟨l, by simp only [strideLen]; omega⟩) lag - autoCorrOf K delta π f lag|

end Verif.Spec
