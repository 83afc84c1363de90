import Verif.Spec.Near
import Verif.Spec.Runs
import Verif.Model.Mcmc
import Verif.Model.Csmc
import Mathlib.MeasureTheory.Integral.Bochner.Basic

/-!
# Specification vocabulary: samplers that forget their start and whose averages converge
-/

open scoped ENNReal
open MeasureTheory

namespace Verif.Spec
open Verif Verif.Model

variable {X : Type} [MeasurableSpace X]

/-- A statement about the law of the first state, for all laws with a density, and for almost every fixed state. -/
def FromMostStarts (lam : Measure X) (P : Measure X → Prop) : Prop :=
  (∀ ν : Measure X, IsProbabilityMeasure ν → ν ≪ lam → P ν) ∧ ∀ᵐ x ∂lam, P (Measure.dirac x)

/-- Average of `f` over the samples. -/
noncomputable def sampleMean {M : ℕ} (f : X → ℝ) (xs : Fin M → X) : ℝ := (∑ k, f (xs k)) / M

/-- `sampling_routine` with this kernel samples from `μ` in the long run: whatever the indices of the first reference, the key and the
thinning `g`,
* the law of a sample is as close as one likes to `μ` in total variation once enough steps have been made;
* the average of a bounded function over the samples is as close as one likes to its mean under `μ`, in mean square, once there are
  enough samples. -/
structure Consistent {N n : ℕ} (lam μ : Measure (Fin (n + 1) → X))
    (kernel : Key → (Fin (n + 1) → X) × (Fin (n + 1) → Fin (N + 1)) → Ex ((Fin (n + 1) → X) × (Fin (n + 1) → Fin (N + 1)))) : Prop where
  samples : FromMostStarts lam fun ν => ∀ δ : ℝ≥0∞, δ ≠ 0 → ∃ n0 : ℕ, ∀ (b : Fin (n + 1) → Fin (N + 1)) (key : Key) (n_steps g : ℕ)
    (k : Fin (strideLen n_steps g)), n0 ≤ k * g + 1 →
      TVLe δ (fun f => ∫⁻ x, (sampling_routine key x b kernel n_steps g : Ex _) (fun r => f (r.1 k)) ∂ν) (fun f => ∫⁻ x, f x ∂μ)
  averages : FromMostStarts lam fun ν => ∀ f : (Fin (n + 1) → X) → ℝ, Measurable f → (∃ C, ∀ x, |f x| ≤ C) → ∀ δ : ℝ≥0∞, δ ≠ 0 →
    ∃ M0 : ℕ, ∀ (b : Fin (n + 1) → Fin (N + 1)) (key : Key) (n_steps g : ℕ), M0 ≤ strideLen n_steps g →
      ∫⁻ x, (sampling_routine key x b kernel n_steps g : Ex _)
        (fun r => ENNReal.ofReal ((sampleMean f r.1 - ∫ x, f x ∂μ) ^ 2)) ∂ν ≤ δ

/-- The same for a kernel of the stochastic volatility experiment with frozen step sizes, and for its own sampling routine. -/
structure RunsConsistent {T d : ℕ} (lam μ : Measure (Traj T d)) (K : SvKernel Ex T d) (delta : StepSize T) : Prop where
  samples : FromMostStarts lam fun ν => ∀ δ : ℝ≥0∞, δ ≠ 0 → ∃ n0 : ℕ, ∀ (key : Key) (n_steps : ℕ) (k : Fin (strideLen n_steps 1)), n0 ≤ k →
    TVLe δ (fun f => ∫⁻ x, K.experiment_all key (K.init x) (fun k s => K.kernel k s delta) n_steps (fun r => f (r.1 k)) ∂ν) (fun f => ∫⁻ x, f x ∂μ)
  averages : FromMostStarts lam fun ν => ∀ f : Traj T d → ℝ, Measurable f → (∃ C, ∀ x, |f x| ≤ C) → ∀ δ : ℝ≥0∞, δ ≠ 0 →
    ∃ M0 : ℕ, ∀ (key : Key) (n_steps : ℕ), M0 ≤ n_steps →
      ∫⁻ x, K.experiment_all key (K.init x) (fun k s => K.kernel k s delta) n_steps
        (fun r => ENNReal.ofReal ((sampleMean f r.1 - ∫ x, f x ∂μ) ^ 2)) ∂ν ≤ δ

/-- The laws of the proposals of a model do not depend on the key they are given. -/
structure SameLawForAllKeys {P G : Type} {N : ℕ} (M : FK Ex X P G N) : Prop where
  init : ∀ key, M.M0_rvs key = M.M0_rvs []
  step : ∀ key, M.Mt_rvs key = M.Mt_rvs []

end Verif.Spec
