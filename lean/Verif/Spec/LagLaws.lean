import Verif.Spec.Runs

/-!
# Specification vocabulary: what a stationary run looks like
-/

open scoped ENNReal
open MeasureTheory

namespace Verif.Spec
open Verif Verif.Model

variable {T d : ℕ}

/-- `Γ` is the joint law of two samples of a run, `lag` steps apart, if the run starts from the law `π`: whatever the key, the length of
the run and the position of the pair. -/
structure IsLagLaw (K : SvKernel Ex T d) (delta : StepSize T) (π : Measure (Traj T d)) (lag : ℕ) (Γ : Measure (Traj T d × Traj T d)) : Prop where
  prob : IsProbabilityMeasure Γ
  law : ∀ (key : Key) (n_steps : ℕ) (k k' : Fin (strideLen n_steps 1)), (k' : ℕ) = k + lag → ∀ u : Traj T d × Traj T d → ℝ≥0∞, Measurable u →
    ∫⁻ x, K.experiment_all key (K.init x) (fun k s => K.kernel k s delta) n_steps (fun r => u (r.1 k, r.1 k')) ∂π = ∫⁻ p, u p ∂Γ

open Classical in
/-- The joint law of two samples of a stationary run. -/
noncomputable def lagLaw (K : SvKernel Ex T d) (delta : StepSize T) (π : Measure (Traj T d)) (lag : ℕ) : Measure (Traj T d × Traj T d) :=
  if h : ∃ Γ, IsLagLaw K delta π lag Γ then h.choose else 0

/-- The auto-covariance of component `i` of the state at time `t`, along a stationary run. -/
noncomputable def autoCov (K : SvKernel Ex T d) (delta : StepSize T) (π : Measure (Traj T d)) (t : Fin T) (i : Fin d) (lag : ℕ) : ℝ :=
  ∫ p, (p.1 t i - ∫ x, x t i ∂π) * (p.2 t i - ∫ x, x t i ∂π) ∂lagLaw K delta π lag

/-- The auto-correlation. -/
noncomputable def autoCorr (K : SvKernel Ex T d) (delta : StepSize T) (π : Measure (Traj T d)) (t : Fin T) (i : Fin d) (lag : ℕ) : ℝ :=
  autoCov K delta π t i lag / ∫ x, (x t i - ∫ x, x t i ∂π) ^ 2 ∂π

/-- The acceptance probability at time `t` in a stationary run: the mean of the flag of its first step. -/
noncomputable def acceptProb (K : SvKernel Ex T d) (delta : StepSize T) (π : Measure (Traj T d)) (t : Fin T) : ℝ :=
  (∫⁻ x, K.experiment_all [] (K.init x) (fun k s => K.kernel k s delta) 1 (fun r => ENNReal.ofReal ((runOf K r).2 ⟨0, by simp [strideLen]⟩ t)) ∂π).toReal

end Verif.Spec
