import Verif.Spec.Ergodic
import Verif.Spec.Runs

/-!
# Specification vocabulary: convergence of the chains of the experiments
-/

open scoped ENNReal
open MeasureTheory

namespace Verif.Spec
open Verif Verif.Model

/-- How many children a particle of weight `w` has at least, as a multiple of `w`, for the resampling schemes selected by name;
`0` stands for "no bound". -/
def spreadOf (N : ℕ) (resampling : String) (backward : Bool) : ℝ≥0∞ :=
  if resampling = "multinomial" then N else if backward then 0 else (N - 1 : ℕ)

/-- The same for the last moves selected by name. -/
noncomputable def awayOf (N : ℕ) (last_step : String) : ℝ≥0∞ := if last_step = "barker" then 1 else ENNReal.ofReal (1 / (N + 1))

/-- Largest log-density of an observation `y ~ N(0, diag(exp x))`, over all `x`; finite if no component of `y` is zero. -/
noncomputable def svMaxLog {d : ℕ} (y : Fin d → ℝ) : ℝ := ∑ j, -(Real.log (2 * Real.pi * y j ^ 2) + 1) / 2

/-- Largest log-density of an observation `y ~ N(x, 1)`, over all `x`. -/
noncomputable def lgMaxLog (d : ℕ) : ℝ := -(d / 2 * Real.log (2 * Real.pi))

/-- From every state, the samples of a chain of this kernel approach `π`: sample `k` is within `r ^ (k + 1) + (k + 1) ε` of `π`. -/
def ApproachesLaw {T d : ℕ} (r ε : ℝ≥0∞) (π : Measure (Traj T d)) (K : SvKernel Ex T d) (delta : StepSize T) : Prop :=
  ∀ key n_steps (k : Fin (strideLen n_steps 1)) (s : K.S), TVLe (r ^ (k + 1 : ℕ) + (k + 1 : ℕ) * ε)
    (fun f => K.experiment_all key s (fun k s => K.kernel k s delta) n_steps fun r => f (r.1 k)) fun f => ∫⁻ x, f x ∂π

end Verif.Spec
