import Verif.Model.Csmc
import Verif.Spec.Invariance

/-!
# Specification vocabulary: hypotheses on the arguments of `csmc.kernel`
-/

open MeasureTheory

namespace Verif.Spec
open Verif Verif.Model

/-- A model with proposals given by densities with respect to `lam`: the log-densities that the code
evaluates (`M_0_logpdf`, `M_t_logpdf`) are, up to an additive constant, those of the draws of `M_0_rvs` and
`M_t_rvs`, and everything is measurable. -/
structure ProperFK {X P G : Type} [MeasurableSpace X] {N : ℕ} (lam : Measure X) (M : FK Ex X P G N) :
    Prop where
  Gamma0_meas : Measurable M.Gamma0
  Gammat_meas : ∀ g, Measurable fun p : X × X => M.Gammat p.1 p.2 g
  init : ∃ (m : X → ℝ) (c : ℝ), (∀ Xs i, M.M0_logpdf Xs i = m (Xs i) + c) ∧
    ∀ key, SamplesFrom lam (fun _ => m) (M.M0_rvs key)
  step : ∀ p, ∃ (m : X → X → ℝ) (c : ℝ), (Measurable fun z : X × X => m z.1 z.2) ∧
    (∀ Ys Xs i, M.Mt_logpdf Ys Xs p i = m (Ys i) (Xs i) + c) ∧
    ∀ key, IsKer (fun Ys => M.Mt_rvs key Ys p) ∧
      ∀ Ys, SamplesFrom lam (fun i => m (Ys i)) (M.Mt_rvs key Ys p)

/-- A resampling function that pins entry `j` to `i`. -/
def Pins {N : ℕ} (resampling : Resampling Poss N) : Prop :=
  ∀ key w i j, Poss.Always (resampling key w i j true) (fun A => A j = i)

end Verif.Spec
