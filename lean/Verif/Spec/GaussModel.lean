import Verif.Model.AtpCsmcF
import Verif.Spec.Svd
import Verif.Spec.Invariance

/-!
# Hypotheses on a model with Gaussian dynamics and log-potentials, and its law
-/

namespace Verif.Spec
open Verif.Model Verif

variable {MP RP : Type} {n d : ℕ}

/-- Covariances are positive definite, `svd` returns singular value decompositions of them, step sizes are positive,
and no eigenvalue of a proposal covariance is below the floor `1e-15` of `_get_proposal_params`. -/
structure ProposalOK (svd : Mat d d → SvdOut d) (M : GaussModel MP RP n d) (ells : Fin (n + 1) → ℝ) : Prop where
  posDef : ∀ t, (insert0 M.P0 M.Qs t).PosDef
  isSvd : ∀ t, IsSvd (insert0 M.P0 M.Qs t) (svd (insert0 M.P0 M.Qs t)).U (svd (insert0 M.P0 M.Qs t)).Gamma
    (svd (insert0 M.P0 M.Qs t)).U_t
  pos : ∀ t, 0 < ells t
  floor : ∀ t, AtLeast 1e-15 (isoPost (ells t / 2) (insert0 M.P0 M.Qs t))

/-- Measurability of the means, potentials and gradients of a model. -/
structure GaussMeas (M : GaussModel MP RP n d) : Prop where
  r0 : Measurable M.r0
  r0_grad : Measurable M.r0_grad
  mu : ∀ t, Measurable fun y => M.mu y (M.mu_params t)
  rt : ∀ t, Measurable fun p : Vec d × Vec d => M.rt p.1 p.2 (M.rt_params t)
  rt_grad : ∀ t, Measurable fun p : Vec d × Vec d => M.rt_grad p.1 p.2 (M.rt_params t)

/-- Log-density of a trajectory: Gaussian dynamics times `exp` of the log-potentials. -/
noncomputable def gaussPath (M : GaussModel MP RP n d) : (Fin (n + 1) → Vec d) → ℝ :=
  pathLogDensity (fun x => normalLogpdf M.mu0 M.P0 x + M.r0 x)
    (fun t y x => normalLogpdf (M.mu y (M.mu_params t)) (M.Qs t) x + M.rt y x (M.rt_params t))

end Verif.Spec
