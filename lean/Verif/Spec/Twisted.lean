import Verif.Model.TAtpCsmcF
import Verif.Spec.Lgssm

/-!
# Specification vocabulary: reversed dynamics of a linear Gaussian model, targets with linear dynamics
-/

namespace Verif.Spec
open Verif.Model Verif Matrix

variable {RP : Type} {n d : ℕ}

/-- Log-density of the process described by reversed dynamics: `x_T ~ N(mT, PT)`, `x_t ~ N(F_t x_{t+1} + b_t, Q_t)`. -/
noncomputable def revPathLog (r : RevDyn n d) (x : Fin (n + 1) → Vec d) : ℝ :=
  normalLogpdf r.mT r.PT (x (Fin.last n)) +
    ∑ t : Fin n, normalLogpdf (r.Fs t *ᵥ x t.succ + r.bs t) (r.Qs t) (x t.castSucc)

/-- The law of `x_T` and the conditional laws of `x_t` given `x_{t+1}` described by `r` define the same process as the
initial law and the transitions. -/
structure IsReversal (m0 : Vec d) (P0 : Mat d d) (Fs Qs : Fin n → Mat d d) (bs : Fin n → Vec d) (r : RevDyn n d) :
    Prop where
  final_posDef : r.PT.PosDef
  posDef : ∀ t, (r.Qs t).PosDef
  density : ∀ x : Fin (n + 1) → Vec d, gaussPathLog m0 P0 Fs Qs bs x = revPathLog r x

/-- Mean and covariance of `x_t`. -/
noncomputable def margLaw : {n : ℕ} → Vec d → Mat d d → (Fin n → Mat d d) → (Fin n → Mat d d) → (Fin n → Vec d) →
    Fin (n + 1) → Vec d × Mat d d
  | 0, m0, P0, _, _, _, _ => (m0, P0)
  | _ + 1, m0, P0, Fs, Qs, bs, t => insert0 (m0, P0) (margLaw (Fs 0 *ᵥ m0 + bs 0) (Fs 0 * P0 * (Fs 0)ᵀ + Qs 0)
      (tailA Fs) (tailA Qs) (tailA bs)) t

/-- The conditions under which one step of `_get_reversed_dynamics` is exact, `x_t` having mean `mP.1` and covariance
`mP.2`. -/
structure RevOK (F : Mat d d) (b : Vec d) (mP : Vec d × Mat d d) : Prop where
  mean : Fᵀ *ᵥ mP.1 - Fᵀ *ᵥ b = F *ᵥ mP.1 + b
  cov : Fᵀ * mP.2 * F = F * mP.2 * Fᵀ
  gain : F * mP.2 = mP.2 * Fᵀ

/-- Log-density of a trajectory: linear Gaussian dynamics times `exp` of the log-potentials. -/
noncomputable def linPath (M : LinModel RP n d) : (Fin (n + 1) → Vec d) → ℝ :=
  pathLogDensity (fun x => normalLogpdf M.mu0 M.P0 x + M.r0 x)
    (fun t y x => normalLogpdf (M.Fs t *ᵥ y + M.bs t) (M.Qs t) x + M.rt y x (M.rt_params t))

/-- Log-density of a trajectory: the process of the reversed dynamics `r` times `exp` of the log-potentials. -/
noncomputable def revPath (r : RevDyn n d) (M : LinModel RP n d) (x : Fin (n + 1) → Vec d) : ℝ :=
  revPathLog r x + pathLogDensity M.r0 (fun t y x => M.rt y x (M.rt_params t)) x

/-- Measurability of the potentials and gradients of a model. -/
structure LinMeas (M : LinModel RP n d) : Prop where
  r0 : Measurable M.r0
  r0_grad : Measurable M.r0_grad
  rt : ∀ t, Measurable fun p : Vec d × Vec d => M.rt p.1 p.2 (M.rt_params t)
  rt_grad : ∀ t, Measurable fun p : Vec d × Vec d => M.rt_grad p.1 p.2 (M.rt_params t)

end Verif.Spec
