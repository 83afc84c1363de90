import Verif.Lemmas.Near
import Verif.Lemmas.Proposal
import Verif.Lemmas.AlCsmc
import Verif.Lemmas.MargCsmc
import Verif.Lemmas.TpCsmc
import Verif.Lemmas.AtpCsmc
import Verif.Lemmas.TAtp

/-!
# Replacing the last move changes the law of every kernel by at most the distance between the moves
-/

open MeasureTheory
open scoped ENNReal

namespace Verif
open Verif.Spec Verif.Model Matrix

variable {N n d : ℕ}

/-- Two last moves whose laws are within `ε` of each other for all normalised weights. -/
structure MovesNear (ε : ℝ≥0∞) (mv mv' : AncestorMove Ex N) : Prop where
  ker : ∀ key, MoveKer (moveIndex mv key)
  ker' : ∀ key, MoveKer (moveIndex mv' key)
  near : ∀ key w, IsProb w → ∀ k, TVLe ε (moveIndex mv key w k) (moveIndex mv' key w k)

variable {ε : ℝ≥0∞} {mv mv' : AncestorMove Ex N} {resampling : Resampling Ex N}

theorem csmc_near {X P G : Type} [MeasurableSpace X] {lam : Measure X} [SFinite lam] (key : Key) {M : FK Ex X P G N}
    (hM : ProperFK lam M) (Mparams : Fin n → P) (Gparams : Fin n → G)
    (hR : ∀ key, CondResampling (fun w i j => resampling key w i j true)) (hm : MovesNear ε mv mv') (backward : Bool)
    (x : Fin (n + 1) → X) (b : Fin (n + 1) → Fin (N + 1)) :
    TVLe ε
      ((csmc_kernel key x b M Mparams Gparams resampling mv backward true : Ex _) >>= fun r => pure (r.xs, r.Bs))
      ((csmc_kernel key x b M Mparams Gparams resampling mv' backward true : Ex _) >>= fun r => pure (r.xs, r.Bs)) := by
  obtain ⟨c0, c, hS⟩ := csmcDSys_OK (lam := lam) key Mparams Gparams hM hR
  have h := hS.kernel_near (Γ := fun t y x => M.Gammat y x (Gparams t)) (fun t => hM.Gammat_meas _) (hm.ker _) (hm.ker' _)
    (hm.near (if backward then lastA (splitKey (splitKey key 3 2) (n + 1)) else splitKey key 3 2)) backward x b
  have e : ∀ mv, _ = _ := fun mv => csmc_kernel_eq key M Mparams Gparams resampling mv backward
    (fun f => ∫⁻ x, ENNReal.ofReal (Real.exp (M.Gamma0 x)) * f x ∂lam)
    (fun t y f => ∫⁻ x, ENNReal.ofReal (Real.exp (M.Gammat y x (Gparams t))) * f x ∂lam)
    (tilt c0 (M.M0_rvs (splitKey key 3 0)))
    (fun t Y => tilt (c t) (M.Mt_rvs (splitKey (splitKey (splitKey key 3 1) n t) 2 0) Y (Mparams t))) x b
  rw [e mv, e mv']
  exact h

variable {G : Type}

theorem rw_near (key : Key) {Gamma0 : Vec d → ℝ} {Gammat : Vec d → Vec d → G → ℝ} (Gparams : Fin n → G)
    {ells : Fin (n + 1) → ℝ}
    (h0 : Measurable Gamma0) (h : ∀ g, Measurable fun p : Vec d × Vec d => Gammat p.1 p.2 g)
    (hells : ∀ t, 0 < ells t) (hR : ∀ key, CondResampling (fun w i j => resampling key w i j true))
    (hm : MovesNear ε mv mv') (backward : Bool) (x : Fin (n + 1) → Vec d) (b : Fin (n + 1) → Fin (N + 1)) :
    TVLe ε
      ((rw_kernel (fun _ => true) key x b Gamma0 Gammat Gparams ells resampling mv backward : Ex _) >>=
        fun r => pure (r.xs, r.Bs))
      ((rw_kernel (fun _ => true) key x b Gamma0 Gammat Gparams ells resampling mv' backward : Ex _) >>=
        fun r => pure (r.xs, r.Bs)) := by
  intro f hf h1
  rw [rw_kernel_eq key x b Gparams backward h0 h hells hR hm.ker f hf,
    rw_kernel_eq key x b Gparams backward h0 h hells hR hm.ker' f hf]
  exact (margSys_OK (φ0 := fun _ => 0) (φ := fun _ _ _ => 0) (Γ := fun t y x => Gammat y x (Gparams t)) h0
    (fun t => h (Gparams t)) (by fun_prop) (fun t => by fun_prop) (auxStd_pos hells) (fun t => hR _)).kernel_near
    (fun t => h (Gparams t)) (hm.ker _) (hm.ker' _) (hm.near _) backward x b f hf h1

section mala

variable (key : Key) {Gamma0 : Vec d → ℝ} {Gamma0_grad : Vec d → Vec d} {Gammat : Vec d → Vec d → G → ℝ}
  {Gammat_grad : Vec d → Vec d → G → Vec d} (Gparams : Fin n → G) {ells : Fin (n + 1) → ℝ} (deltas : Fin (n + 1) → ℝ)
  (h0 : Measurable Gamma0) (h : ∀ g, Measurable fun p : Vec d × Vec d => Gammat p.1 p.2 g)
  (hg0 : Measurable Gamma0_grad) (hg : ∀ g, Measurable fun p : Vec d × Vec d => Gammat_grad p.1 p.2 g)
  (hells : ∀ t, 0 < ells t) (hR : ∀ key, CondResampling (fun w i j => resampling key w i j true))
  (hm : MovesNear ε mv mv') (backward : Bool) (x : Fin (n + 1) → Vec d) (b : Fin (n + 1) → Fin (N + 1))
include h0 h hg0 hg hells hR hm

theorem l_near :
    TVLe ε
      ((l_kernel key x b Gamma0 Gamma0_grad Gammat Gammat_grad Gparams ells deltas resampling mv backward : Ex _) >>=
        fun r => pure (r.xs, r.Bs))
      ((l_kernel key x b Gamma0 Gamma0_grad Gammat Gammat_grad Gparams ells deltas resampling mv' backward : Ex _) >>=
        fun r => pure (r.xs, r.Bs)) := by
  have hgt : ∀ t : Fin n, Measurable fun p : Vec d × Vec d => fun j => 0.5 * deltas (Fin.succ t) *
      Gammat_grad p.1 p.2 (Gparams t) j := fun t => by
    have := hg (Gparams t)
    fun_prop
  intro f hf h1
  rw [l_kernel_eq key x b Gparams deltas backward h0 h hg0 hg hells hR hm.ker f hf,
    l_kernel_eq key x b Gparams deltas backward h0 h hg0 hg hells hR hm.ker' f hf]
  exact (margSys_OK (φ0 := fun x j => 0.5 * deltas 0 * Gamma0_grad x j)
    (φ := fun t y x j => 0.5 * deltas t.succ * Gammat_grad y x (Gparams t) j) (Γ := fun t y x => Gammat y x (Gparams t))
    h0 (fun t => h (Gparams t)) (by fun_prop) hgt (auxStd_pos hells) (fun t => hR _)).kernel_near
    (fun t => h (Gparams t)) (hm.ker _) (hm.ker' _) (hm.near _) backward x b f hf h1

theorem al_near :
    TVLe ε
      ((al_kernel key x b Gamma0 Gamma0_grad Gammat Gammat_grad Gparams ells deltas resampling mv backward : Ex _) >>=
        fun r => pure (r.xs, r.Bs))
      ((al_kernel key x b Gamma0 Gamma0_grad Gammat Gammat_grad Gparams ells deltas resampling mv' backward : Ex _) >>=
        fun r => pure (r.xs, r.Bs)) := by
  have hgt : ∀ t : Fin n, Measurable fun p : Vec d × Vec d => fun j => 0.5 * deltas (Fin.succ t) *
      Gammat_grad p.1 p.2 (Gparams t) j := fun t => by
    have := hg (Gparams t)
    fun_prop
  have hg0' : Measurable fun (x : Vec d) j => 0.5 * deltas 0 * Gamma0_grad x j := by fun_prop
  have hb : ∀ t, Measurable fun p : Vec d × Vec d => Gammat p.1 p.2 (Gparams t) := fun t => h (Gparams t)
  refine TVLe.mixture (fun e => ?_)
    (fun f hf => al_kernel_eq key x b Gparams deltas backward h0 h hg0 hg hells hR hm.ker f hf)
    (fun f hf => al_kernel_eq key x b Gparams deltas backward h0 h hg0 hg hells hR hm.ker' f hf)
  exact (alSys_OK (Γ := fun t y x => Gammat y x (Gparams t))
    (φ := fun t y x j => 0.5 * deltas t.succ * Gammat_grad y x (Gparams t) j) h0 hb hg0' hgt (auxStd_pos hells)
    (fun t => hR _) _).kernel_near
    (fun t => measurable_augG (Γ := fun t y x => Gammat y x (Gparams t))
      (φ := fun t y x j => 0.5 * deltas t.succ * Gammat_grad y x (Gparams t) j) hb hgt _ t (by fun_prop) (by fun_prop)
      (by fun_prop)) (hm.ker _) (hm.ker' _) (hm.near _) backward x b

end mala

section grad

variable {MP RP : Type}

theorem tp_near {svd : Mat d d → SvdOut d} {M : GaussModel MP RP n d} {ells : Fin (n + 1) → ℝ}
    (h : ProposalOK svd M ells) (hM : GaussMeas M) (key : Key) (deltas : Fin (n + 1) → ℝ)
    (hR : ∀ key, CondResampling (fun w i j => resampling key w i j true)) (hm : MovesNear ε mv mv') (backward : Bool)
    (x : Fin (n + 1) → Vec d) (b : Fin (n + 1) → Fin (N + 1)) :
    TVLe ε
      ((tp_csmc_kernel svd M key x b ells deltas resampling mv backward : Ex _) >>= fun r => pure (r.xs, r.Bs))
      ((tp_csmc_kernel svd M key x b ells deltas resampling mv' backward : Ex _) >>= fun r => pure (r.xs, r.Bs)) := by
  intro f hf h1
  rw [tp_kernel_eq h hM key x b deltas hR hm.ker backward f hf,
    tp_kernel_eq h hM key x b deltas hR hm.ker' backward f hf]
  exact (tpS_OK h hM key deltas hR).kernel_near hM.gamma (hm.ker _) (hm.ker' _) (hm.near _) backward x b f hf h1

theorem atp_near {svd : Mat d d → SvdOut d} {M : GaussModel MP RP n d} {ells : Fin (n + 1) → ℝ}
    (h : ProposalOK svd M ells) (hM : GaussMeas M)
    (hex : ∀ t, (make_proposal svd M ells t).chol_invᵀ * (make_proposal svd M ells t).chol_inv =
      ((make_proposal svd M ells t).chol * (make_proposal svd M ells t).cholᵀ)⁻¹)
    (key : Key) (deltas : Fin (n + 1) → ℝ)
    (hR : ∀ key, CondResampling (fun w i j => resampling key w i j true)) (hm : MovesNear ε mv mv') (backward : Bool)
    (x : Fin (n + 1) → Vec d) (b : Fin (n + 1) → Fin (N + 1)) :
    TVLe ε
      ((atp_kernel svd M key x b ells deltas resampling mv backward : Ex _) >>= fun r => pure (r.xs, r.Bs))
      ((atp_kernel svd M key x b ells deltas resampling mv' backward : Ex _) >>= fun r => pure (r.xs, r.Bs)) := by
  refine TVLe.mixture (fun e => ?_) (fun f hf => atp_kernel_eq h hex key x b deltas backward f)
    (fun f hf => atp_kernel_eq h hex key x b deltas backward f)
  refine Sys.OK.kernel_near ?_
    (fun t => measurable_augG hM.gamma (hM.phi deltas) _ t (by fun_prop) (by fun_prop) (by fun_prop))
    (hm.ker _) (hm.ker' _) (hm.near _) backward x b
  unfold atpS
  exact atpSys_OK hM.gamma0 hM.gamma (hM.phi0 deltas) (hM.phi deltas) (hM.dt _) h.det (fun t => hR _) _

theorem t_near {M : LinModel RP n d} {r : RevDyn n d} {ells : Fin (n + 1) → ℝ} (hM : LinMeas M)
    (hT : r.PT.PosDef) (hQ : ∀ t, (r.Qs t).PosDef) (hells : ∀ t, 0 < ells t)
    (key : Key) (deltas : Fin (n + 1) → ℝ)
    (hR : ∀ key, CondResampling (fun w i j => resampling key w i j true)) (hm : MovesNear ε mv mv') (backward : Bool)
    (x : Fin (n + 1) → Vec d) (b : Fin (n + 1) → Fin (N + 1)) :
    TVLe ε
      ((t_atp_kernel_rev r M key x b ells deltas resampling mv backward : Ex _) >>= fun r => pure (r.xs, r.Bs))
      ((t_atp_kernel_rev r M key x b ells deltas resampling mv' backward : Ex _) >>= fun r => pure (r.xs, r.Bs)) := by
  refine TVLe.mixture (fun e => ?_) (fun f hf => t_kernel_eq hT hQ hells key x b deltas backward f)
    (fun f hf => t_kernel_eq hT hQ hells key x b deltas backward f)
  have hG := tG_meas deltas hM hT hQ hells
  refine Sys.OK.kernel_near ?_ (gSys_inc hG _) (hm.ker _) (hm.ker' _) (hm.near _) backward x b
  unfold tS
  exact gSys_OK hG (tL_det hT hQ hells) (fun t => hR _) _

end grad

end Verif
