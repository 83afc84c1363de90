import Verif.Lemmas.Consistent
import Verif.Lemmas.KeyFree
import Verif.Props.Unique

/-!
# C71: samples forget where the chain started, and averages over them converge
-/

open scoped ENNReal
open MeasureTheory

namespace Verif.Props
open Verif Verif.Model Verif.Spec Matrix

variable {N n d : ℕ} {resampling : String} {R : Resampling Ex N} {mv : AncestorMove Ex N}

/-- **C71** for `csmc.kernel` with any proper model (proposals whose law does not depend on the key), the Barker move and at least two
particles. Nothing has to be bounded. -/
theorem C71_csmc {X P G : Type} [MeasurableSpace X] [MeasurableSpace.CountablyGenerated X] (lam : Measure X) [SigmaFinite lam]
    {M : FK Ex X P G N} (hM : ProperFK lam M) (hfree : SameLawForAllKeys M)
    (Mparams : Fin n → P) (Gparams : Fin n → G) (hR : sel_resampling resampling = .ok R) (hm : sel_last_step "barker" = .ok mv)
    (hN : N ≠ 0) (backward : Bool)
    (hZ : ∫⁻ x, ENNReal.ofReal (Real.exp (pathLogDensity M.Gamma0 (fun t y x => M.Gammat y x (Gparams t)) x)) ∂(Measure.pi fun _ => lam) ≠ 0 ∧
      ∫⁻ x, ENNReal.ofReal (Real.exp (pathLogDensity M.Gamma0 (fun t y x => M.Gammat y x (Gparams t)) x)) ∂(Measure.pi fun _ => lam) ≠ ∞) :
    Consistent (Measure.pi fun _ => lam) (lawOf (Measure.pi fun _ => lam) (pathLogDensity M.Gamma0 (fun t y x => M.Gammat y x (Gparams t))))
      (fun key (s : (Fin (n + 1) → X) × (Fin (n + 1) → Fin (N + 1))) => (do
        let r ← csmc_kernel key s.1 s.2 M Mparams Gparams R mv backward true
        pure (r.xs, r.Bs) : Ex _)) := by
  have hS := sel_ok hR hm
  obtain ⟨h1, -, h2⟩ := C62_csmc lam [] hM Mparams Gparams hS.cond hS.rotR (sel_barker hm rfl) hS.rot backward
  have := countablyGenerated_pi (X := X) (n + 1)
  exact consistent (K := fun key x b => (csmc_kernel key x b M Mparams Gparams R mv backward true : Ex _) >>= fun r => pure (r.xs, r.Bs))
    (measurable_pathLogDensity hM.Gamma0_meas fun _ => hM.Gammat_meas _) hZ
    (fun key x b f _ => congrFun (csmc_free hfree Mparams Gparams hR hm backward key x b) f)
    ((csmc_markov_relabels lam [] hM Mparams Gparams hS.cond hS.ker backward).1 hS.mass) h1 h2
    (fun x b f hf => csmc_reach (f := f) lam [] hM Mparams Gparams hS.cond hS.ker backward (sel_reach hR hm hN backward) x b hf)

section aux
variable {G : Type} {Gamma0 : Vec d → ℝ} {Gamma0_grad : Vec d → Vec d} {Gammat : Vec d → Vec d → G → ℝ}
  {Gammat_grad : Vec d → Vec d → G → Vec d} {ells : Fin (n + 1) → ℝ}

/-- **C71** for `rw_csmc.kernel`. -/
theorem C71_rw (Gparams : Fin n → G)
    (h0 : Measurable Gamma0) (h : ∀ g, Measurable fun p : Vec d × Vec d => Gammat p.1 p.2 g) (hells : ∀ t, 0 < ells t)
    (hR : sel_resampling resampling = .ok R) (hm : sel_last_step "barker" = .ok mv) (hN : N ≠ 0) (backward : Bool)
    (hZ : ∫⁻ x, ENNReal.ofReal (Real.exp (pathLogDensity Gamma0 (fun t y x => Gammat y x (Gparams t)) x)) ∂trajVol (n + 1) d ≠ 0 ∧
      ∫⁻ x, ENNReal.ofReal (Real.exp (pathLogDensity Gamma0 (fun t y x => Gammat y x (Gparams t)) x)) ∂trajVol (n + 1) d ≠ ∞) :
    Consistent (trajVol (n + 1) d) (lawOf (trajVol (n + 1) d) (pathLogDensity Gamma0 (fun t y x => Gammat y x (Gparams t))))
      (fun key (s : (Fin (n + 1) → Vec d) × (Fin (n + 1) → Fin (N + 1))) => (do
        let r ← rw_kernel (fun _ => true) key s.1 s.2 Gamma0 Gammat Gparams ells R mv backward
        pure (r.xs, r.Bs) : Ex _)) := by
  have hS := sel_ok hR hm
  obtain ⟨h1, -, h2⟩ := C62_rw (ells := ells) [] Gparams h0 h hells hS.cond hS.rotR (sel_barker hm rfl) hS.rot backward
  exact consistent (K := fun key x b => (rw_kernel (fun _ => true) key x b Gamma0 Gammat Gparams ells R mv backward : Ex _) >>= fun r => pure (r.xs, r.Bs))
    (measurable_pathLogDensity h0 fun _ => h _) hZ
    (fun key x b f hf => rw_free Gparams h0 h hells hR hm hS.cond hS.ker backward key x b hf)
    (rw_markov [] Gparams h0 h hells hS.cond hS.ker hS.mass backward) h1 h2
    (fun x b f hf => rw_reach (f := f) [] Gparams h0 h hells hS.cond hS.ker backward (sel_reach hR hm hN backward) x b hf)

/-- **C71** for `l_csmc_f.kernel` (Particle-MALA). -/
theorem C71_l (Gparams : Fin n → G) (deltas : Fin (n + 1) → ℝ)
    (h0 : Measurable Gamma0) (h : ∀ g, Measurable fun p : Vec d × Vec d => Gammat p.1 p.2 g)
    (hg0 : Measurable Gamma0_grad) (hg : ∀ g, Measurable fun p : Vec d × Vec d => Gammat_grad p.1 p.2 g) (hells : ∀ t, 0 < ells t)
    (hR : sel_resampling resampling = .ok R) (hm : sel_last_step "barker" = .ok mv) (hN : N ≠ 0) (backward : Bool)
    (hZ : ∫⁻ x, ENNReal.ofReal (Real.exp (pathLogDensity Gamma0 (fun t y x => Gammat y x (Gparams t)) x)) ∂trajVol (n + 1) d ≠ 0 ∧
      ∫⁻ x, ENNReal.ofReal (Real.exp (pathLogDensity Gamma0 (fun t y x => Gammat y x (Gparams t)) x)) ∂trajVol (n + 1) d ≠ ∞) :
    Consistent (trajVol (n + 1) d) (lawOf (trajVol (n + 1) d) (pathLogDensity Gamma0 (fun t y x => Gammat y x (Gparams t))))
      (fun key (s : (Fin (n + 1) → Vec d) × (Fin (n + 1) → Fin (N + 1))) => (do
        let r ← l_kernel key s.1 s.2 Gamma0 Gamma0_grad Gammat Gammat_grad Gparams ells deltas R mv backward
        pure (r.xs, r.Bs) : Ex _)) := by
  have hS := sel_ok hR hm
  obtain ⟨h1, -, h2⟩ := C62_l (ells := ells) [] Gparams deltas h0 h hg0 hg hells hS.cond hS.rotR (sel_barker hm rfl) hS.rot backward
  exact consistent (K := fun key x b => (l_kernel key x b Gamma0 Gamma0_grad Gammat Gammat_grad Gparams ells deltas R mv backward : Ex _) >>= fun r =>
      pure (r.xs, r.Bs))
    (measurable_pathLogDensity h0 fun _ => h _) hZ
    (fun key x b f hf => l_free Gparams deltas h0 h hg0 hg hells hR hm hS.cond hS.ker backward key x b hf)
    (l_markov [] Gparams deltas h0 h hg0 hg hells hS.cond hS.ker hS.mass backward) h1 h2
    (fun x b f hf => l_reach (f := f) [] Gparams deltas h0 h hg0 hg hells hS.cond hS.ker backward (sel_reach hR hm hN backward) x b hf)

/-- **C71** for `al_csmc_f.kernel` (Particle-aMALA). -/
theorem C71_al (Gparams : Fin n → G) (deltas : Fin (n + 1) → ℝ)
    (h0 : Measurable Gamma0) (h : ∀ g, Measurable fun p : Vec d × Vec d => Gammat p.1 p.2 g)
    (hg0 : Measurable Gamma0_grad) (hg : ∀ g, Measurable fun p : Vec d × Vec d => Gammat_grad p.1 p.2 g) (hells : ∀ t, 0 < ells t)
    (hR : sel_resampling resampling = .ok R) (hm : sel_last_step "barker" = .ok mv) (hN : N ≠ 0) (backward : Bool)
    (hZ : ∫⁻ x, ENNReal.ofReal (Real.exp (pathLogDensity Gamma0 (fun t y x => Gammat y x (Gparams t)) x)) ∂trajVol (n + 1) d ≠ 0 ∧
      ∫⁻ x, ENNReal.ofReal (Real.exp (pathLogDensity Gamma0 (fun t y x => Gammat y x (Gparams t)) x)) ∂trajVol (n + 1) d ≠ ∞) :
    Consistent (trajVol (n + 1) d) (lawOf (trajVol (n + 1) d) (pathLogDensity Gamma0 (fun t y x => Gammat y x (Gparams t))))
      (fun key (s : (Fin (n + 1) → Vec d) × (Fin (n + 1) → Fin (N + 1))) => (do
        let r ← al_kernel key s.1 s.2 Gamma0 Gamma0_grad Gammat Gammat_grad Gparams ells deltas R mv backward
        pure (r.xs, r.Bs) : Ex _)) := by
  have hS := sel_ok hR hm
  obtain ⟨h1, -, h2⟩ := C62_al (ells := ells) [] Gparams deltas h0 h hg0 hg hells hS.cond hS.rotR (sel_barker hm rfl) hS.rot backward
  exact consistent (K := fun key x b => (al_kernel key x b Gamma0 Gamma0_grad Gammat Gammat_grad Gparams ells deltas R mv backward : Ex _) >>= fun r =>
      pure (r.xs, r.Bs))
    (measurable_pathLogDensity h0 fun _ => h _) hZ
    (fun key x b f hf => al_free Gparams deltas h0 h hg0 hg hells hR hm hS.cond hS.ker backward key x b hf)
    (al_markov [] Gparams deltas h0 h hg0 hg hells hS.cond hS.ker hS.mass backward) h1 h2
    (fun x b f hf => al_reach (f := f) [] Gparams deltas h0 h hg0 hg hells hS.cond hS.ker backward (sel_reach hR hm hN backward) x b hf)

end aux

section proposals
variable {MP RP : Type} {svd : Mat d d → SvdOut d} {M : GaussModel MP RP n d} {ells : Fin (n + 1) → ℝ}

/-- **C71** for `tp_csmc.kernel` (Particle-mGRAD). -/
theorem C71_tp (h : ProposalOK svd M ells) (hM : GaussMeas M) (deltas : Fin (n + 1) → ℝ)
    (hR : sel_resampling resampling = .ok R) (hm : sel_last_step "barker" = .ok mv) (hN : N ≠ 0) (backward : Bool)
    (hZ : ∫⁻ x, ENNReal.ofReal (Real.exp (gaussPath M x)) ∂trajVol (n + 1) d ≠ 0 ∧
      ∫⁻ x, ENNReal.ofReal (Real.exp (gaussPath M x)) ∂trajVol (n + 1) d ≠ ∞) :
    Consistent (trajVol (n + 1) d) (lawOf (trajVol (n + 1) d) (gaussPath M))
      (fun key (s : (Fin (n + 1) → Vec d) × (Fin (n + 1) → Fin (N + 1))) => (do
        let r ← tp_csmc_kernel svd M key s.1 s.2 ells deltas R mv backward
        pure (r.xs, r.Bs) : Ex _)) := by
  have hS := sel_ok hR hm
  obtain ⟨h1, -, h2⟩ := C62_tp h hM [] deltas hS.cond hS.rotR (sel_barker hm rfl) hS.rot backward
  exact consistent (K := fun key x b => (tp_csmc_kernel svd M key x b ells deltas R mv backward : Ex _) >>= fun r => pure (r.xs, r.Bs))
    (measurable_gaussPath hM) hZ
    (fun key x b f hf => tp_free h hM deltas hR hm hS.cond hS.ker backward key x b hf)
    (tp_markov h hM [] deltas hS.cond hS.ker hS.mass backward) h1 h2
    (fun x b f hf => tp_reach (f := f) h hM [] deltas hS.cond hS.ker backward (sel_reach hR hm hN backward) x b hf)

/-- **C71** for `atp_csmc_f.kernel` (Particle-aGRAD), for the covariances of C34. -/
theorem C71_atp (h : ProposalOK svd M ells) (hM : GaussMeas M)
    (hd : ∀ t, insert0 M.P0 M.Qs t = diagonal (svd (insert0 M.P0 M.Qs t)).Gamma) (deltas : Fin (n + 1) → ℝ)
    (hR : sel_resampling resampling = .ok R) (hm : sel_last_step "barker" = .ok mv) (hN : N ≠ 0) (backward : Bool)
    (hZ : ∫⁻ x, ENNReal.ofReal (Real.exp (gaussPath M x)) ∂trajVol (n + 1) d ≠ 0 ∧
      ∫⁻ x, ENNReal.ofReal (Real.exp (gaussPath M x)) ∂trajVol (n + 1) d ≠ ∞) :
    Consistent (trajVol (n + 1) d) (lawOf (trajVol (n + 1) d) (gaussPath M))
      (fun key (s : (Fin (n + 1) → Vec d) × (Fin (n + 1) → Fin (N + 1))) => (do
        let r ← atp_kernel svd M key s.1 s.2 ells deltas R mv backward
        pure (r.xs, r.Bs) : Ex _)) := by
  have hS := sel_ok hR hm
  have hex : ∀ t, (make_proposal svd M ells t).chol_invᵀ * (make_proposal svd M ells t).chol_inv =
      ((make_proposal svd M ells t).chol * (make_proposal svd M ells t).cholᵀ)⁻¹ := fun t => by
    rw [svd_chol_eq h t]
    exact (atp_precision_iff (h.posDef t) (h.isSvd t) (h.pos t) (h.floor t)).mpr (hd t)
  obtain ⟨h1, -⟩ := C62_atp (svd := svd) (ells := ells) hM [] deltas hS.cond hS.rotR hS.ker hS.rot backward
  exact consistent (K := fun key x b => (atp_kernel svd M key x b ells deltas R mv backward : Ex _) >>= fun r => pure (r.xs, r.Bs))
    (measurable_gaussPath hM) hZ
    (fun key x b f _ => atp_free h hex deltas hR hm backward key x b f)
    (atp_markov h hM hex [] deltas hS.cond hS.ker hS.mass backward) h1
    (C62_atp_invariant h hM hd [] deltas hS.cond hS.rotR (sel_barker hm rfl) hS.rot backward)
    (fun x b f hf => atp_reach (f := f) h hM hex [] deltas hS.cond hS.ker backward (sel_reach hR hm hN backward) x b hf)

end proposals

section twisted
variable {RP : Type} {ells : Fin (n + 1) → ℝ} {M : LinModel RP n d}

/-- **C71** for `t_atp_csmc_f.kernel` (twisted Particle-aGRAD): averages converge, to the means under the process that the reversed
dynamics describe; this is the target if and only if they are right (C57). -/
theorem C71_t {r : RevDyn n d} (hM : LinMeas M) (hT : r.PT.PosDef) (hQ : ∀ t, (r.Qs t).PosDef) (hells : ∀ t, 0 < ells t)
    (deltas : Fin (n + 1) → ℝ)
    (hR : sel_resampling resampling = .ok R) (hm : sel_last_step "barker" = .ok mv) (hN : N ≠ 0) (backward : Bool)
    (hZ : ∫⁻ x, ENNReal.ofReal (Real.exp (revPath r M x)) ∂trajVol (n + 1) d ≠ 0 ∧
      ∫⁻ x, ENNReal.ofReal (Real.exp (revPath r M x)) ∂trajVol (n + 1) d ≠ ∞) :
    Consistent (trajVol (n + 1) d) (lawOf (trajVol (n + 1) d) (revPath r M))
      (fun key (s : (Fin (n + 1) → Vec d) × (Fin (n + 1) → Fin (N + 1))) => (do
        let r ← t_atp_kernel_rev r M key s.1 s.2 ells deltas R mv backward
        pure (r.xs, r.Bs) : Ex _)) := by
  have hS := sel_ok hR hm
  have h1 : Relabels (fun (x : Fin (n + 1) → Vec d) (b : Fin (n + 1) → Fin (N + 1)) => (do
      let r ← t_atp_kernel_rev r M [] x b ells deltas R mv backward
      pure (r.xs, r.Bs) : Ex _)) := t_relabels r hM [] ells deltas hS.cond hS.rotR hS.ker hS.rot backward
  exact consistent (K := fun key x b => (t_atp_kernel_rev r M key x b ells deltas R mv backward : Ex _) >>= fun r => pure (r.xs, r.Bs))
    (measurable_revPath hM r) hZ
    (fun key x b f _ => t_free hT hQ hells deltas hR hm backward key x b f)
    (t_markov hM hT hQ hells [] deltas hS.cond hS.ker hS.mass backward) h1
    (h1.invariant (C57_invariant_rev hM hT hQ hells [] deltas hS.cond (sel_barker hm rfl) backward))
    (fun x b f hf => t_reach (f := f) hM hT hQ hells [] deltas hS.cond hS.ker backward (sel_reach hR hm hN backward) x b hf)

end twisted

section second
variable {G : Type} {Gamma0 : Vec d → ℝ} {Gamma0_grad : Vec d → Vec d} {Gammat : Vec d → Vec d → G → ℝ}
  {Gammat_grad0 Gammat_grad1 : Vec d → Vec d → G → Vec d} {ells : Fin (n + 3) → ℝ}

/-- **C71** for `al_csmc_s.kernel` with backward scanning (smoothing-style Particle-aMALA). -/
theorem C71_als (Gparams : Fin (n + 2) → G) (deltas : Fin (n + 3) → ℝ)
    (h0 : Measurable Gamma0) (h : ∀ g, Measurable fun p : Vec d × Vec d => Gammat p.1 p.2 g)
    (hg : Measurable Gamma0_grad) (hg0 : ∀ g, Measurable fun p : Vec d × Vec d => Gammat_grad0 p.1 p.2 g)
    (hg1 : ∀ g, Measurable fun p : Vec d × Vec d => Gammat_grad1 p.1 p.2 g) (hells : ∀ t, 0 < ells t)
    (hR : sel_resampling resampling = .ok R) (hm : sel_last_step "barker" = .ok mv) (hN : N ≠ 0)
    (hZ : ∫⁻ x, ENNReal.ofReal (Real.exp (pathLogDensity Gamma0 (fun t y x => Gammat y x (Gparams t)) x)) ∂trajVol (n + 3) d ≠ 0 ∧
      ∫⁻ x, ENNReal.ofReal (Real.exp (pathLogDensity Gamma0 (fun t y x => Gammat y x (Gparams t)) x)) ∂trajVol (n + 3) d ≠ ∞) :
    Consistent (trajVol (n + 3) d) (lawOf (trajVol (n + 3) d) (pathLogDensity Gamma0 (fun t y x => Gammat y x (Gparams t))))
      (fun key (s : (Fin (n + 3) → Vec d) × (Fin (n + 3) → Fin (N + 1))) => (do
        let r ← als_kernel key s.1 s.2 Gamma0 Gamma0_grad Gammat Gammat_grad0 Gammat_grad1 Gparams ells deltas R mv false
        pure (r.xs, r.Bs) : Ex _)) := by
  have hS := sel_ok hR hm
  obtain ⟨K, hK⟩ : ∃ K, K = fun key (x : Fin (n + 3) → Vec d) (b : Fin (n + 3) → Fin (N + 1)) =>
      (als_kernel key x b Gamma0 Gamma0_grad Gammat Gammat_grad0 Gammat_grad1 Gparams ells deltas R mv false : Ex _) >>= fun r => pure (r.xs, r.Bs) := ⟨_, rfl⟩
  have e : K = fun key x b => als_kernelF id key x b Gamma0 Gamma0_grad Gammat Gammat_grad0 Gammat_grad1 Gparams ells deltas R mv false :=
    hK.trans (funext fun key => funext fun x => funext fun b => als_kernel_eq_F key x b Gparams ells deltas R mv false)
  obtain ⟨h1, -, h2⟩ := C62_als (ells := ells) [] Gparams deltas h0 h hg hg0 hg1 hells hS.cond hS.rotR (sel_barker hm rfl) hS.rot
  have hid : ∀ F : AlsFwd N n d, (id F).xs = F.xs ∧ (id F).As = F.As ∧ (id F).log_ws = F.log_ws := fun F => ⟨rfl, rfl, rfl⟩
  have hf0 : false = true → ParentsOK Gammat Gammat_grad0 Gammat_grad1 Gparams ells deltas (id : AlsFwd N n d → _) := fun hb => absurd hb (by decide)
  have main := consistent (K := K) (measurable_pathLogDensity h0 fun t => h (Gparams t)) hZ
    (fun key x b f hf => by
      rw [e]
      exact als_free Gparams deltas h0 h hg hg0 hg1 hells hR hm hS.cond hS.ker false id hid hf0 key x b hf)
    (by rw [e]; exact (alsF_markov_relabels [] Gparams deltas h0 h hg hg0 hg1 hells hS.cond hS.ker false id hid hf0).1 hS.mass)
    (by rw [hK]; exact h1) (by rw [hK]; exact h2)
    (fun x b f hf => by
      rw [e]
      exact als_reach [] Gparams deltas h0 h hg hg0 hg1 hells hS.cond hS.ker false id hid hf0 (sel_reach hR hm hN false) x b hf)
  rw [hK] at main
  exact main

end second

end Verif.Props
