import Verif.Lemmas.Sliced
import Verif.Lemmas.Proposal
import Verif.Lemmas.AlCsmc
import Verif.Lemmas.AlsKernel
import Verif.Lemmas.MargCsmc
import Verif.Lemmas.TpCsmc
import Verif.Lemmas.AtpCsmc
import Verif.Lemmas.TAtp

/-!
# Two successive states of each kernel
-/

open MeasureTheory
open scoped ENNReal

namespace Verif
open Verif.Spec Verif.Model Matrix

variable {N n d : ℕ}

/-- Multiplying the target by a constant does not matter. -/
theorem Sliced.shift {X : Type} [MeasurableSpace X] {lam : Measure X}
    {logpi logpi' : (Fin (n + 1) → X) → ℝ}
    {K : AncestorMove Ex N → (Fin (n + 1) → X) → (Fin (n + 1) → Fin (N + 1)) → Ex (PathState X N n)} {backward : Bool}
    (h : Sliced lam logpi K backward) (c : ℝ) (hc : ∀ x, logpi' x = c + logpi x) : Sliced lam logpi' K backward := by
  obtain ⟨Ω, mΩ, Φ, w, p, out, kk, h1, h2, h3, h4, h5, h6, h7, h8, h8', h9⟩ := h
  refine ⟨Ω, mΩ, fun f => ENNReal.ofReal (Real.exp c) * Φ f, w, p, out, kk,
    (isKer_tilt h1 c).congr fun _ f hf => h1.const_mul () _ hf, h2, h3, h4, h5, h6, h7, h8,
    fun f hf => ?_, fun mv hm H hH => ?_⟩
  · show ENNReal.ofReal (Real.exp c) * Φ _ = _
    rw [h8' f hf, Finset.mul_sum]
    refine Finset.sum_congr rfl fun b _ => ?_
    rw [← lintegral_const_mul' _ _ ENNReal.ofReal_ne_top]
    refine lintegral_congr fun x => ?_
    rw [hc, Real.exp_add, ENNReal.ofReal_mul (Real.exp_pos _).le, mul_assoc]
  show _ = ENNReal.ofReal (Real.exp c) * Φ _
  rw [← h9 mv hm H hH, stationaryPair, stationaryPair, Finset.mul_sum]
  refine Finset.sum_congr rfl fun b _ => ?_
  rw [← lintegral_const_mul' _ _ ENNReal.ofReal_ne_top]
  refine lintegral_congr fun x => ?_
  rw [hc, Real.exp_add, ENNReal.ofReal_mul (Real.exp_pos _).le, mul_assoc]

variable {resampling : Resampling Ex N}

theorem csmc_sliced {X P G : Type} [MeasurableSpace X] {lam : Measure X} [SigmaFinite lam] (key : Key)
    {M : FK Ex X P G N} (hM : ProperFK lam M) (Mparams : Fin n → P) (Gparams : Fin n → G)
    (hR : ∀ key, CondResampling (fun w i j => resampling key w i j true)) (backward : Bool) :
    Sliced lam (pathLogDensity M.Gamma0 (fun t y x => M.Gammat y x (Gparams t))) (fun mv x b =>
      (csmc_kernel key x b M Mparams Gparams resampling mv backward true : Ex _) >>= fun r => pure (r.xs, r.Bs))
      backward := by
  obtain ⟨c0, c, hS⟩ := csmcDSys_OK (lam := lam) key Mparams Gparams hM hR
  refine hS.sliced hM.Gamma0_meas (fun f hf => rfl) ⟨fun t => hM.Gammat_meas _, fun t y f hf => rfl⟩ backward
    (kk := if backward then lastA (splitKey (splitKey key 3 2) (n + 1)) else splitKey key 3 2) fun mv hm x b f hf => ?_
  have e := csmc_kernel_eq key M Mparams Gparams resampling mv backward
    (fun f => ∫⁻ x, ENNReal.ofReal (Real.exp (M.Gamma0 x)) * f x ∂lam)
    (fun t y f => ∫⁻ x, ENNReal.ofReal (Real.exp (M.Gammat y x (Gparams t))) * f x ∂lam)
    (tilt c0 (M.M0_rvs (splitKey key 3 0)))
    (fun t Y => tilt (c t) (M.Mt_rvs (splitKey (splitKey (splitKey key 3 1) n t) 2 0) Y (Mparams t))) x b
  exact congrFun e f

variable {G : Type}

theorem rw_sliced (key : Key) {Gamma0 : Vec d → ℝ} {Gammat : Vec d → Vec d → G → ℝ} (Gparams : Fin n → G)
    {ells : Fin (n + 1) → ℝ}
    (h0 : Measurable Gamma0) (h : ∀ g, Measurable fun p : Vec d × Vec d => Gammat p.1 p.2 g)
    (hells : ∀ t, 0 < ells t) (hR : ∀ key, CondResampling (fun w i j => resampling key w i j true)) (backward : Bool) :
    Sliced volume (pathLogDensity Gamma0 (fun t y x => Gammat y x (Gparams t))) (fun mv x b =>
      (rw_kernel (fun _ => true) key x b Gamma0 Gammat Gparams ells resampling mv backward : Ex _) >>=
        fun r => pure (r.xs, r.Bs)) backward :=
  (margSys_OK (N := N) (φ0 := fun _ => 0) (φ := fun _ _ _ => 0) (s := auxStd ells)
    (Γ := fun t y x => Gammat y x (Gparams t)) (R := auxR key resampling) h0 (fun t => h (Gparams t)) (by fun_prop)
    (fun t => by fun_prop) (auxStd_pos hells) (fun t => hR _)).sliced h0 (fun _ _ => rfl)
    ⟨fun t => h (Gparams t), fun _ _ _ _ => rfl⟩ backward (kk := auxMoveKey key n backward) fun mv hm x b f hf =>
    rw_kernel_eq key x b Gparams backward h0 h hells hR hm f hf

section mala

variable (key : Key) {Gamma0 : Vec d → ℝ} {Gamma0_grad : Vec d → Vec d} {Gammat : Vec d → Vec d → G → ℝ}
  {Gammat_grad : Vec d → Vec d → G → Vec d} (Gparams : Fin n → G) {ells : Fin (n + 1) → ℝ} (deltas : Fin (n + 1) → ℝ)
  (h0 : Measurable Gamma0) (h : ∀ g, Measurable fun p : Vec d × Vec d => Gammat p.1 p.2 g)
  (hg0 : Measurable Gamma0_grad) (hg : ∀ g, Measurable fun p : Vec d × Vec d => Gammat_grad p.1 p.2 g)
  (hells : ∀ t, 0 < ells t) (hR : ∀ key, CondResampling (fun w i j => resampling key w i j true)) (backward : Bool)
include h0 h hg0 hg hells hR

theorem l_sliced :
    Sliced volume (pathLogDensity Gamma0 (fun t y x => Gammat y x (Gparams t))) (fun mv x b =>
      (l_kernel key x b Gamma0 Gamma0_grad Gammat Gammat_grad Gparams ells deltas resampling mv backward : Ex _) >>=
        fun r => pure (r.xs, r.Bs)) backward := by
  have hgt : ∀ t : Fin n, Measurable fun p : Vec d × Vec d => fun j => 0.5 * deltas (Fin.succ t) *
      Gammat_grad p.1 p.2 (Gparams t) j := fun t => by
    have := hg (Gparams t)
    fun_prop
  exact (margSys_OK (N := N) (φ0 := fun x j => 0.5 * deltas 0 * Gamma0_grad x j)
    (φ := fun t y x j => 0.5 * deltas t.succ * Gammat_grad y x (Gparams t) j) (s := auxStd ells)
    (Γ := fun t y x => Gammat y x (Gparams t))
    (R := auxR key resampling) h0 (fun t => h (Gparams t)) (by fun_prop) hgt (auxStd_pos hells)
    (fun t => hR _)).sliced h0 (fun _ _ => rfl) ⟨fun t => h (Gparams t), fun _ _ _ _ => rfl⟩ backward
    (kk := auxMoveKey key n backward) fun mv hm x b f hf =>
    l_kernel_eq key x b Gparams deltas backward h0 h hg0 hg hells hR hm f hf

theorem al_sliced :
    Sliced volume (pathLogDensity Gamma0 (fun t y x => Gammat y x (Gparams t))) (fun mv x b =>
      (al_kernel key x b Gamma0 Gamma0_grad Gammat Gammat_grad Gparams ells deltas resampling mv backward : Ex _) >>=
        fun r => pure (r.xs, r.Bs)) backward := by
  have hgt : ∀ t : Fin n, Measurable fun p : Vec d × Vec d => fun j => 0.5 * deltas (Fin.succ t) *
      Gammat_grad p.1 p.2 (Gparams t) j := fun t => by
    have := hg (Gparams t)
    fun_prop
  have hg0' : Measurable fun (x : Vec d) j => 0.5 * deltas 0 * Gamma0_grad x j := by fun_prop
  have hRt : ∀ t, CondResampling (auxR (n := n) key resampling t) := fun t => hR _
  have hb : ∀ t, Measurable fun p : Vec d × Vec d => Gammat p.1 p.2 (Gparams t) := fun t => h (Gparams t)
  refine sliced_aux (S := alSys Gamma0 (fun t y x => Gammat y x (Gparams t)) (fun x j => 0.5 * deltas 0 * Gamma0_grad x j)
      (fun t y x j => 0.5 * deltas t.succ * Gammat_grad y x (Gparams t) j) (auxStd ells) (auxR key resampling))
    (alSys_OK h0 hb hg0' hgt (auxStd_pos hells) hRt) (alSys_meas h0 hb hg0' hgt hRt)
    (g0 := augG0 Gamma0 (fun x j => 0.5 * deltas 0 * Gamma0_grad x j) (auxStd ells))
    (g := augG (fun t y x => Gammat y x (Gparams t)) (fun t y x j => 0.5 * deltas t.succ *
      Gammat_grad y x (Gparams t) j) (auxStd ells)) (fun u => by fun_prop)
    (fun t => measurable_augG hb hgt _ t (by fun_prop) (by fun_prop) (by fun_prop))
    (fun u f _ => rfl) (fun u t y f _ => rfl) (measurable_pathLogDensity h0 hb) (auxStd_pos hells)
    (measurable_auxCenter (φ := fun t y x j => 0.5 * deltas t.succ * Gammat_grad y x (Gparams t) j) hg0' hgt)
    (fun u => ⟨0, fun x => ?_⟩) backward (kk := auxMoveKey key n backward)
    fun mv hm x b f hf => ?_
  · rw [zero_add, pathLogDensity_aug]
  · have := al_kernel_eq key x b Gparams deltas backward h0 h hg0 hg hells hR hm f hf
    simp only [auxVars_center] at this
    exact this

end mala

theorem als_sliced {Gamma0 : Vec d → ℝ} {Gamma0_grad : Vec d → Vec d} {Gammat : Vec d → Vec d → G → ℝ}
    {Gammat_grad0 Gammat_grad1 : Vec d → Vec d → G → Vec d} (key : Key) (Gparams : Fin (n + 2) → G)
    {ells : Fin (n + 3) → ℝ} (deltas : Fin (n + 3) → ℝ)
    (h0 : Measurable Gamma0) (h : ∀ g, Measurable fun p : Vec d × Vec d => Gammat p.1 p.2 g)
    (hg : Measurable Gamma0_grad) (hg0 : ∀ g, Measurable fun p : Vec d × Vec d => Gammat_grad0 p.1 p.2 g)
    (hg1 : ∀ g, Measurable fun p : Vec d × Vec d => Gammat_grad1 p.1 p.2 g)
    (hells : ∀ t, 0 < ells t) (hR : ∀ key, CondResampling (fun w i j => resampling key w i j true)) :
    Sliced volume (pathLogDensity Gamma0 (fun t y x => Gammat y x (Gparams t))) (fun mv x b =>
      (als_kernel key x b Gamma0 Gamma0_grad Gammat Gammat_grad0 Gammat_grad1 Gparams ells deltas resampling mv
        false : Ex _) >>= fun r => pure (r.xs, r.Bs)) false := by
  have ha0 : Measurable (alsA0 Gamma0_grad deltas) := by unfold alsA0; fun_prop
  have ha : ∀ t, Measurable fun p : Vec d × Vec d => alsA Gammat_grad1 Gparams deltas t p.1 p.2 := fun t => by
    have := hg1 (Gparams t)
    unfold alsA
    fun_prop
  have hc : ∀ t, Measurable fun p : Vec d × Vec d => alsC Gammat_grad0 Gparams deltas t p.1 p.2 := fun t => by
    have := hg0 (Gparams t)
    unfold alsC
    fun_prop
  have hRt : ∀ t, CondResampling (auxR (n := n + 2) key resampling t) := fun t => hR _
  have hb : ∀ t, Measurable fun p : Vec d × Vec d => Gammat p.1 p.2 (Gparams t) := fun t => h (Gparams t)
  refine sliced_aux2 (S := alsSys Gamma0 (fun t y x => Gammat y x (Gparams t)) (alsA0 Gamma0_grad deltas)
      (alsA Gammat_grad1 Gparams deltas) (alsC Gammat_grad0 Gparams deltas) (auxStd ells) (auxR key resampling))
    (fun u => alsSys_OK h0 hb ha0 ha hc (auxStd_pos hells) hRt u) (alsSys_meas h0 hb ha0 ha hc hRt)
    (g0 := augG0 Gamma0 (alsA0 Gamma0_grad deltas) (auxStd ells))
    (g := s2G (fun t y x => Gammat y x (Gparams t)) (alsA0 Gamma0_grad deltas) (alsA Gammat_grad1 Gparams deltas)
      (alsC Gammat_grad0 Gparams deltas) (auxStd ells)) (fun u => by fun_prop)
    (fun t => measurable_s2G hb ha0 ha hc _ t (by fun_prop) (by fun_prop) (by fun_prop))
    (fun u f _ => rfl) (fun u t y f _ => rfl) (measurable_pathLogDensity h0 hb) (auxStd_pos hells)
    (measurable_s2Center ha0 ha hc) (fun u x => ?_) false (kk := auxMoveKey key (n + 2) false) fun mv hm x b f hf => ?_
  · rw [pathLogDensity2_s2]
  · have e := als_kernel_eq_F (Gamma0 := Gamma0) (Gamma0_grad := Gamma0_grad) (Gammat := Gammat)
      (Gammat_grad0 := Gammat_grad0) (Gammat_grad1 := Gammat_grad1) key x b Gparams ells deltas resampling mv false
    refine (congrFun e f).trans ?_
    exact als_kernel_eq key x b Gparams deltas false h0 h hg hg0 hg1 hells hR hm id (fun _ => ⟨rfl, rfl, rfl⟩)
      (fun hh => by cases hh) f hf

section grad

variable {MP RP : Type}

theorem gaussPath_sliced {svd : Mat d d → SvdOut d} {M : GaussModel MP RP n d} {ells : Fin (n + 1) → ℝ}
    (h : ProposalOK svd M ells) {backward : Bool} {K : AncestorMove Ex N → (Fin (n + 1) → Vec d) →
      (Fin (n + 1) → Fin (N + 1)) → Ex (PathState (Vec d) N n)}
    (hK : Sliced volume (pathLogDensity (tpGamma_0 M.mu0 (invChol M.P0) M.r0) (tpGam M)) K backward) :
    Sliced volume (gaussPath M) K backward := by
  refine hK.shift (-(d / 2 * Real.log (2 * Real.pi) + Real.log M.P0.det / 2) -
    ∑ t, (d / 2 * Real.log (2 * Real.pi) + Real.log (M.Qs t).det / 2)) fun x => ?_
  have h0 : M.P0.PosDef := h.posDef 0
  have ht : ∀ t, (M.Qs t).PosDef := fun t => h.posDef t.succ
  simp only [gaussPath, pathLogDensity, tpGamma_0, tpGam, tpGamma_t, mvn_logpdf_invChol h0, mvn_logpdf_invChol (ht _),
    Finset.sum_add_distrib]
  ring

theorem tp_sliced {svd : Mat d d → SvdOut d} {M : GaussModel MP RP n d} {ells : Fin (n + 1) → ℝ}
    (h : ProposalOK svd M ells) (hM : GaussMeas M) (key : Key) (deltas : Fin (n + 1) → ℝ)
    (hR : ∀ key, CondResampling (fun w i j => resampling key w i j true)) (backward : Bool) :
    Sliced volume (gaussPath M) (fun mv x b =>
      (tp_csmc_kernel svd M key x b ells deltas resampling mv backward : Ex _) >>= fun r => pure (r.xs, r.Bs))
      backward := by
  have hS := tpS_OK h hM key deltas hR
  exact gaussPath_sliced h (hS.sliced hM.gamma0 (fun _ _ => rfl) ⟨hM.gamma, fun _ _ _ _ => rfl⟩ backward
    (kk := tpMoveKey key n backward) fun mv hm x b f hf => tp_kernel_eq h hM key x b deltas hR hm backward f hf)

theorem atp_sliced {svd : Mat d d → SvdOut d} {M : GaussModel MP RP n d} {ells : Fin (n + 1) → ℝ}
    (h : ProposalOK svd M ells) (hM : GaussMeas M)
    (hex : ∀ t, (make_proposal svd M ells t).chol_invᵀ * (make_proposal svd M ells t).chol_inv =
      ((make_proposal svd M ells t).chol * (make_proposal svd M ells t).cholᵀ)⁻¹)
    (key : Key) (deltas : Fin (n + 1) → ℝ)
    (hR : ∀ key, CondResampling (fun w i j => resampling key w i j true)) (backward : Bool) :
    Sliced volume (gaussPath M) (fun mv x b =>
      (atp_kernel svd M key x b ells deltas resampling mv backward : Ex _) >>= fun r => pure (r.xs, r.Bs))
      backward := by
  have hRt : ∀ t : Fin n, CondResampling (fun w i j => resampling
    (splitKey (splitKey (splitKey (splitKey key 3 0) 3 1) n t) 2 1) w i j true) := fun t => hR _
  have hOK : ∀ u, (atpS svd M key ells deltas resampling u).OK := fun u => by
    unfold atpS
    exact atpSys_OK hM.gamma0 hM.gamma (hM.phi0 deltas) (hM.phi deltas) (hM.dt _) h.det hRt u
  have hSM : SysMeas (atpS (N := N) svd M key ells deltas resampling) := by
    unfold atpS
    exact atpSys_meas hM.gamma0 hM.gamma (hM.phi0 deltas) (hM.phi deltas) (hM.dt _) hRt
  refine gaussPath_sliced h (sliced_aux hOK hSM
    (g0 := augG0 (tpGamma_0 M.mu0 (invChol M.P0) M.r0) (tpPhi0 M deltas) (auxStd ells))
    (g := augG (tpGam M) (tpPhi M deltas) (auxStd ells))
    (fun u => by have h1 := hM.gamma0; have h2 := hM.phi0 deltas; fun_prop)
    (fun t => measurable_augG hM.gamma (hM.phi deltas) _ t (by fun_prop) (by fun_prop) (by fun_prop))
    (fun u f _ => rfl) (fun u t y f _ => rfl) (measurable_pathLogDensity hM.gamma0 hM.gamma) (auxStd_pos h.pos)
    (measurable_auxCenter (hM.phi0 deltas) (hM.phi deltas)) (fun u => ⟨0, fun x => ?_⟩) backward
    (kk := atpMoveKey key n backward) fun mv hm x b f hf => ?_)
  · rw [zero_add, pathLogDensity_aug]
  · have := atp_kernel_eq h hex key x b deltas (resampling := resampling) (mv := mv) backward f
    simp only [auxVars_center] at this
    exact this

theorem t_sliced {M : LinModel RP n d} {r : RevDyn n d} {ells : Fin (n + 1) → ℝ} (hM : LinMeas M)
    (hT : r.PT.PosDef) (hQ : ∀ t, (r.Qs t).PosDef) (hells : ∀ t, 0 < ells t)
    (key : Key) (deltas : Fin (n + 1) → ℝ)
    (hR : ∀ key, CondResampling (fun w i j => resampling key w i j true)) (backward : Bool) :
    Sliced volume (revPath r M) (fun mv x b =>
      (t_atp_kernel_rev r M key x b ells deltas resampling mv backward : Ex _) >>= fun r => pure (r.xs, r.Bs))
      backward := by
  have hlin : Measurable (revPath r M) := by
    refine Measurable.add (Measurable.add (measurable_normalLogpdf _ (by fun_prop) (by fun_prop))
      (Finset.measurable_sum _ fun t _ => measurable_normalLogpdf _ (by fun_prop) (by fun_prop))) ?_
    exact measurable_pathLogDensity hM.r0 hM.rt
  have hcen : Measurable (tCenter M deltas) := by
    have h0' := hM.r0_grad
    refine measurable_auxCenter (by unfold tlPhi0; fun_prop) fun t => ?_
    have := hM.rt_grad t
    unfold tlPhi
    fun_prop
  have hG := tG_meas deltas hM hT hQ hells
  have hRt : ∀ t : Fin n, CondResampling (fun w i j => resampling
    (splitKey (splitKey (splitKey (splitKey key 3 0) 3 1) n t) 2 1) w i j true) := fun t => hR _
  refine sliced_aux (gSys_OK hG (tL_det hT hQ hells) hRt) (gSys_meas (L := tL r ells) hG hRt)
    (gSys_inc0 hG) hG.inc (fun u f _ => rfl) (fun u t y f _ => rfl) hlin (auxStd_pos hells) hcen
    (tG_sum deltas hT hQ hells) backward (kk := atpMoveKey key n backward) fun mv hm x b f hf => ?_
  have := t_kernel_eq hT hQ hells key x b deltas (M := M) (resampling := resampling) (mv := mv) backward f
  simp only [auxVars_center] at this
  exact this

end grad

end Verif
