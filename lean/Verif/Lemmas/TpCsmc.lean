import Verif.Lemmas.TpSys
import Verif.Spec.GaussModel
import Verif.Lemmas.Svd
import Verif.Lemmas.AlCsmc
import Verif.Lemmas.Chol

/-!
# `tp_csmc.kernel` is the kernel of the marginalised particle system
-/

open scoped ENNReal
open MeasureTheory ProbabilityTheory

namespace Verif
open Verif.Spec Verif.Model Matrix

variable {N n d : ℕ} {MP RP : Type}

/-- Multiplying the target by a constant does not matter. -/
theorem Spec.LeavesInvariant.shift {X : Type} [MeasurableSpace X] {lam : Measure X}
    {logpi logpi' : (Fin (n + 1) → X) → ℝ} {K : (Fin (n + 1) → X) → (Fin (n + 1) → Fin (N + 1)) →
      Ex ((Fin (n + 1) → X) × (Fin (n + 1) → Fin (N + 1)))} (h : LeavesInvariant lam logpi K) (c : ℝ)
    (hc : ∀ x, logpi' x = c + logpi x) : LeavesInvariant lam logpi' K := by
  intro f hf
  have e : ∀ F : (Fin (n + 1) → X) → ℝ≥0∞, ∫⁻ x, ENNReal.ofReal (Real.exp (logpi' x)) * F x ∂(Measure.pi fun _ => lam) =
      ENNReal.ofReal (Real.exp c) * ∫⁻ x, ENNReal.ofReal (Real.exp (logpi x)) * F x ∂(Measure.pi fun _ => lam) := by
    intro F
    rw [← lintegral_const_mul' _ _ ENNReal.ofReal_ne_top]
    refine lintegral_congr fun x => ?_
    rw [hc, ofReal_exp_add, mul_assoc]
  simp only [e, ← Finset.mul_sum]
  rw [h f hf]

/-- `mvn_logpdf` given the inverse of a Cholesky factor, without its constant. -/
theorem mvn_logpdf_invChol {Q : Mat d d} (hQ : Q.PosDef) (x m : Vec d) :
    mvn_logpdf x m 0 (some (invChol Q)) false = (d / 2 * Real.log (2 * Real.pi) + Real.log Q.det / 2) + normalLogpdf m Q x := by
  have hd : (cholesky Q).det ≠ 0 := (cholesky_det_pos hQ).ne'
  have h1 := (normalLogpdf_factor hd m x).symm
  rw [(cholesky_spec hQ).2] at h1
  have h2 : Real.log Q.det = 2 * Real.log |(cholesky Q).det| := by
    nth_rewrite 1 [← (cholesky_spec hQ).2]
    rw [det_mul, det_transpose, ← Real.log_abs (_ * _), abs_mul, Real.log_mul (abs_pos.mpr hd).ne' (abs_pos.mpr hd).ne']
    ring
  rw [h1, h2, stdLogpdf]
  simp only [mvn_logpdf, logpdf_with_inv, invChol, Matrix.mul_one, dotProduct, Bool.false_eq_true, if_false]
  ring

/-- `K` of the code. -/
theorem isoGain_posDef {Q : Mat d d} {s : SvdOut d} {ell : ℝ} (hQ : Q.PosDef) (hs : IsSvd Q s.U s.Gamma s.U_t)
    (hell : 0 < ell) : (isoGain (ell / 2) Q).PosDef := by
  obtain ⟨-, h2, -⟩ := IsSvd.posDef hs hQ
  rw [svd_gain hQ hs hell]
  refine conjD_posDef hs.U_orth fun j => ?_
  have a := h2 j
  positivity

theorem svd_K_inv' {Q : Mat d d} {s : SvdOut d} {ell : ℝ} (hQ : Q.PosDef) (hs : IsSvd Q s.U s.Gamma s.U_t)
    (hell : 0 < ell) : (get_proposal_params ell s).K_inv = (isoGain (ell / 2) Q)⁻¹ :=
  (inv_eq_left_inv (svd_K_inv hQ hs hell)).symm

theorem svd_chol_det {Q : Mat d d} {s : SvdOut d} {ell : ℝ} (hQ : Q.PosDef) (hs : IsSvd Q s.U s.Gamma s.U_t)
    (hell : 0 < ell) (hfl : AtLeast 1e-15 (isoPost (ell / 2) Q)) : (get_proposal_params ell s).chol.det ≠ 0 := by
  intro h
  have h1 := congrArg det (svd_chol hQ hs hell hfl)
  rw [det_mul, h, zero_mul] at h1
  exact (svd_post_posDef hQ hs hell).det_pos.ne h1

section
variable {svd : Mat d d → SvdOut d} {M : GaussModel MP RP n d} {ells : Fin (n + 1) → ℝ}

theorem Spec.ProposalOK.K (h : ProposalOK svd M ells) (t : Fin (n + 1)) :
    (make_proposal svd M ells t).K_1 * (make_proposal svd M ells t).K_2 =
      isoGain (ells t / 2) (insert0 M.P0 M.Qs t) := svd_K (h.posDef t) (h.isSvd t) (h.pos t)

theorem Spec.ProposalOK.K_inv (h : ProposalOK svd M ells) (t : Fin (n + 1)) :
    (make_proposal svd M ells t).K_inv = (isoGain (ells t / 2) (insert0 M.P0 M.Qs t))⁻¹ :=
  svd_K_inv' (h.posDef t) (h.isSvd t) (h.pos t)

theorem Spec.ProposalOK.chol (h : ProposalOK svd M ells) (t : Fin (n + 1)) :
    (make_proposal svd M ells t).chol * (make_proposal svd M ells t).cholᵀ =
      (ells t / 2) • isoGain (ells t / 2) (insert0 M.P0 M.Qs t) :=
  (svd_chol (h.posDef t) (h.isSvd t) (h.pos t) (h.floor t)).trans (svd_post_gain (h.posDef t) (h.isSvd t) (h.pos t))

theorem Spec.ProposalOK.det (h : ProposalOK svd M ells) (t : Fin (n + 1)) : (make_proposal svd M ells t).chol.det ≠ 0 :=
  svd_chol_det (h.posDef t) (h.isSvd t) (h.pos t) (h.floor t)

theorem Spec.ProposalOK.log_H (h : ProposalOK svd M ells) (t : Fin (n + 1)) (xs ds : Fin (N + 1) → Vec d) (x dd phi : Vec d) :
    get_log_H_bis xs ds ((make_proposal svd M ells t).K_1 * (make_proposal svd M ells t).K_2)
      (make_proposal svd M ells t).K_inv (ells t) x dd phi =
    get_log_H xs ds ((make_proposal svd M ells t).K_1 * (make_proposal svd M ells t).K_2)
      ((make_proposal svd M ells t).chol * (make_proposal svd M ells t).cholᵀ)⁻¹ (auxStd ells t ^ 2 • 1) x dd phi := by
  have hsq : auxStd ells t ^ 2 = ells t / 2 := by linarith [auxStd_sq h.pos t]
  rw [h.K_inv, h.chol, h.K, hsq,
    get_log_H_bis_eq (isoGain_posDef (h.posDef t) (h.isSvd t) (h.pos t)) (h.pos t)]

/-- Shift of the auxiliary variables. -/
noncomputable def tpPhi0 (M : GaussModel MP RP n d) (deltas : Fin (n + 1) → ℝ) : Vec d → Vec d :=
  fun x j => 0.5 * deltas 0 * M.r0_grad x j

noncomputable def tpPhi (M : GaussModel MP RP n d) (deltas : Fin (n + 1) → ℝ) : Fin n → Vec d → Vec d → Vec d :=
  fun t y x j => 0.5 * deltas t.succ * M.rt_grad y x (M.rt_params t) j

/-- Gains `K`. -/
noncomputable def tpB (svd : Mat d d → SvdOut d) (M : GaussModel MP RP n d) (ells : Fin (n + 1) → ℝ)
    (t : Fin (n + 1)) : Mat d d := (make_proposal svd M ells t).K_1 * (make_proposal svd M ells t).K_2

/-- Offset of the means of the particles. -/
noncomputable def tpD (M : GaussModel MP RP n d) (B : Fin (n + 1) → Mat d d) (t : Fin n) (y : Vec d) : Vec d :=
  M.mu y (M.mu_params t) - B t.succ *ᵥ M.mu y (M.mu_params t)

/-- Log-density of the target increments, as the code computes them. -/
noncomputable def tpGam (M : GaussModel MP RP n d) (t : Fin n) (y x : Vec d) : ℝ :=
  tpGamma_t (RP := RP) M.mu M.rt y x ⟨invChol (M.Qs t), M.mu_params t, M.rt_params t⟩

/-- The abstract system of `tp_csmc`. -/
noncomputable def tpS (svd : Mat d d → SvdOut d) (M : GaussModel MP RP n d) (key : Key) (ells deltas : Fin (n + 1) → ℝ)
    (resampling : Resampling Ex N) : Sys (Vec d) N n :=
  tpSys (tpGamma_0 M.mu0 (invChol M.P0) M.r0) (tpGam M)
    (tpPhi0 M deltas) (tpPhi M deltas) (tpB svd M ells) (fun t => (make_proposal svd M ells t).chol) (auxStd ells)
    (M.mu0 - tpB svd M ells 0 *ᵥ M.mu0) (tpD M (tpB svd M ells))
    (fun t w i j => resampling (splitKey (splitKey (splitKey (splitKey key 2 0) 3 1) n t) 2 1) w i j true)

/-- Its auxiliary variables. -/
noncomputable def tpU (N : ℕ) (svd : Mat d d → SvdOut d) (M : GaussModel MP RP n d) (ells deltas : Fin (n + 1) → ℝ) :
    Noise (Vec d) (Vec d) N n :=
  tpNoise N (tpPhi0 M deltas) (tpPhi M deltas) (tpB svd M ells) (fun t => (make_proposal svd M ells t).chol) (auxStd ells)
    (M.mu0 - tpB svd M ells 0 *ᵥ M.mu0) (tpD M (tpB svd M ells))

/-- Key of the last move. -/
def tpMoveKey (key : Key) (n : ℕ) (backward : Bool) : Key :=
  if backward then lastA (splitKey (splitKey (splitKey key 2 0) 3 2) (n + 1)) else splitKey (splitKey key 2 0) 3 2

theorem measurable_logpdf_with_inv {β : Type} [MeasurableSpace β] (C : Mat d d) {x m : β → Vec d} (hx : Measurable x)
    (hm : Measurable m) : Measurable fun b => mvn_logpdf (x b) (m b) 0 (some C) false := by
  simp only [mvn_logpdf, logpdf_with_inv, Bool.false_eq_true, if_false]
  have h : ∀ j, Measurable fun b => (C *ᵥ (x b - m b)) j := fun j => by fun_prop
  have := Finset.measurable_fun_sum Finset.univ fun j _ => (h j).mul (h j)
  exact (this.const_mul _).sub_const _

theorem Spec.GaussMeas.gamma0 (hM : GaussMeas M) : Measurable (tpGamma_0 M.mu0 (invChol M.P0) M.r0) :=
  (measurable_logpdf_with_inv _ measurable_id measurable_const).add hM.r0

theorem Spec.GaussMeas.gamma (hM : GaussMeas M) (t : Fin n) : Measurable fun p : Vec d × Vec d => tpGam M t p.1 p.2 :=
  (measurable_logpdf_with_inv _ measurable_snd ((hM.mu t).comp measurable_fst)).add (hM.rt t)

theorem Spec.GaussMeas.phi0 (hM : GaussMeas M) (deltas : Fin (n + 1) → ℝ) : Measurable (tpPhi0 M deltas) := by
  have := hM.r0_grad
  unfold tpPhi0
  fun_prop

theorem Spec.GaussMeas.phi (hM : GaussMeas M) (deltas : Fin (n + 1) → ℝ) (t : Fin n) :
    Measurable fun p : Vec d × Vec d => tpPhi M deltas t p.1 p.2 := by
  have := hM.rt_grad t
  unfold tpPhi
  fun_prop

theorem Spec.GaussMeas.dt (hM : GaussMeas M) (B : Fin (n + 1) → Mat d d) (t : Fin n) : Measurable (tpD M B t) := by
  have := hM.mu t
  unfold tpD
  fun_prop

theorem tpS_OK (h : ProposalOK svd M ells) (hM : GaussMeas M) (key : Key) (deltas : Fin (n + 1) → ℝ)
    {resampling : Resampling Ex N} (hR : ∀ key, CondResampling (fun w i j => resampling key w i j true)) :
    (tpS svd M key ells deltas resampling).OK := by
  have h0 : ∀ t, det ((fun t => (make_proposal svd M ells t).chol) t) ≠ 0 := h.det
  unfold tpS
  exact tpSys_OK hM.gamma0 hM.gamma (hM.phi0 deltas) (hM.phi deltas) (hM.dt _) h0 (auxStd_pos h.pos) (fun t => hR _)

theorem tpS_hasNoise (hM : GaussMeas M) (key : Key) (deltas : Fin (n + 1) → ℝ) (resampling : Resampling Ex N) :
    (tpS svd M key ells deltas resampling).HasNoise (tpU N svd M ells deltas) (gaussM d) := by
  unfold tpS tpU
  exact tpSys_hasNoise (hM.phi0 deltas) (hM.phi deltas) (hM.dt _)

theorem tpS_invariant (h : ProposalOK svd M ells) (hM : GaussMeas M) (key : Key) (deltas : Fin (n + 1) → ℝ)
    {resampling : Resampling Ex N} (hR : ∀ key, CondResampling (fun w i j => resampling key w i j true))
    {move : (Fin (N + 1) → ℝ) → Fin (N + 1) → Ex (Fin (N + 1))} (hm : MoveInvariant move) (backward : Bool) :
    LeavesInvariant volume (pathLogDensity (tpGamma_0 M.mu0 (invChol M.P0) M.r0) (tpGam M))
      ((tpS svd M key ells deltas resampling).kernel (tpGam M) move backward) := by
  have h0 : ∀ t, det ((fun t => (make_proposal svd M ells t).chol) t) ≠ 0 := h.det
  unfold tpS
  exact tpSys_invariant hM.gamma0 hM.gamma (hM.phi0 deltas) (hM.phi deltas) (hM.dt _) h0 (auxStd_pos h.pos) (fun t => hR _)
    hm backward

/-- `tp_csmc.kernel` is the kernel of `tpS`. -/
theorem tp_kernel_eq (h : ProposalOK svd M ells) (hM : GaussMeas M) (key : Key) (x : Fin (n + 1) → Vec d)
    (b : Fin (n + 1) → Fin (N + 1)) (deltas : Fin (n + 1) → ℝ) {resampling : Resampling Ex N} {mv : AncestorMove Ex N}
    (hR : ∀ key, CondResampling (fun w i j => resampling key w i j true))
    (hm : ∀ key, MoveKer (moveIndex mv key)) (backward : Bool)
    (f : (Fin (n + 1) → Vec d) × (Fin (n + 1) → Fin (N + 1)) → ℝ≥0∞) (hf : Measurable f) :
    ((tp_csmc_kernel svd M key x b ells deltas resampling mv backward : Ex _) >>= fun r => pure (r.xs, r.Bs)) f =
    (tpS svd M key ells deltas resampling).kernel (tpGam M) (moveIndex mv (tpMoveKey key n backward)) backward x b f := by
  have hno := (tpS_hasNoise hM key deltas resampling).kernel_eq (tpS_OK h hM key deltas hR) hM.gamma
    (hm (tpMoveKey key n backward)) backward x b f hf
  refine Eq.trans ?_ hno.symm
  refine lintegral_congr fun e => ?_
  obtain ⟨u, hu⟩ : ∃ u, u = auxVars M.r0_grad M.rt_grad M.rt_params deltas (auxStd ells) x e := ⟨_, rfl⟩
  let prop := make_proposal svd M ells
  let Ks := tpB svd M ells
  let fk : FK Ex (Vec d) (TpMParams MP RP d) (TpGParams MP RP d) N :=
    { M0_rvs := fun key => tpM0_rvs key (N + 1) M.mu0 (u 0) (Ks 0) (prop 0).chol
      M0_logpdf := tpM0_logpdf M.mu0 M.r0_grad (Ks 0) (prop 0).K_inv (ells 0) (deltas 0)
      Gamma0 := tpGamma_0 M.mu0 (invChol M.P0) M.r0
      Mt_rvs := fun key x_prev params => tpMt_rvs M.mu key x_prev params
      Mt_logpdf := tpMt_logpdf M.mu M.rt_grad
      Gammat := tpGamma_t M.mu M.rt }
  let Mp : Fin n → TpMParams MP RP d := fun t =>
    ⟨tailA u t, tailA Ks t, (tailA prop t).chol, (tailA prop t).K_inv, tailA ells t, tailA deltas t,
      M.mu_params t, M.rt_params t⟩
  let Gp : Fin n → TpGParams MP RP d := fun t => ⟨invChol (M.Qs t), M.mu_params t, M.rt_params t⟩
  have hk := csmc_kernel_eq (splitKey key 2 0) fk Mp Gp resampling mv backward
    (tpS svd M key ells deltas resampling).G0 (tpS svd M key ells deltas resampling).G
    (tpS svd M key ells deltas resampling).Z0 (tpS svd M key ells deltas resampling).Z x b
  have hc := congrFun (Sys.kernel_congr (S := csmcSys (splitKey key 2 0) fk Mp Gp resampling
      (tpS svd M key ells deltas resampling).G0 (tpS svd M key ells deltas resampling).G
      (tpS svd M key ells deltas resampling).Z0 (tpS svd M key ells deltas resampling).Z)
    (S' := (tpS svd M key ells deltas resampling).at (tpU N svd M ells deltas) (x, e)) (b := b) (x := x) ?_ ?_ rfl ?_ ?_
    (tpGam M) (moveIndex mv (tpMoveKey key n backward)) backward) f
  · refine Eq.trans ?_ hc
    refine Eq.trans ?_ (congrFun hk f)
    subst hu
    rfl
  · refine fun Xs => ⟨0, fun i => ?_⟩
    rw [add_zero]
    show tpGamma_0 M.mu0 (invChol M.P0) M.r0 (Xs i) - -get_log_H_bis _ _ _ _ _ _ _ _ = _
    have := h.log_H 0 Xs (fun _ => M.mu0 - Ks 0 *ᵥ M.mu0) (Xs i) (M.mu0 - Ks 0 *ᵥ M.mu0)
      (fun j => 0.5 * deltas 0 * M.r0_grad (Xs i) j)
    refine (congrArg (fun z => tpGamma_0 M.mu0 (invChol M.P0) M.r0 (Xs i) - -z) this).trans ?_
    exact sub_neg_eq_add _ _
  · refine fun t Y Xs => ⟨0, fun i => ?_⟩
    rw [add_zero]
    show tpGamma_t M.mu M.rt (Y i) (Xs i) (Gp t) - -get_log_H_bis _ _ _ _ _ _ _ _ = _
    have := h.log_H t.succ Xs (fun i => M.mu (Y i) (M.mu_params t) - Ks t.succ *ᵥ M.mu (Y i) (M.mu_params t)) (Xs i)
      (M.mu (Y i) (M.mu_params t) - Ks t.succ *ᵥ M.mu (Y i) (M.mu_params t))
      (fun j => 0.5 * deltas t.succ * M.rt_grad (Y i) (Xs i) (M.rt_params t) j)
    refine (congrArg (fun z => tpGamma_t M.mu M.rt (Y i) (Xs i) (Gp t) - -z) this).trans ?_
    exact sub_neg_eq_add _ _
  · have e1 : M.mu0 + Ks 0 *ᵥ (u 0 - M.mu0) = (M.mu0 - Ks 0 *ᵥ M.mu0) + Ks 0 *ᵥ (x 0 + tpPhi0 M deltas (x 0) + auxStd ells 0 • e 0) := by
      have : u 0 = x 0 + tpPhi0 M deltas (x 0) + auxStd ells 0 • e 0 := by
        rw [hu, auxVars_center]
        rfl
      rw [this, mulVec_sub]
      abel
    show (tpM0_rvs (splitKey (splitKey key 2 0) 3 0) (N + 1) M.mu0 (u 0) (Ks 0) (prop 0).chol >>= fun Xs => (pure (atSet Xs (b 0) (x 0)) : Ex _)) =
      (gaussP N (prop 0).chol (fun _ => (M.mu0 - Ks 0 *ᵥ M.mu0) + Ks 0 *ᵥ (x 0 + tpPhi0 M deltas (x 0) + auxStd ells 0 • e 0)) >>= fun Xs => pure (atSet Xs (b 0) (x 0)))
    rw [← e1]
    rfl
  · intro t Y
    have e1 : ∀ y, M.mu y (M.mu_params t) + Ks t.succ *ᵥ (u t.succ - M.mu y (M.mu_params t)) =
        (M.mu y (M.mu_params t) - Ks t.succ *ᵥ M.mu y (M.mu_params t)) +
          Ks t.succ *ᵥ (x t.succ + tpPhi M deltas t (x t.castSucc) (x t.succ) + auxStd ells t.succ • e t.succ) := by
      intro y
      have : u t.succ = x t.succ + tpPhi M deltas t (x t.castSucc) (x t.succ) + auxStd ells t.succ • e t.succ := by
        rw [hu, auxVars_center]
        rfl
      rw [this, mulVec_sub]
      abel
    show (tpMt_rvs M.mu (splitKey (splitKey (splitKey (splitKey key 2 0) 3 1) n t) 2 0) Y (Mp t) >>= fun Xs => (pure (atSet Xs (b t.succ) (x t.succ)) : Ex _)) =
      (gaussP N (prop t.succ).chol (fun i => (M.mu (Y i) (M.mu_params t) - Ks t.succ *ᵥ M.mu (Y i) (M.mu_params t)) +
          Ks t.succ *ᵥ (x t.succ + tpPhi M deltas t (x t.castSucc) (x t.succ) + auxStd ells t.succ • e t.succ)) >>=
        fun Xs => pure (atSet Xs (b t.succ) (x t.succ)))
    simp only [← e1]
    rfl

end

end Verif
