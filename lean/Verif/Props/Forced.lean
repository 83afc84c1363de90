import Verif.Lemmas.NearKernels
import Verif.Props.ExpInvariance
import Verif.Props.Chains

/-!
# C61: invariance with the last move `force_move`, up to a total-variation error of `3e-12`

`force_move` caps its proposal probability and its acceptance ratio at `1 - 1e-12` (C08 shows that it is not invariant).
Its law is within `3e-12` of the Metropolised Gibbs sampler, which is invariant. So every kernel run with `force_move`
changes its target by at most `3e-12`, and `m` iterations change it by at most `m * 3e-12`.
-/

open MeasureTheory
open scoped ENNReal

namespace Verif.Props
open Verif Verif.Model Verif.Spec Matrix

variable {N n d : ℕ}

/-- The total-variation error of `force_move`. -/
noncomputable def forceErr : ℝ≥0∞ := ENNReal.ofReal 3e-12

/-- `force_move` as last move. -/
noncomputable def forced : AncestorMove Ex N := fun key w k => force_move key w k

/-- The Metropolised Gibbs sampler as last move. -/
noncomputable def exactMove : AncestorMove Ex N := fun _ w k => do
  let l ← liuMove w k
  pure (l, 0)

theorem moveIndex_exactMove (key : Key) : moveIndex (exactMove (N := N)) key = liuMove := rfl

theorem exactMove_good : GoodMove (N := N) exactMove := fun _ => liu_moveInvariant

/-- **C61** (the move): for normalised weights, the index returned by `force_move` has a law within `3e-12`, in total
variation, of a move that leaves the weights invariant. -/
theorem C61_move (key : Key) :
    MoveInvariant (liuMove (N := N)) ∧ ∀ w : Fin (N + 1) → ℝ, IsProb w → ∀ k,
      TVLe forceErr (do
        let r ← force_move key w k
        pure r.1) (liuMove w k) :=
  ⟨liu_moveInvariant, fun _ hw k => force_near_liu key hw k⟩

theorem forced_near : MovesNear (N := N) forceErr forced exactMove where
  ker key := force_moveKer key
  ker' _ := liu_moveInvariant.ker
  near key _ hw k := force_near_liu key hw k

/-! ## The kernels -/

section kernels
variable {resampling : Resampling Ex N} (hR : GoodResampling resampling) (key : Key) (backward : Bool)
include hR

/-- **C61** (`csmc.kernel`). -/
theorem C61_csmc {X P G : Type} [MeasurableSpace X] (lam : Measure X) [SigmaFinite lam] {M : FK Ex X P G N}
    (hM : ProperFK lam M) (Mparams : Fin n → P) (Gparams : Fin n → G) :
    LeavesNearInvariant forceErr lam (pathLogDensity M.Gamma0 (fun t y x => M.Gammat y x (Gparams t))) (fun x b => do
      let r ← csmc_kernel key x b M Mparams Gparams resampling forced backward true
      pure (r.xs, r.Bs)) :=
  LeavesInvariant.near (measurable_pathLogDensity hM.Gamma0_meas fun _ => hM.Gammat_meas _)
    (C15_C16_csmc_invariant lam key M hM Mparams Gparams resampling hR exactMove exactMove_good backward)
    (csmc_near key hM Mparams Gparams hR forced_near backward)

variable {G : Type} {Gamma0 : Vec d → ℝ} {Gamma0_grad : Vec d → Vec d} {Gammat : Vec d → Vec d → G → ℝ}
  {Gammat_grad : Vec d → Vec d → G → Vec d} (Gparams : Fin n → G) {ells : Fin (n + 1) → ℝ} (deltas : Fin (n + 1) → ℝ)
  (h0 : Measurable Gamma0) (h : ∀ g, Measurable fun p : Vec d × Vec d => Gammat p.1 p.2 g)
  (hg0 : Measurable Gamma0_grad) (hg : ∀ g, Measurable fun p : Vec d × Vec d => Gammat_grad p.1 p.2 g)
  (hells : ∀ t, 0 < ells t)
include h0 h hells

/-- **C61** (`rw_csmc.kernel`). -/
theorem C61_rw :
    LeavesNearInvariant forceErr volume (pathLogDensity Gamma0 (fun t y x => Gammat y x (Gparams t))) (fun x b => do
      let r ← rw_kernel (fun _ => true) key x b Gamma0 Gammat Gparams ells resampling forced backward
      pure (r.xs, r.Bs)) :=
  LeavesInvariant.near (measurable_pathLogDensity h0 fun _ => h _)
    (C21_rw_invariant key Gparams h0 h hells hR exactMove_good backward)
    (rw_near key Gparams h0 h hells hR forced_near backward)

include hg0 hg

/-- **C61** (`al_csmc_f.kernel`). -/
theorem C61_al :
    LeavesNearInvariant forceErr volume (pathLogDensity Gamma0 (fun t y x => Gammat y x (Gparams t))) (fun x b => do
      let r ← al_kernel key x b Gamma0 Gamma0_grad Gammat Gammat_grad Gparams ells deltas resampling forced backward
      pure (r.xs, r.Bs)) :=
  LeavesInvariant.near (measurable_pathLogDensity h0 fun _ => h _)
    (C22_al_invariant key Gparams deltas h0 h hg0 hg hells hR exactMove_good backward)
    (al_near key Gparams deltas h0 h hg0 hg hells hR forced_near backward)

/-- **C61** (`l_csmc_f.kernel`). -/
theorem C61_l :
    LeavesNearInvariant forceErr volume (pathLogDensity Gamma0 (fun t y x => Gammat y x (Gparams t))) (fun x b => do
      let r ← l_kernel key x b Gamma0 Gamma0_grad Gammat Gammat_grad Gparams ells deltas resampling forced backward
      pure (r.xs, r.Bs)) :=
  LeavesInvariant.near (measurable_pathLogDensity h0 fun _ => h _)
    (C23_l_invariant key Gparams deltas h0 h hg0 hg hells hR exactMove_good backward)
    (l_near key Gparams deltas h0 h hg0 hg hells hR forced_near backward)

end kernels

section grad
variable {MP RP : Type} {resampling : Resampling Ex N} (hR : GoodResampling resampling) (key : Key) (backward : Bool)

theorem measurable_gaussPath {M : GaussModel MP RP n d} (hM : GaussMeas M) : Measurable (gaussPath M) := by
  refine measurable_pathLogDensity ?_ fun t => ?_
  · exact (measurable_normalLogpdf _ measurable_const measurable_id).add hM.r0
  · exact (measurable_normalLogpdf _ ((hM.mu t).comp measurable_fst) measurable_snd).add (hM.rt t)

theorem measurable_linPath {M : LinModel RP n d} (hM : LinMeas M) : Measurable (linPath M) := by
  refine measurable_pathLogDensity ?_ fun t => ?_
  · exact (measurable_normalLogpdf _ measurable_const measurable_id).add hM.r0
  · exact (measurable_normalLogpdf _ (by fun_prop) measurable_snd).add (hM.rt t)

include hR

/-- **C61** (`tp_csmc.kernel`). -/
theorem C61_tp {svd : Mat d d → SvdOut d} {M : GaussModel MP RP n d} {ells : Fin (n + 1) → ℝ}
    (h : ProposalOK svd M ells) (hM : GaussMeas M) (deltas : Fin (n + 1) → ℝ) :
    LeavesNearInvariant forceErr volume (gaussPath M) (fun x b => do
      let r ← tp_csmc_kernel svd M key x b ells deltas resampling forced backward
      pure (r.xs, r.Bs)) :=
  LeavesInvariant.near (measurable_gaussPath hM) (C35_tp_invariant h hM key deltas hR exactMove_good backward)
    (tp_near h hM key deltas hR forced_near backward)

/-- **C61** (`atp_csmc_f.kernel`, for the covariances for which its density is right, C33). -/
theorem C61_atp {svd : Mat d d → SvdOut d} {M : GaussModel MP RP n d} {ells : Fin (n + 1) → ℝ}
    (h : ProposalOK svd M ells) (hM : GaussMeas M)
    (hd : ∀ t, insert0 M.P0 M.Qs t = diagonal (svd (insert0 M.P0 M.Qs t)).Gamma) (deltas : Fin (n + 1) → ℝ) :
    LeavesNearInvariant forceErr volume (gaussPath M) (fun x b => do
      let r ← atp_kernel svd M key x b ells deltas resampling forced backward
      pure (r.xs, r.Bs)) :=
  LeavesInvariant.near (measurable_gaussPath hM) (C34_atp_invariant_partial h hM hd key deltas hR exactMove_good backward)
    (atp_near h hM (fun t => by
      rw [svd_chol_eq h t]
      exact (atp_precision_iff (h.posDef t) (h.isSvd t) (h.pos t) (h.floor t)).mpr (hd t)) key deltas hR forced_near
      backward)

/-- **C61** (`t_atp_csmc_f.kernel`, for the models for which its reversed dynamics are right, C36). -/
theorem C61_t_atp {M : LinModel RP n d} {ells : Fin (n + 1) → ℝ} (hM : LinMeas M)
    (hr : IsReversal M.mu0 M.P0 M.Fs M.Qs M.bs (get_reversed_dynamics M.mu0 M.P0 M.Fs M.Qs M.bs))
    (hells : ∀ t, 0 < ells t) (deltas : Fin (n + 1) → ℝ) :
    LeavesNearInvariant forceErr volume (linPath M) (fun x b => do
      let r ← t_atp_kernel M key x b ells deltas resampling forced backward
      pure (r.xs, r.Bs)) :=
  LeavesInvariant.near (measurable_linPath hM) (C57_invariant_partial hM hr hells key deltas hR exactMove_good backward)
    (t_near hM hr.final_posDef hr.posDef hells key deltas hR forced_near backward)

end grad

/-! ## The experiments -/

section lgssm
variable {sigma : ℝ} (ys : Traj (n + 1) d) {resampling : Resampling Ex N} (hR : GoodResampling resampling) (key : Key)
  (backward : Bool) (hs : 0 < sigma)
include hs

theorem measurable_lgTarget : Measurable (lgTarget sigma ys) := by
  rw [← lgTarget_gamma ys hs]
  exact measurable_pathLogDensity (continuous_lgGamma_0 ys hs).measurable fun t => (continuous_lgGamma_t hs _).measurable

include hR

/-- **C61** (`lgssm`, `CSMC`). -/
theorem C61_lgssm_csmc : LeavesNearInvariant forceErr volume (lgTarget sigma ys) (fun x b => do
      let r ← lg_csmc_kernel ys sigma resampling forced backward key x b
      pure (r.xs, r.Bs)) :=
  LeavesInvariant.near (measurable_lgTarget ys hs) (C58_lgssm_csmc ys hs key hR exactMove_good backward)
    (csmc_near key (C19_lgssm_proper ys hs) (tailA ys) (tailA ys) hR forced_near backward)

variable {delta : Fin (n + 1) → ℝ} (hd : ∀ t, 0 < delta t)
include hd

/-- **C61** (`lgssm`, `RW_CSMC`). -/
theorem C61_lgssm_rw : LeavesNearInvariant forceErr volume (lgTarget sigma ys) (fun x b => do
      let r ← lg_rw_csmc (fun _ => true) ys sigma resampling forced backward key x b delta
      pure (r.xs, r.Bs)) :=
  LeavesInvariant.near (measurable_lgTarget ys hs) (C58_lgssm_rw ys hs hd key hR exactMove_good backward)
    (rw_near key (tailA ys) (continuous_lgGamma_0 ys hs).measurable (fun y => (continuous_lgGamma_t hs y).measurable) hd hR
      forced_near backward)

/-- **C61** (`lgssm`, `MALA_CSMC` with styles `filtering` and `marginal`). -/
theorem C61_lgssm_mala_csmc :
    LeavesNearInvariant forceErr volume (lgTarget sigma ys) (fun x b => do
      let r ← lg_mala_csmc_filtering ys sigma resampling forced backward key x b delta
      pure (r.xs, r.Bs)) ∧
    LeavesNearInvariant forceErr volume (lgTarget sigma ys) (fun x b => do
      let r ← lg_mala_csmc_marginal ys sigma resampling forced backward key x b delta
      pure (r.xs, r.Bs)) := by
  have h0 := (continuous_lgGamma_0 ys hs).measurable
  have h := fun y => (continuous_lgGamma_t (d := d) hs y).measurable
  have hg : ∀ y : Vec d, Measurable fun p : Vec d × Vec d => jaxGrad (fun x => lgGamma_t sigma p.1 x y) p.2 := fun y =>
    measurable_jaxGrad_param (f := fun x' x => lgGamma_t sigma x' x y) (continuous_lgGamma_t hs y)
  have hi := C58_lgssm_mala_csmc ys hs hd key hR exactMove_good backward
  exact ⟨LeavesInvariant.near (measurable_lgTarget ys hs) hi.1
      (al_near key (tailA ys) delta h0 h (measurable_jaxGrad _) hg hd hR forced_near backward),
    LeavesInvariant.near (measurable_lgTarget ys hs) hi.2
      (l_near key (tailA ys) delta h0 h (measurable_jaxGrad _) hg hd hR forced_near backward)⟩

/-- **C61** (`lgssm`, `TP_CSMC` and, with `stop`, `ADAPTED_CSMC`, styles `marginal` and `filtering`). -/
theorem C61_lgssm_tp_csmc (stop : Bool) {svd : Mat d d → SvdOut d}
    (hsvd : IsSvd (sigma ^ 2 • 1) (svd (sigma ^ 2 • 1)).U (svd (sigma ^ 2 • 1)).Gamma (svd (sigma ^ 2 • 1)).U_t)
    (hfl : ∀ t, 1e-15 ≤ sigma ^ 2 * (delta t / 2) / (sigma ^ 2 + delta t / 2)) :
    LeavesNearInvariant forceErr volume (lgTarget sigma ys) (fun x b => do
      let r ← lg_tp_csmc_marginal svd ys sigma stop resampling forced backward key x b delta
      pure (r.xs, r.Bs)) ∧
    LeavesNearInvariant forceErr volume (lgTarget sigma ys) (fun x b => do
      let r ← lg_tp_csmc_filtering svd ys sigma stop resampling forced backward key x b delta
      pure (r.xs, r.Bs)) := by
  rw [show lgTarget sigma ys = gaussPath (lgGauss ys sigma stop) from
    funext fun x => (C55_lgssm_tp_csmc sigma stop ys x).1.symm]
  have h := lgGauss_ok ys hs stop hsvd hd hfl
  refine ⟨C61_tp hR key backward h (lgGauss_meas ys sigma stop) delta,
    C61_atp hR key backward h (lgGauss_meas ys sigma stop) (fun t => ?_) delta⟩
  rw [lgGauss_cov]
  exact isotropic_diagonal (pow_pos hs 2) hsvd

/-- **C61** (`lgssm`, `TP_CSMC` and `ADAPTED_CSMC`, style `twisted`). -/
theorem C61_lgssm_twisted (stop : Bool) : LeavesNearInvariant forceErr volume (lgTarget sigma ys) (fun x b => do
      let r ← lg_tp_csmc_twisted ys sigma stop resampling forced backward key x b delta
      pure (r.xs, r.Bs)) := by
  rw [show lgTarget sigma ys = linPath (lgLin ys sigma stop) from
    funext fun x => (C55_lgssm_tp_csmc sigma stop ys x).2.symm]
  refine C61_t_atp hR key backward (lgLin_meas ys sigma stop) ?_ hd delta
  have h := C36_scalar_partial (d := d) (n := n) (fun _ => 1) (posDef_smul_one (pow_pos hs 2))
    (fun _ => posDef_smul_one (pow_pos hs 2))
  simp only [one_smul] at h
  exact h

end lgssm

section sv
variable (ys : Traj (n + 1) d) {D : SvDyn d} {resampling : Resampling Ex N} (hR : GoodResampling resampling) (key : Key)
  (backward : Bool)

theorem measurable_svTarget (hP : D.P0.PosDef) (hQ : D.Q.PosDef) : Measurable (svTarget D.m0 D.P0 D.F D.Q D.b ys) := by
  obtain ⟨c, hc⟩ := C55_sv_gamma (m := Ex) (N := 0) hP hQ ys
  have e : svTarget D.m0 D.P0 D.F D.Q D.b ys = fun x =>
      pathLogDensity (svGamma_0 ys D) (fun t y x => svGamma_t D y x (tailA ys t)) x - c := funext fun x => by
    rw [(hc x).1, add_sub_cancel_right]
  rw [e]
  exact (measurable_pathLogDensity (continuous_svGamma_0 ys hP).measurable
    fun t => (continuous_svGamma_t hQ _).measurable).sub_const c

include hR

/-- **C61** (stochastic volatility, `CSMC`). -/
theorem C61_sv_csmc (hP : D.P0.PosDef) (hQ : D.Q.PosDef) :
    LeavesNearInvariant forceErr volume (svTarget D.m0 D.P0 D.F D.Q D.b ys) (fun x b => do
      let r ← sv_csmc_kernel ys D resampling forced backward true key x b
      pure (r.xs, r.Bs)) :=
  LeavesInvariant.near (measurable_svTarget ys hP hQ) (C58_sv_csmc ys hP hQ key hR exactMove_good backward)
    (csmc_near key (C19_sv_proper ys hP hQ) (tailA ys) (tailA ys) hR forced_near backward)

/-- **C61** (stochastic volatility, `RW_CSMC`). -/
theorem C61_sv_rw (hP : D.P0.PosDef) (hQ : D.Q.PosDef) {delta : Fin (n + 1) → ℝ} (hd : ∀ t, 0 < delta t) :
    LeavesNearInvariant forceErr volume (svTarget D.m0 D.P0 D.F D.Q D.b ys) (fun x b => do
      let r ← sv_rw_csmc (fun _ => true) ys D resampling forced backward key x b delta
      pure (r.xs, r.Bs)) :=
  LeavesInvariant.near (measurable_svTarget ys hP hQ) (C58_sv_rw ys hP hQ hd key hR exactMove_good backward)
    (rw_near key (tailA ys) (continuous_svGamma_0 ys hP).measurable (fun y => (continuous_svGamma_t hQ y).measurable) hd hR
      forced_near backward)

/-- **C61** (stochastic volatility, `MALA_CSMC` with styles `filtering` and `marginal`). -/
theorem C61_sv_mala_csmc (hP : D.P0.PosDef) (hQ : D.Q.PosDef) {delta : Fin (n + 1) → ℝ} (hd : ∀ t, 0 < delta t) :
    LeavesNearInvariant forceErr volume (svTarget D.m0 D.P0 D.F D.Q D.b ys) (fun x b => do
      let r ← sv_mala_csmc_filtering ys D resampling forced backward key x b delta
      pure (r.xs, r.Bs)) ∧
    LeavesNearInvariant forceErr volume (svTarget D.m0 D.P0 D.F D.Q D.b ys) (fun x b => do
      let r ← sv_mala_csmc_marginal ys D resampling forced backward key x b delta
      pure (r.xs, r.Bs)) := by
  have h0 := (continuous_svGamma_0 ys hP).measurable
  have h := fun y => (continuous_svGamma_t (d := d) hQ y).measurable
  have hg : ∀ y : Vec d, Measurable fun p : Vec d × Vec d => jaxGrad (fun x => svGamma_t D p.1 x y) p.2 := fun y =>
    measurable_jaxGrad_param (f := fun x' x => svGamma_t D x' x y) (continuous_svGamma_t hQ y)
  have hi := C58_sv_mala_csmc ys hP hQ hd key hR exactMove_good backward
  exact ⟨LeavesInvariant.near (measurable_svTarget ys hP hQ) hi.1
      (al_near key (tailA ys) delta h0 h (measurable_jaxGrad _) hg hd hR forced_near backward),
    LeavesInvariant.near (measurable_svTarget ys hP hQ) hi.2
      (l_near key (tailA ys) delta h0 h (measurable_jaxGrad _) hg hd hR forced_near backward)⟩

/-- **C61** (stochastic volatility, `TP_CSMC` and `ADAPTED_CSMC`, style `marginal`). -/
theorem C61_sv_tp_csmc (stop : Bool) {svd : Mat d d → SvdOut d} {delta : Fin (n + 1) → ℝ}
    (h : ProposalOK svd (svGauss ys D stop) delta) :
    LeavesNearInvariant forceErr volume (svTarget D.m0 D.P0 D.F D.Q D.b ys) (fun x b => do
      let r ← sv_tp_csmc_marginal svd ys D stop resampling forced backward key x b delta
      pure (r.xs, r.Bs)) := by
  rw [show svTarget D.m0 D.P0 D.F D.Q D.b ys = gaussPath (svGauss ys D stop) from
    funext fun x => (C55_sv_tp_csmc D stop ys x).1.symm]
  exact C61_tp hR key backward h (svGauss_meas ys D stop) delta

/-- **C61** (stochastic volatility, `TP_CSMC` and `ADAPTED_CSMC`, style `twisted`), at the value `NU = 0` of the
experiment. -/
theorem C61_sv_twisted {phi tau rho : ℝ} (hphi : phi ^ 2 < 1) (ht : 0 < tau) (h0 : 0 ≤ rho) (h1 : rho < 1) (stop : Bool)
    {delta : Fin (n + 1) → ℝ} (hd : ∀ t, 0 < delta t) :
    let D := get_dynamics 0 phi tau rho d
    LeavesNearInvariant forceErr volume (svTarget D.m0 D.P0 D.F D.Q D.b ys) (fun x b => do
      let r ← sv_tp_csmc_twisted ys D stop resampling forced backward key x b delta
      pure (r.xs, r.Bs)) := by
  intro D
  rw [show svTarget D.m0 D.P0 D.F D.Q D.b ys = linPath (svLin ys D stop) from
    funext fun x => (C55_sv_tp_csmc D stop ys x).2.symm]
  exact C61_t_atp hR key backward (svLin_meas ys D stop) (sv_reversal ys hphi ht h0 h1 stop) hd delta

end sv

/-! ## Runs -/

/-- **C61** (runs): if each step changes the initial measure by at most `ε`, the `i`-th state of the chain has a law
within `i * ε` of it. -/
theorem C61_chain {S : Type} [MeasurableSpace S] (μ : Measure S) (step : Key → S → Ex S)
    (hk : ∀ key, IsKer (step key)) (hm : ∀ key s, step key s (fun _ => 1) = 1) {ε : ℝ≥0∞}
    (hinv : ∀ key, TVLe ε (fun f => ∫⁻ s, step key s f ∂μ) (fun f => ∫⁻ s, f s ∂μ)) {n : ℕ} (keys : Fin n → Key)
    (i : Fin (n + 1)) :
    TVLe (i * ε) (fun f => ∫⁻ s, chain step s keys (fun tr => f (tr i)) ∂μ) (fun f => ∫⁻ s, f s ∂μ) :=
  chain_near hk hm (fun f => ∫⁻ s, f s ∂μ) hinv keys i

/-- **C61** (`mcmc_utils.sampling_routine` with `csmc.kernel` and `force_move`): the `k`-th sample kept by a run started
from the target has a law within `(k * get_every + 1) * 3e-12` of it (relative to the total mass). -/
theorem C61_csmc_sampling {X P G : Type} [MeasurableSpace X] (lam : Measure X) [SigmaFinite lam] {M : FK Ex X P G N}
    (hM : ProperFK lam M) (Mparams : Fin n → P) (Gparams : Fin n → G) {resampling : Resampling Ex N}
    (hR : GoodResampling resampling) (backward : Bool) (key : Key) (n_samples g : ℕ) (k : Fin (strideLen n_samples g)) :
    let kernel := fun key (s : (Fin (n + 1) → X) × (Fin (n + 1) → Fin (N + 1))) => (do
      let r ← csmc_kernel key s.1 s.2 M Mparams Gparams resampling forced backward true
      pure (r.xs, r.Bs) : Ex _)
    let logpi := pathLogDensity M.Gamma0 (fun t y x => M.Gammat y x (Gparams t))
    TVLe (((k * g + 1 : ℕ) : ℝ≥0∞) * (forceErr * ∑ _b : Fin (n + 1) → Fin (N + 1),
        ∫⁻ x, ENNReal.ofReal (Real.exp (logpi x)) ∂(Measure.pi fun _ => lam)))
      (fun f => ∑ b, ∫⁻ x, ENNReal.ofReal (Real.exp (logpi x)) *
        sampling_routine key x b kernel n_samples g (fun r => f (r.1 k)) ∂(Measure.pi fun _ => lam))
      (fun f => ∑ _b : Fin (n + 1) → Fin (N + 1),
        ∫⁻ x, ENNReal.ofReal (Real.exp (logpi x)) * f x ∂(Measure.pi fun _ => lam)) := by
  intro kernel logpi
  choose c0 c hS using fun key => csmcDSys_OK (lam := lam) key Mparams Gparams hM hR
  have e : ∀ key x b, _ = _ := fun key x b => csmc_kernel_eq key M Mparams Gparams resampling forced backward
    (fun f => ∫⁻ x, ENNReal.ofReal (Real.exp (M.Gamma0 x)) * f x ∂lam)
    (fun t y f => ∫⁻ x, ENNReal.ofReal (Real.exp (M.Gammat y x (Gparams t))) * f x ∂lam)
    (tilt (c0 key) (M.M0_rvs (splitKey key 3 0)))
    (fun t Y => tilt (c key t) (M.Mt_rvs (splitKey (splitKey (splitKey key 3 1) n t) 2 0) Y (Mparams t))) x b
  have e' : ∀ key, kernel key = fun p => (csmcDSys lam key M Mparams Gparams resampling (c0 key) (c key)).kernel
      (fun t y x => M.Gammat y x (Gparams t)) (moveIndex forced
          (if backward then lastA (splitKey (splitKey key 3 2) (n + 1)) else splitKey key 3 2)) backward p.1 p.2 :=
    fun key => funext fun p => e key p.1 p.2
  have h := chain_near (step := kernel) (fun key => by
      rw [e']
      exact (hS key).kernel_ker (fun t => hM.Gammat_meas _) (force_moveKer _) backward)
    (fun key s => by
      rw [e']
      exact (hS key).kernel_mass _ (fun w hw k => force_mass _ hw k) backward s.1 s.2)
    (fun F => ∑ b, ∫⁻ x, ENNReal.ofReal (Real.exp (logpi x)) * F (x, b) ∂(Measure.pi fun _ => lam))
    (fun key => C61_csmc hR key backward lam hM Mparams Gparams) (splitKey key n_samples)
    ⟨k * g + 1, Nat.succ_lt_succ (strideLen_lt k)⟩
  have e2 : ∀ x b (f : (Fin (n + 1) → X) → ℝ≥0∞), (sampling_routine key x b kernel n_samples g : Ex _) (fun r => f (r.1 k)) =
      chain kernel (x, b) (splitKey key n_samples)
        (fun tr => f (tr ⟨k * g + 1, Nat.succ_lt_succ (strideLen_lt k)⟩).1) := fun x b f =>
    congrFun (C49_sampling (m := Ex) key x b kernel n_samples g) (fun r => f (r.1 k))
  intro f hf h1
  have h' := h (fun s => f s.1) (by fun_prop) fun s => h1 s.1
  simp only [e2]
  exact h'

/-! ## Instances -/

/-- The weights of a degenerate filter: `force_move` differs from the exact move, by at most `3e-12`. -/
example (key : Key) : TVLe forceErr (do
    let r ← force_move key (![1, 0] : Fin 2 → ℝ) 0
    pure r.1) (liuMove (![1, 0] : Fin 2 → ℝ) 0) :=
  (C61_move key).2 _ ⟨fun i => by fin_cases i <;> simp, by simp⟩ 0

/-- The stochastic volatility experiment at its own parameters. -/
example (ys : Traj 128 30) (key : Key) := C61_sv_mala_csmc (N := 31) (D := get_dynamics 0 0.9 0.1 0.25 30) ys
  goodResampling.1 key true
  (sv_P0_posDef 0 (by norm_num) (by norm_num) (by norm_num) (by norm_num) 30)
  (sv_Q_posDef 0 _ (by norm_num) (by norm_num) (by norm_num) 30) (delta := fun _ => 0.01) (fun _ => by norm_num)

/-- The linear Gaussian experiment. -/
example (ys : Traj 10 3) (key : Key) := C61_lgssm_twisted (N := 25) (sigma := 0.1) ys goodResampling.1 key true
  (by norm_num) (delta := fun _ => 0.01) (fun _ => by norm_num) false

/-- A run of 10000 iterations, every tenth sample kept. -/
example (y : Fin 7 → Fin 2 → ℝ) := C61_csmc_sampling (n := 7) volume (exampleFK_proper 2 25) (fun _ => ()) y
  goodResampling.2 true [] 10000 10 (⟨999, by decide⟩ : Fin (strideLen 10000 10))

end Verif.Props
