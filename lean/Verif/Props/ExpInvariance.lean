import Mathlib.Analysis.Calculus.FDeriv.Measurable
import Verif.Props.ExpTargets
import Verif.Props.Csmc
import Verif.Props.Gradient
import Verif.Props.AuxGradient
import Verif.Props.Grad
import Verif.Props.Twisted

/-!
# C58: the kernels of the experiments leave the posteriors invariant
-/

open MeasureTheory

namespace Verif.Props
open Verif Verif.Model Verif.Spec Matrix

variable {N n d : ℕ}

theorem measurable_jaxGrad (f : Vec d → ℝ) : Measurable (jaxGrad f) :=
  measurable_pi_lambda _ fun _ => measurable_fderiv_apply_const _ _ _

theorem measurable_gradOrStop (stop : Bool) (f : Vec d → ℝ) : Measurable (gradOrStop stop f) := by
  cases stop
  · exact measurable_jaxGrad f
  · exact measurable_const

theorem measurable_jaxGrad_param {f : Vec d → Vec d → ℝ} (hf : Continuous fun p : Vec d × Vec d => f p.1 p.2) :
    Measurable fun p : Vec d × Vec d => jaxGrad (f p.1) p.2 :=
  measurable_pi_lambda _ fun _ => measurable_fderiv_apply_const_with_param ℝ hf _

/-- A conditional resampling scheme. -/
def GoodResampling (resampling : Resampling Ex N) : Prop :=
  ∀ key, CondResampling (fun w i j => resampling key w i j true)

/-- A last move that leaves the weights invariant. -/
def GoodMove (mv : AncestorMove Ex N) : Prop :=
  ∀ key, MoveInvariant (fun w k => do
    let r ← mv key w k
    pure r.1)

/-- Resampling with `killing` or `multinomial`. -/
theorem goodResampling : GoodResampling (N := N) (fun key w i j c => killing key w i j c) ∧
    GoodResampling (N := N) (fun key w i j c => multinomial key w i j c) :=
  ⟨fun key => killing_condResampling key, fun key => multinomial_condResampling key⟩

/-- `barker_move` as last move. -/
theorem goodMove : GoodMove (N := N) (fun key w k => barker_move key w k) := fun key => barker_moveInvariant key

/-! ## Linear Gaussian experiment -/

section lgssm

variable {sigma : ℝ} (ys : Traj (n + 1) d)

theorem continuous_lgGamma_0 (hs : 0 < sigma) : Continuous (lgGamma_0 ys sigma) := by
  unfold lgGamma_0
  simp only [sumNorm_eq hs]
  exact (continuous_lg_log_potential _).add (continuous_normalLogpdf_comp _ continuous_const continuous_id)

theorem continuous_lgGamma_t (hs : 0 < sigma) (y : Vec d) :
    Continuous fun p : Vec d × Vec d => lgGamma_t sigma p.1 p.2 y := by
  unfold lgGamma_t
  simp only [sumNorm_eq hs]
  exact ((continuous_lg_log_potential _).comp continuous_snd).add
    (continuous_normalLogpdf_comp _ continuous_fst continuous_snd)

theorem lgTarget_gamma (hs : 0 < sigma) :
    pathLogDensity (lgGamma_0 ys sigma) (fun t y x => lgGamma_t sigma y x (tailA ys t)) = lgTarget sigma ys :=
  funext fun x => (C55_lgssm_gamma (m := Ex) (N := 0) hs ys x).1

/-- **C58** (`lgssm`, `CSMC`). -/
theorem C58_lgssm_csmc (hs : 0 < sigma) (key : Key) {resampling : Resampling Ex N} (hR : GoodResampling resampling)
    {mv : AncestorMove Ex N} (hmv : GoodMove mv) (backward : Bool) :
    LeavesInvariant volume (lgTarget sigma ys) (fun x b => do
      let r ← lg_csmc_kernel ys sigma resampling mv backward key x b
      pure (r.xs, r.Bs)) := by
  rw [← lgTarget_gamma ys hs]
  exact C15_C16_csmc_invariant volume key (lgFK ys sigma) (C19_lgssm_proper ys hs) (tailA ys) (tailA ys) resampling hR
    mv hmv backward

/-- **C58** (`lgssm`, `RW_CSMC`). -/
theorem C58_lgssm_rw (hs : 0 < sigma) {delta : Fin (n + 1) → ℝ} (hd : ∀ t, 0 < delta t) (key : Key)
    {resampling : Resampling Ex N} (hR : GoodResampling resampling) {mv : AncestorMove Ex N} (hmv : GoodMove mv)
    (backward : Bool) :
    LeavesInvariant volume (lgTarget sigma ys) (fun x b => do
      let r ← lg_rw_csmc (fun _ => true) ys sigma resampling mv backward key x b delta
      pure (r.xs, r.Bs)) := by
  rw [← lgTarget_gamma ys hs]
  exact C21_rw_invariant key (tailA ys) (continuous_lgGamma_0 ys hs).measurable
    (fun y => (continuous_lgGamma_t hs y).measurable) hd hR hmv backward

/-- **C58** (`lgssm`, `MALA_CSMC` with styles `filtering` and `marginal`). -/
theorem C58_lgssm_mala_csmc (hs : 0 < sigma) {delta : Fin (n + 1) → ℝ} (hd : ∀ t, 0 < delta t) (key : Key)
    {resampling : Resampling Ex N} (hR : GoodResampling resampling) {mv : AncestorMove Ex N} (hmv : GoodMove mv)
    (backward : Bool) :
    LeavesInvariant volume (lgTarget sigma ys) (fun x b => do
      let r ← lg_mala_csmc_filtering ys sigma resampling mv backward key x b delta
      pure (r.xs, r.Bs)) ∧
    LeavesInvariant volume (lgTarget sigma ys) (fun x b => do
      let r ← lg_mala_csmc_marginal ys sigma resampling mv backward key x b delta
      pure (r.xs, r.Bs)) := by
  rw [← lgTarget_gamma ys hs]
  have h0 := (continuous_lgGamma_0 ys hs).measurable
  have h := fun y => (continuous_lgGamma_t (d := d) hs y).measurable
  have hg : ∀ y : Vec d, Measurable fun p : Vec d × Vec d => jaxGrad (fun x => lgGamma_t sigma p.1 x y) p.2 := fun y =>
    measurable_jaxGrad_param (f := fun x' x => lgGamma_t sigma x' x y) (continuous_lgGamma_t hs y)
  exact ⟨C22_al_invariant key (tailA ys) delta h0 h (measurable_jaxGrad _) hg hd hR hmv backward,
    C23_l_invariant key (tailA ys) delta h0 h (measurable_jaxGrad _) hg hd hR hmv backward⟩

theorem lgGauss_meas (sigma : ℝ) (stop : Bool) : GaussMeas (lgGauss ys sigma stop) where
  r0 := (continuous_lg_log_potential _).measurable
  r0_grad := measurable_gradOrStop _ _
  mu _ := measurable_id
  rt _ := (continuous_lg_log_potential _).measurable.comp measurable_snd
  rt_grad _ := (measurable_gradOrStop _ _).comp measurable_snd

theorem lgLin_meas (sigma : ℝ) (stop : Bool) : LinMeas (lgLin ys sigma stop) where
  r0 := (continuous_lg_log_potential _).measurable
  r0_grad := measurable_gradOrStop _ _
  rt _ := (continuous_lg_log_potential _).measurable.comp measurable_snd
  rt_grad _ := (measurable_gradOrStop _ _).comp measurable_snd

theorem lgGauss_cov (sigma : ℝ) (stop : Bool) (t : Fin (n + 1)) :
    insert0 (lgGauss ys sigma stop).P0 (lgGauss ys sigma stop).Qs t = sigma ^ 2 • 1 := Fin.cases rfl (fun _ => rfl) t

/-- `svd` returns a singular value decomposition of `σ² I`, and the proposal variances are above the floor. -/
theorem lgGauss_ok (hs : 0 < sigma) (stop : Bool) {svd : Mat d d → SvdOut d}
    (hsvd : IsSvd (sigma ^ 2 • 1) (svd (sigma ^ 2 • 1)).U (svd (sigma ^ 2 • 1)).Gamma (svd (sigma ^ 2 • 1)).U_t)
    {delta : Fin (n + 1) → ℝ} (hd : ∀ t, 0 < delta t)
    (hfl : ∀ t, 1e-15 ≤ sigma ^ 2 * (delta t / 2) / (sigma ^ 2 + delta t / 2)) :
    ProposalOK svd (lgGauss ys sigma stop) delta where
  posDef t := by rw [lgGauss_cov]; exact posDef_smul_one (pow_pos hs 2)
  isSvd t := by rw [lgGauss_cov]; exact hsvd
  pos := hd
  floor t := by
    rw [lgGauss_cov]
    exact floor_inactive (posDef_smul_one (pow_pos hs 2)) (hd t) (pow_pos hs 2) (atLeast_smul_one _) (hfl t)

/-- **C58** (`lgssm`, `TP_CSMC` and, with `stop`, `ADAPTED_CSMC`, styles `marginal` and `filtering`). -/
theorem C58_lgssm_tp_csmc (hs : 0 < sigma) (stop : Bool) {svd : Mat d d → SvdOut d}
    (hsvd : IsSvd (sigma ^ 2 • 1) (svd (sigma ^ 2 • 1)).U (svd (sigma ^ 2 • 1)).Gamma (svd (sigma ^ 2 • 1)).U_t)
    {delta : Fin (n + 1) → ℝ} (hd : ∀ t, 0 < delta t)
    (hfl : ∀ t, 1e-15 ≤ sigma ^ 2 * (delta t / 2) / (sigma ^ 2 + delta t / 2)) (key : Key)
    {resampling : Resampling Ex N} (hR : GoodResampling resampling) {mv : AncestorMove Ex N} (hmv : GoodMove mv)
    (backward : Bool) :
    LeavesInvariant volume (lgTarget sigma ys) (fun x b => do
      let r ← lg_tp_csmc_marginal svd ys sigma stop resampling mv backward key x b delta
      pure (r.xs, r.Bs)) ∧
    LeavesInvariant volume (lgTarget sigma ys) (fun x b => do
      let r ← lg_tp_csmc_filtering svd ys sigma stop resampling mv backward key x b delta
      pure (r.xs, r.Bs)) := by
  rw [show lgTarget sigma ys = gaussPath (lgGauss ys sigma stop) from
    funext fun x => (C55_lgssm_tp_csmc sigma stop ys x).1.symm]
  have h := lgGauss_ok ys hs stop hsvd hd hfl
  refine ⟨C35_tp_invariant h (lgGauss_meas ys sigma stop) key delta hR hmv backward,
    C34_atp_invariant_partial h (lgGauss_meas ys sigma stop) (fun t => ?_) key delta hR hmv backward⟩
  rw [lgGauss_cov]
  exact isotropic_diagonal (pow_pos hs 2) hsvd

/-- **C58** (`lgssm`, `TP_CSMC` and `ADAPTED_CSMC`, style `twisted`). -/
theorem C58_lgssm_twisted (hs : 0 < sigma) (stop : Bool) {delta : Fin (n + 1) → ℝ} (hd : ∀ t, 0 < delta t) (key : Key)
    {resampling : Resampling Ex N} (hR : GoodResampling resampling) {mv : AncestorMove Ex N} (hmv : GoodMove mv)
    (backward : Bool) :
    LeavesInvariant volume (lgTarget sigma ys) (fun x b => do
      let r ← lg_tp_csmc_twisted ys sigma stop resampling mv backward key x b delta
      pure (r.xs, r.Bs)) := by
  rw [show lgTarget sigma ys = linPath (lgLin ys sigma stop) from
    funext fun x => (C55_lgssm_tp_csmc sigma stop ys x).2.symm]
  refine C57_invariant_partial (lgLin_meas ys sigma stop) ?_ hd key delta hR hmv backward
  have h := C36_scalar_partial (d := d) (n := n) (fun _ => 1) (posDef_smul_one (pow_pos hs 2))
    (fun _ => posDef_smul_one (pow_pos hs 2))
  simp only [one_smul] at h
  exact h

/-- The hypotheses of C58 hold for a concrete instance of the experiment (`σ = 0.1`, `T = 10`, `D = 3`, `N = 26`). -/
example (ys : Traj 10 3) : ∃ svd, ∀ key, LeavesInvariant volume (lgTarget 0.1 ys) (fun x b => do
      let r ← lg_tp_csmc_filtering (N := 25) svd ys 0.1 false (fun key w i j c => killing key w i j c)
        (fun key w k => barker_move key w k) true key x b (fun _ => 0.01)
      pure (r.xs, r.Bs)) := by
  obtain ⟨s, hs⟩ := exists_svd (d := 3) (posDef_smul_one (d := 3) (r := 0.1 ^ 2) (by norm_num))
  exact ⟨fun _ => s, fun key => (C58_lgssm_tp_csmc ys (by norm_num) false hs (fun _ => by norm_num)
    (fun _ => by norm_num) key goodResampling.1 goodMove true).2⟩

end lgssm

/-! ## Stochastic volatility experiment -/

section sv

variable (ys : Traj (n + 1) d) {D : SvDyn d}

theorem continuous_svGamma_0 (hP : D.P0.PosDef) : Continuous (svGamma_0 ys D) := by
  unfold svGamma_0
  simp only [mvn_logpdf_invChol hP]
  exact (continuous_sv_log_potential _).add
    (continuous_const.add (continuous_normalLogpdf_comp _ continuous_const continuous_id))

theorem continuous_svGamma_t (hQ : D.Q.PosDef) (y : Vec d) :
    Continuous fun p : Vec d × Vec d => svGamma_t D p.1 p.2 y := by
  unfold svGamma_t
  simp only [mvn_logpdf_invChol hQ]
  exact ((continuous_sv_log_potential _).comp continuous_snd).add
    (continuous_const.add (continuous_normalLogpdf_comp _ (by fun_prop) continuous_snd))

theorem svTarget_shift (hP : D.P0.PosDef) (hQ : D.Q.PosDef) {K : (Fin (n + 1) → Vec d) → (Fin (n + 1) → Fin (N + 1)) →
      Ex ((Fin (n + 1) → Vec d) × (Fin (n + 1) → Fin (N + 1)))}
    (h : LeavesInvariant volume (pathLogDensity (svGamma_0 ys D) (fun t y x => svGamma_t D y x (tailA ys t))) K) :
    LeavesInvariant volume (svTarget D.m0 D.P0 D.F D.Q D.b ys) K := by
  obtain ⟨c, hc⟩ := C55_sv_gamma (m := Ex) (N := N) hP hQ ys
  refine h.shift (-c) fun x => ?_
  rw [(hc x).1]
  ring

/-- **C58** (stochastic volatility, `CSMC`). -/
theorem C58_sv_csmc (hP : D.P0.PosDef) (hQ : D.Q.PosDef) (key : Key) {resampling : Resampling Ex N}
    (hR : GoodResampling resampling) {mv : AncestorMove Ex N} (hmv : GoodMove mv) (backward : Bool) :
    LeavesInvariant volume (svTarget D.m0 D.P0 D.F D.Q D.b ys) (fun x b => do
      let r ← sv_csmc_kernel ys D resampling mv backward true key x b
      pure (r.xs, r.Bs)) :=
  svTarget_shift ys hP hQ (C15_C16_csmc_invariant volume key (svFK ys D) (C19_sv_proper ys hP hQ) (tailA ys) (tailA ys)
    resampling hR mv hmv backward)

/-- **C58** (stochastic volatility, `RW_CSMC`). -/
theorem C58_sv_rw (hP : D.P0.PosDef) (hQ : D.Q.PosDef) {delta : Fin (n + 1) → ℝ} (hd : ∀ t, 0 < delta t) (key : Key)
    {resampling : Resampling Ex N} (hR : GoodResampling resampling) {mv : AncestorMove Ex N} (hmv : GoodMove mv)
    (backward : Bool) :
    LeavesInvariant volume (svTarget D.m0 D.P0 D.F D.Q D.b ys) (fun x b => do
      let r ← sv_rw_csmc (fun _ => true) ys D resampling mv backward key x b delta
      pure (r.xs, r.Bs)) :=
  svTarget_shift ys hP hQ (C21_rw_invariant key (tailA ys) (continuous_svGamma_0 ys hP).measurable
    (fun y => (continuous_svGamma_t hQ y).measurable) hd hR hmv backward)

/-- **C58** (stochastic volatility, `MALA_CSMC` with styles `filtering` and `marginal`). -/
theorem C58_sv_mala_csmc (hP : D.P0.PosDef) (hQ : D.Q.PosDef) {delta : Fin (n + 1) → ℝ} (hd : ∀ t, 0 < delta t) (key : Key)
    {resampling : Resampling Ex N} (hR : GoodResampling resampling) {mv : AncestorMove Ex N} (hmv : GoodMove mv)
    (backward : Bool) :
    LeavesInvariant volume (svTarget D.m0 D.P0 D.F D.Q D.b ys) (fun x b => do
      let r ← sv_mala_csmc_filtering ys D resampling mv backward key x b delta
      pure (r.xs, r.Bs)) ∧
    LeavesInvariant volume (svTarget D.m0 D.P0 D.F D.Q D.b ys) (fun x b => do
      let r ← sv_mala_csmc_marginal ys D resampling mv backward key x b delta
      pure (r.xs, r.Bs)) := by
  have h0 := (continuous_svGamma_0 ys hP).measurable
  have h := fun y => (continuous_svGamma_t (d := d) hQ y).measurable
  have hg : ∀ y : Vec d, Measurable fun p : Vec d × Vec d => jaxGrad (fun x => svGamma_t D p.1 x y) p.2 := fun y =>
    measurable_jaxGrad_param (f := fun x' x => svGamma_t D x' x y) (continuous_svGamma_t hQ y)
  exact ⟨svTarget_shift ys hP hQ (C22_al_invariant key (tailA ys) delta h0 h (measurable_jaxGrad _) hg hd hR hmv backward),
    svTarget_shift ys hP hQ (C23_l_invariant key (tailA ys) delta h0 h (measurable_jaxGrad _) hg hd hR hmv backward)⟩

theorem svGauss_meas (D : SvDyn d) (stop : Bool) : GaussMeas (svGauss ys D stop) where
  r0 := (continuous_sv_log_potential _).measurable
  r0_grad := measurable_gradOrStop _ _
  mu _ := by simp only [svGauss]; fun_prop
  rt _ := (continuous_sv_log_potential _).measurable.comp measurable_snd
  rt_grad _ := (measurable_gradOrStop _ _).comp measurable_snd

theorem svLin_meas (D : SvDyn d) (stop : Bool) : LinMeas (svLin ys D stop) where
  r0 := (continuous_sv_log_potential _).measurable
  r0_grad := measurable_gradOrStop _ _
  rt _ := (continuous_sv_log_potential _).measurable.comp measurable_snd
  rt_grad _ := (measurable_gradOrStop _ _).comp measurable_snd

/-- **C58** (stochastic volatility, `TP_CSMC` and `ADAPTED_CSMC`, style `marginal`). -/
theorem C58_sv_tp_csmc (stop : Bool) {svd : Mat d d → SvdOut d} {delta : Fin (n + 1) → ℝ}
    (h : ProposalOK svd (svGauss ys D stop) delta) (key : Key)
    {resampling : Resampling Ex N} (hR : GoodResampling resampling) {mv : AncestorMove Ex N} (hmv : GoodMove mv)
    (backward : Bool) :
    LeavesInvariant volume (svTarget D.m0 D.P0 D.F D.Q D.b ys) (fun x b => do
      let r ← sv_tp_csmc_marginal svd ys D stop resampling mv backward key x b delta
      pure (r.xs, r.Bs)) := by
  rw [show svTarget D.m0 D.P0 D.F D.Q D.b ys = gaussPath (svGauss ys D stop) from
    funext fun x => (C55_sv_tp_csmc D stop ys x).1.symm]
  exact C35_tp_invariant h (svGauss_meas ys D stop) key delta hR hmv backward

/-- The reversed dynamics are right for the parameters of the experiment with `NU = 0`. -/
theorem sv_reversal {phi tau rho : ℝ} (hphi : phi ^ 2 < 1) (ht : 0 < tau) (h0 : 0 ≤ rho) (h1 : rho < 1) (stop : Bool) :
    let M := svLin ys (get_dynamics 0 phi tau rho d) stop
    IsReversal M.mu0 M.P0 M.Fs M.Qs M.bs (get_reversed_dynamics M.mu0 M.P0 M.Fs M.Qs M.bs) := by
  intro M
  let D := get_dynamics 0 phi tau rho d
  have hz : (fun _ : Fin d => (0 : ℝ) * 1) = 0 := funext fun _ => zero_mul _
  have hm : D.m0 = 0 := hz
  have hb : D.b = 0 := by
    show (fun _ => (0 : ℝ) * 1) + (phi • (1 : Mat d d)) *ᵥ (fun _ => (0 : ℝ) * 1) = 0
    rw [hz, mulVec_zero, add_zero]
  have h := C36_scalar_partial (d := d) (n := n) (fun _ => phi) (sv_P0_posDef 0 hphi ht h0 h1 d)
    (fun _ => sv_Q_posDef 0 phi ht h0 h1 d)
  have hM : M = svLin ys D stop := rfl
  simp only [hM, svLin, hm, hb]
  exact h

/-- **C58** (stochastic volatility, `TP_CSMC` and `ADAPTED_CSMC`, style `twisted`), at the value `NU = 0` of the
experiment. -/
theorem C58_sv_twisted {phi tau rho : ℝ} (hphi : phi ^ 2 < 1) (ht : 0 < tau) (h0 : 0 ≤ rho) (h1 : rho < 1) (stop : Bool)
    {delta : Fin (n + 1) → ℝ} (hd : ∀ t, 0 < delta t) (key : Key)
    {resampling : Resampling Ex N} (hR : GoodResampling resampling) {mv : AncestorMove Ex N} (hmv : GoodMove mv)
    (backward : Bool) :
    let D := get_dynamics 0 phi tau rho d
    LeavesInvariant volume (svTarget D.m0 D.P0 D.F D.Q D.b ys) (fun x b => do
      let r ← sv_tp_csmc_twisted ys D stop resampling mv backward key x b delta
      pure (r.xs, r.Bs)) := by
  intro D
  rw [show svTarget D.m0 D.P0 D.F D.Q D.b ys = linPath (svLin ys D stop) from
    funext fun x => (C55_sv_tp_csmc D stop ys x).2.symm]
  exact C57_invariant_partial (svLin_meas ys D stop) (sv_reversal ys hphi ht h0 h1 stop) hd key delta hR hmv backward

/-- The hypotheses of C58 hold for the parameters of the experiment. -/
example (ys : Traj 128 30) (key : Key) := C58_sv_mala_csmc (N := 31) (D := get_dynamics 0 0.9 0.1 0.25 30) ys
  (sv_P0_posDef 0 (by norm_num) (by norm_num) (by norm_num) (by norm_num) 30)
  (sv_Q_posDef 0 _ (by norm_num) (by norm_num) (by norm_num) 30) (delta := fun _ => 0.01) (fun _ => by norm_num) key
  goodResampling.2 goodMove true

example (ys : Traj 128 30) (key : Key) := C58_sv_twisted (N := 31) (phi := 0.9) (tau := 0.1) (rho := 0.25) ys
  (by norm_num) (by norm_num) (by norm_num) (by norm_num) false (delta := fun _ => 0.01) (fun _ => by norm_num) key
  goodResampling.1 goodMove true

end sv

end Verif.Props
