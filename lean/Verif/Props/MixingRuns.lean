import Verif.Lemmas.ConsistentRuns
import Verif.Lemmas.ManyKernel
import Verif.Props.Mixing
import Verif.Props.SvRuns
import Verif.Props.Unique

/-!
# C71 for the kernels of the experiments
-/

open scoped ENNReal
open MeasureTheory

namespace Verif.Props
open Verif Verif.Model Verif.Spec Matrix

variable {N n d : ℕ} {resampling : String} {R : Resampling Ex N} {mv : AncestorMove Ex N}

theorem sel_ok_barker (hR : sel_resampling resampling = .ok R) (hm : sel_last_step "barker" = .ok mv) : SelOK 0 R mv := by
  have := sel_ok hR hm
  rwa [if_pos rfl] at this

/-- The last moves that keep the weights exactly: the Barker move, and `force_move` without its guard. -/
def ExactSel (mv : AncestorMove Ex N) : Prop := sel_last_step "barker" = .ok mv ∨ mv = exactMove

theorem sel_ok_exact (hR : sel_resampling resampling = .ok R) (hm : ExactSel mv) : SelOK 0 R mv := by
  rcases hm with hm | rfl
  · exact sel_ok_barker hR hm
  · have h := sel_ok_barker (mv := fun key w k => barker_move key w k) hR rfl
    exact ⟨h.cond, h.rotR, h.keyR, fun _ => liuMove_ker, fun _ => liu_moveMass, fun _ => liu_rot, fun _ _ => rfl, .inl ⟨exactMove_good, rfl⟩⟩

theorem sel_reach_exact (hR : sel_resampling resampling = .ok R) (hm : ExactSel mv) (hN : N ≠ 0) (backward : Bool) : ReachOK R mv backward := by
  rcases hm with hm | rfl
  · exact sel_reach hR hm hN backward
  · exact ⟨hN, (sel_reach (last_step := "barker") (mv := fun key w k => barker_move key w k) hR rfl hN backward).off,
      1, one_ne_zero, fun _ => liu_movesAway⟩

section lgssm
variable {sigma : ℝ} (ys : Traj (n + 1) d) (hs : 0 < sigma) (hR : sel_resampling resampling = .ok R) (hm : sel_last_step "barker" = .ok mv)
  (hN : N ≠ 0) (backward : Bool)
include hs hR hm hN

/-- **C71** for the kernels of the linear Gaussian experiment that take no gradients. -/
theorem C71_lgssm {delta : Fin (n + 1) → ℝ} (hd : ∀ t, 0 < delta t) :
    Consistent (trajVol (n + 1) d) (lawOf (trajVol (n + 1) d) (lgTarget sigma ys))
      (fun key (s : (Fin (n + 1) → Vec d) × (Fin (n + 1) → Fin (N + 1))) => outOf (lg_csmc_kernel ys sigma R mv backward key s.1 s.2)) ∧
    Consistent (trajVol (n + 1) d) (lawOf (trajVol (n + 1) d) (lgTarget sigma ys))
      (fun key (s : (Fin (n + 1) → Vec d) × (Fin (n + 1) → Fin (N + 1))) =>
        outOf (lg_rw_csmc (fun _ => true) ys sigma R mv backward key s.1 s.2 delta)) ∧
    Consistent (trajVol (n + 1) d) (lawOf (trajVol (n + 1) d) (lgTarget sigma ys))
      (fun key (s : (Fin (n + 1) → Vec d) × (Fin (n + 1) → Fin (N + 1))) =>
        outOf (lg_mala_csmc_filtering ys sigma R mv backward key s.1 s.2 delta)) ∧
    Consistent (trajVol (n + 1) d) (lawOf (trajVol (n + 1) d) (lgTarget sigma ys))
      (fun key (s : (Fin (n + 1) → Vec d) × (Fin (n + 1) → Fin (N + 1))) =>
        outOf (lg_mala_csmc_marginal ys sigma R mv backward key s.1 s.2 delta)) ∧
    ∀ stop, Consistent (trajVol (n + 1) d) (lawOf (trajVol (n + 1) d) (lgTarget sigma ys))
      (fun key (s : (Fin (n + 1) → Vec d) × (Fin (n + 1) → Fin (N + 1))) =>
        outOf (lg_tp_csmc_twisted ys sigma stop R mv backward key s.1 s.2 delta)) := by
  have hS := sel_ok_barker hR hm
  have hO := sel_reach hR hm hN backward
  have hZ := lgTarget_mass hs ys
  have h0 := (continuous_lgGamma_0 ys hs).measurable
  have ht := fun y => (continuous_lgGamma_t (d := d) hs y).measurable
  have hl : Measurable (lgTarget sigma ys) := by
    rw [← lgTarget_gamma ys hs]
    exact measurable_pathLogDensity h0 fun _ => ht _
  refine ⟨(lg_csmc_ok ys hS hs backward).consistent hl hZ fun x b f hf => ?_, (lg_rw_ok ys hS hs backward hd).consistent hl hZ fun x b f hf => ?_,
    (lg_al_ok ys hS hs backward hd).consistent hl hZ fun x b f hf => ?_, (lg_l_ok ys hS hs backward hd).consistent hl hZ fun x b f hf => ?_,
    fun stop => (lg_twisted_ok ys hS hs backward hd stop).consistent hl hZ fun x b f hf => ?_⟩
  · exact csmc_reach volume [] (C19_lgssm_proper ys hs) (tailA ys) (tailA ys) hS.cond hS.ker backward hO x b hf
  · exact rw_reach [] (tailA ys) h0 ht hd hS.cond hS.ker backward hO x b hf
  · exact al_reach [] (tailA ys) delta h0 ht (measurable_jaxGrad _) (measurable_lgGrad hs) hd hS.cond hS.ker backward hO x b hf
  · exact l_reach [] (tailA ys) delta h0 ht (measurable_jaxGrad _) (measurable_lgGrad hs) hd hS.cond hS.ker backward hO x b hf
  · have hr := C36_scalar_partial (d := d) (n := n) (fun _ => 1) (posDef_smul_one (pow_pos hs 2))
      (fun _ => posDef_smul_one (pow_pos hs 2))
    simp only [one_smul] at hr
    exact t_reach (lgLin_meas ys sigma stop) hr.final_posDef hr.posDef hd [] delta hS.cond hS.ker backward hO x b hf

/-- **C71** for the styles `marginal` and `filtering` of `get_tp_csmc_kernel`, which need a right factorisation. -/
theorem C71_lgssm_tp (stop : Bool) {delta : Fin (n + 1) → ℝ} (hd : ∀ t, 0 < delta t) {svd : Mat d d → SvdOut d}
    (hsvd : IsSvd (sigma ^ 2 • 1) (svd (sigma ^ 2 • 1)).U (svd (sigma ^ 2 • 1)).Gamma (svd (sigma ^ 2 • 1)).U_t)
    (hfl : ∀ t, 1e-15 ≤ sigma ^ 2 * (delta t / 2) / (sigma ^ 2 + delta t / 2)) :
    Consistent (trajVol (n + 1) d) (lawOf (trajVol (n + 1) d) (lgTarget sigma ys))
      (fun key (s : (Fin (n + 1) → Vec d) × (Fin (n + 1) → Fin (N + 1))) =>
        outOf (lg_tp_csmc_marginal svd ys sigma stop R mv backward key s.1 s.2 delta)) ∧
    Consistent (trajVol (n + 1) d) (lawOf (trajVol (n + 1) d) (lgTarget sigma ys))
      (fun key (s : (Fin (n + 1) → Vec d) × (Fin (n + 1) → Fin (N + 1))) =>
        outOf (lg_tp_csmc_filtering svd ys sigma stop R mv backward key s.1 s.2 delta)) := by
  have hS := sel_ok_barker hR hm
  have hO := sel_reach hR hm hN backward
  have hZ := lgTarget_mass hs ys
  have hl : Measurable (lgTarget sigma ys) := by
    rw [← lgTarget_gamma ys hs]
    exact measurable_pathLogDensity (continuous_lgGamma_0 ys hs).measurable fun _ => (continuous_lgGamma_t hs _).measurable
  have h := lgGauss_ok ys hs stop hsvd hd hfl
  have hex : ∀ t, (make_proposal svd (lgGauss ys sigma stop) delta t).chol_invᵀ *
      (make_proposal svd (lgGauss ys sigma stop) delta t).chol_inv =
      ((make_proposal svd (lgGauss ys sigma stop) delta t).chol * (make_proposal svd (lgGauss ys sigma stop) delta t).cholᵀ)⁻¹ :=
    fun t => by
      rw [svd_chol_eq h t]
      refine (atp_precision_iff (h.posDef t) (h.isSvd t) (h.pos t) (h.floor t)).mpr ?_
      rw [lgGauss_cov]
      exact isotropic_diagonal (pow_pos hs 2) hsvd
  refine ⟨(lg_tp_ok ys hS hs backward hd stop hsvd hfl).consistent hl hZ fun x b f hf => ?_,
    (lg_atp_ok ys hS hs backward hd stop hsvd hfl).consistent hl hZ fun x b f hf => ?_⟩
  · exact tp_reach h (lgGauss_meas ys sigma stop) [] delta hS.cond hS.ker backward hO x b hf
  · exact atp_reach h (lgGauss_meas ys sigma stop) hex [] delta hS.cond hS.ker backward hO x b hf

end lgssm

theorem sv_twisted_reach (ys : Traj (n + 1) d) {phi tau rho : ℝ} (hphi : phi ^ 2 < 1) (ht : 0 < tau) (h0 : 0 ≤ rho) (h1 : rho < 1)
    (stop : Bool) {delta : Fin (n + 1) → ℝ} (hd : ∀ t, 0 < delta t) {backward : Bool} (hS : SelOK 0 R mv) (hO : ReachOK R mv backward)
    (x : Fin (n + 1) → Vec d) (b : Fin (n + 1) → Fin (N + 1)) {f : (Fin (n + 1) → Vec d) → ℝ≥0∞} (hf : Measurable f) :
    ∫⁻ x, f x ∂(Measure.pi fun _ => volume) ≤
      ∞ * outOf (sv_tp_csmc_twisted ys (get_dynamics 0 phi tau rho d) stop R mv backward [] x b delta) (fun r => f r.1) := by
  have hr := sv_reversal (d := d) ys hphi ht h0 h1 stop
  exact t_reach (svLin_meas ys _ stop) hr.final_posDef hr.posDef hd [] delta hS.cond hS.ker backward hO x b hf

section sv
variable {svd : Mat d d → SvdOut d} {tau : ℤ} {k : SvType} {style : String} {target_stat : TargetStat} {backward : Bool}
  {make : Traj (n + 1) d → SvKernel Ex (n + 1) d}

/-- The conditional SMC kernels of the experiment, with a last move that keeps the weights. -/
theorem sv_consistent (ht : 0 < tau) (hR : sel_resampling resampling = .ok R) (hm : ExactSel mv) (hN : N ≠ 0)
    (hk : k.kernel_maker svd (svDynArgs tau d) style target_stat R mv backward = .ok make) (hstyle : style ≠ "smoothing")
    (hcsmc : k ≠ .TP ∧ k ≠ .MALA)
    (ys : Traj (n + 1) d) {delta : StepSize (n + 1)} (hd : PosSteps delta)
    (htp : k = .TP_CSMC ∨ k = .ADAPTED_CSMC → style ≠ "filtering" ∧ (style = "marginal" → ∀ stop,
      ProposalOK svd (svGauss ys (svDynArgs tau d) stop) delta.at)) :
    RunsConsistent (trajVol (n + 1) d) (svPosterior k tau ys) (make ys) delta := by
  have hS := sel_ok_exact hR hm
  have hO := sel_reach_exact hR hm hN backward
  have hP := svDynArgs_P0 ht d
  have hQ := svDynArgs_Q ht d
  obtain ⟨hl, hZ⟩ := svSampled_mass k ht ys
  have h0 := (continuous_svGamma_0 ys hP).measurable
  have ht' := fun y => (continuous_svGamma_t hQ y).measurable
  have main : ∀ stop, sv_get_tp_csmc_kernel svd (svDynArgs tau d) style target_stat stop R mv backward = .ok make →
      style ≠ "filtering" → (style = "marginal" → ProposalOK svd (svGauss ys (svDynArgs tau d) stop) delta.at) →
      (svSampled k tau ys = svTarget (svDynArgs tau d).m0 (svDynArgs tau d).P0 (svDynArgs tau d).F (svDynArgs tau d).Q
        (svDynArgs tau d).b ys) →
      RunsConsistent (trajVol (n + 1) d) (svPosterior k tau ys) (make ys) delta := by
    intro stop hk h2 h1' e
    unfold svPosterior
    rw [e] at hl hZ ⊢
    unfold sv_get_tp_csmc_kernel at hk
    by_cases h1 : style = "marginal"
    · rw [if_pos h1] at hk
      cases hk
      exact csmcSv_consistent (sv_tp_ok ys hS backward stop (h1' h1) hd) hl hZ fun x b f hf =>
        tp_reach (h1' h1) (svGauss_meas ys (svDynArgs tau d) stop) [] delta.at hS.cond hS.ker backward hO x b hf
    rw [if_neg h1, if_neg h2, if_neg hstyle] at hk
    by_cases h4 : style = "twisted"
    · rw [if_pos h4] at hk
      cases hs : statOf (k := n + 1) target_stat with
      | error e => rw [hs] at hk; cases hk
      | ok stat =>
        rw [hs] at hk
        cases hk
        exact csmcSv_consistent (sv_twisted_ok ys hS backward hd (by norm_num) (sv_tau_pos ht) (by norm_num)
          (by norm_num) stop) hl hZ fun x b f hf =>
            sv_twisted_reach ys (by norm_num) (sv_tau_pos ht) (by norm_num) (by norm_num) stop hd hS hO x b hf
    · rw [if_neg h4] at hk
      cases hk
  cases k with
  | TP => exact absurd rfl hcsmc.1
  | MALA => exact absurd rfl hcsmc.2
  | CSMC =>
    simp only [SvType.kernel_maker, sv_get_csmc_kernel] at hk
    split_ifs at hk
    cases hk
    exact csmcSv_consistent (sv_csmc_ok ys hS hP hQ backward) hl hZ fun x b f hf =>
      csmc_reach volume [] (C19_sv_proper ys hP hQ) (tailA ys) (tailA ys) hS.cond hS.ker backward hO x b hf
  | RW_CSMC =>
    cases hk
    exact csmcSv_consistent (sv_rw_ok ys hS hP hQ backward hd) hl hZ fun x b f hf =>
      rw_reach [] (tailA ys) h0 ht' hd hS.cond hS.ker backward hO x b hf
  | MALA_CSMC =>
    simp only [SvType.kernel_maker, sv_get_mala_csmc_kernel] at hk
    split_ifs at hk <;> cases hk
    · exact csmcSv_consistent (sv_al_ok ys hS hP hQ backward hd) hl hZ fun x b f hf =>
        al_reach [] (tailA ys) delta.at h0 ht' (measurable_jaxGrad _) (measurable_svGrad hQ) hd hS.cond hS.ker backward hO x b hf
    · exact csmcSv_consistent (sv_l_ok ys hS hP hQ backward hd) hl hZ fun x b f hf =>
        l_reach [] (tailA ys) delta.at h0 ht' (measurable_jaxGrad _) (measurable_svGrad hQ) hd hS.cond hS.ker backward hO x b hf
  | TP_CSMC => exact main false hk (htp (Or.inl rfl)).1 (fun h => (htp (Or.inl rfl)).2 h false) rfl
  | ADAPTED_CSMC => exact main true hk (htp (Or.inr rfl)).1 (fun h => (htp (Or.inr rfl)).2 h true) rfl

/-- **C71** for the stochastic volatility experiment: whatever the conditional SMC kernel it is asked for, with the Barker move, at
least two particles and frozen step sizes. For `TP_CSMC` and `ADAPTED_CSMC` with style `marginal`, the factorisation has to be right;
style `filtering` is left out: it does not keep the posterior (C34). -/
theorem C71_sv (ht : 0 < tau) (hR : sel_resampling resampling = .ok R) (hm : sel_last_step "barker" = .ok mv) (hN : N ≠ 0)
    (hk : k.kernel_maker svd (svDynArgs tau d) style target_stat R mv backward = .ok make) (hstyle : style ≠ "smoothing")
    (hcsmc : k ≠ .TP ∧ k ≠ .MALA)
    (ys : Traj (n + 1) d) {delta : StepSize (n + 1)} (hd : PosSteps delta)
    (htp : k = .TP_CSMC ∨ k = .ADAPTED_CSMC → style ≠ "filtering" ∧ (style = "marginal" → ∀ stop,
      ProposalOK svd (svGauss ys (svDynArgs tau d) stop) delta.at)) :
    RunsConsistent (trajVol (n + 1) d) (svPosterior k tau ys) (make ys) delta :=
  sv_consistent ht hR (.inl hm) hN hk hstyle hcsmc ys hd htp

end sv

/-! ## Examples -/

/-- Bootstrap conditional SMC with two particles. -/
example (ys : Traj 20 3) : Consistent (trajVol 20 3) (lawOf (trajVol 20 3) (lgTarget 2 ys))
    (fun key (s : (Fin 20 → Vec 3) × (Fin 20 → Fin 2)) => (do
      let r ← lg_csmc_kernel ys 2 (fun key w i j c => killing key w i j c) (fun key w k => barker_move key w k) false key s.1 s.2
      pure (r.xs, r.Bs) : Ex _)) := by
  have hZ := lgTarget_mass (sigma := 2) (by norm_num) ys
  rw [← lgTarget_gamma ys (by norm_num)] at hZ ⊢
  exact C71_csmc (resampling := "killing") volume (C19_lgssm_proper ys (by norm_num)) ⟨fun _ => rfl, fun _ => rfl⟩ (tailA ys) (tailA ys)
    rfl rfl one_ne_zero false hZ

/-- All kernels of the linear Gaussian experiment with isotropic covariances. -/
example (ys : Traj 20 3) := C71_lgssm (N := 25) (resampling := "multinomial") (sigma := 2) ys (by norm_num) rfl rfl (by decide) true
  (delta := fun _ => 0.1) fun _ => by norm_num

example (ys : Traj 20 3) := C71_lgssm_tp (N := 25) (resampling := "killing") (sigma := 2) ys (by norm_num) rfl rfl (by decide) true true
  (delta := fun _ => 0.1) (fun _ => by norm_num) (diagSvd_smul 3 (c := 2 ^ 2) (by norm_num)) fun _ => by norm_num

/-- What it says: from almost every trajectory, the fraction of the samples whose first coordinate at time 3 is positive approaches
its posterior probability. -/
example (ys : Traj 20 3) : ∀ᵐ x ∂trajVol 20 3, ∃ M0 : ℕ, ∀ M ≥ M0,
    (sampling_routine [1] x (fun _ => (0 : Fin 26)) (fun key s => outOf (lg_rw_csmc (fun _ => true) ys 2
      (fun key w i j c => killing key w i j c) (fun key w k => barker_move key w k) true key s.1 s.2 fun _ => 0.1)) M 1 : Ex _)
      (fun r => ENNReal.ofReal ((sampleMean (fun x => if 0 < x 3 1 then 1 else 0) r.1 -
        ∫ x, (if 0 < x 3 1 then 1 else 0) ∂lawOf (trajVol 20 3) (lgTarget 2 ys)) ^ 2)) ≤ 1 / 1000 := by
  have h := (C71_lgssm (N := 25) (resampling := "killing") (sigma := 2) ys (by norm_num) rfl rfl (by decide) true
    (delta := fun _ => 0.1) fun _ => by norm_num).2.1.averages.2
  filter_upwards [h] with x hx
  have hf : Measurable fun x : Fin 20 → Vec 3 => if 0 < x 3 1 then (1 : ℝ) else 0 :=
    Measurable.ite (measurableSet_lt measurable_const (by fun_prop)) measurable_const measurable_const
  obtain ⟨M0, h0⟩ := hx (fun x => if 0 < x 3 1 then 1 else 0) hf ⟨1, fun x => by split <;> simp⟩ (1 / 1000) (by simp)
  refine ⟨M0, fun M hM => ?_⟩
  have := h0 (fun _ => 0) [1] M 1 (by simpa [strideLen] using hM)
  rwa [lintegral_dirac] at this

example (ys : Traj 20 3) : Consistent (trajVol 20 3) (lawOf (trajVol 20 3) (lgTarget 2 ys))
    (fun key (s : (Fin 20 → Vec 3) × (Fin 20 → Fin 26)) => (do
      let r ← als_kernel (n := 17) key s.1 s.2 (lgGamma_0 ys 2) (jaxGrad (lgGamma_0 ys 2)) (lgGamma_t 2) (fun _ _ _ => 0)
        (fun x' x y => jaxGrad (fun x => lgGamma_t 2 x' x y) x) (tailA ys) (fun _ => 0.1) (fun _ => 0.1)
        (fun key w i j c => killing key w i j c) (fun key w k => barker_move key w k) false
      pure (r.xs, r.Bs) : Ex _)) := by
  have hZ := lgTarget_mass (sigma := 2) (by norm_num) ys
  rw [← lgTarget_gamma ys (by norm_num)] at hZ ⊢
  exact C71_als (n := 17) (resampling := "killing") (tailA ys) _ (continuous_lgGamma_0 ys (by norm_num)).measurable
    (fun y => (continuous_lgGamma_t (by norm_num) y).measurable) (measurable_jaxGrad _) (fun _ => measurable_const)
    (measurable_lgGrad (by norm_num)) (fun _ => by norm_num) rfl rfl (by decide) hZ

/-- The reversed dynamics of a model without drift, with bounded potentials. -/
example (y : Fin 9 → ℝ) : Consistent (trajVol 10 2) (lawOf (trajVol 10 2) (linPath (exLin y)))
    (fun key (s : (Fin 10 → Vec 2) × (Fin 10 → Fin 26)) => (do
      let r ← t_atp_kernel (exLin y) key s.1 s.2 (fun _ => 2) (fun _ => 1) (fun key w i j c => killing key w i j c)
        (fun key w k => barker_move key w k) true
      pure (r.xs, r.Bs) : Ex _)) := by
  have hr : IsReversal (exLin y).mu0 (exLin y).P0 (exLin y).Fs (exLin y).Qs (exLin y).bs
      (get_reversed_dynamics (exLin y).mu0 (exLin y).P0 (exLin y).Fs (exLin y).Qs (exLin y).bs) :=
    C36_scalar_partial (fun _ => 0.9) (posDef_smul_one (by norm_num)) (fun _ => posDef_smul_one (by norm_num))
  have hZ := revPath_mass (exLin_meas y) hr.final_posDef hr.posDef (C := 0) fun x => by
    simp only [pathLogDensity, exLin]
    have : ∑ t : Fin 9, -(x t.succ 0 - y t) ^ 2 ≤ 0 := Finset.sum_nonpos fun t _ => by nlinarith [sq_nonneg (x t.succ 0 - y t)]
    nlinarith [sq_nonneg (x 0 0)]
  rw [show linPath (exLin y) = revPath _ (exLin y) from funext (linPath_rev hr)]
  exact C71_t (resampling := "killing") (exLin_meas y) hr.final_posDef hr.posDef (fun _ => by norm_num) _ rfl rfl (by decide) true hZ

example (ys : Traj 20 3) := C71_l (N := 25) (Gamma0_grad := jaxGrad (lgGamma_0 ys 2))
  (Gammat_grad := fun x' x y => jaxGrad (fun x => lgGamma_t 2 x' x y) x) (resampling := "killing") (tailA ys) (fun _ => 0.1)
  (continuous_lgGamma_0 ys (by norm_num : (0 : ℝ) < 2)).measurable (fun y => (continuous_lgGamma_t (by norm_num : (0 : ℝ) < 2) y).measurable)
  (measurable_jaxGrad _) (measurable_lgGrad (by norm_num : (0 : ℝ) < 2)) (ells := fun _ => 0.1) (fun _ => by norm_num) rfl rfl (by decide) true
  (by rw [lgTarget_gamma ys (by norm_num)]; exact lgTarget_mass (by norm_num) ys)

example (ys : Traj 20 3) : Consistent (trajVol 20 3) (lawOf (trajVol 20 3) (lgTarget 2 ys))
    (fun key (s : (Fin 20 → Vec 3) × (Fin 20 → Fin 26)) => (do
      let r ← lg_mala_csmc_filtering ys 2 (fun key w i j c => multinomial key w i j c) (fun key w k => barker_move key w k) false key s.1 s.2
        (fun _ => 0.1)
      pure (r.xs, r.Bs) : Ex _)) ∧
    Consistent (trajVol 20 3) (lawOf (trajVol 20 3) (lgTarget 2 ys))
    (fun key (s : (Fin 20 → Vec 3) × (Fin 20 → Fin 26)) => (do
      let r ← lg_rw_csmc (fun _ => true) ys 2 (fun key w i j c => multinomial key w i j c) (fun key w k => barker_move key w k) true key s.1 s.2
        (fun _ => 0.1)
      pure (r.xs, r.Bs) : Ex _)) := by
  have hZ := lgTarget_mass (sigma := 2) (by norm_num) ys
  rw [← lgTarget_gamma ys (by norm_num)] at hZ ⊢
  exact ⟨C71_al (resampling := "multinomial") (tailA ys) _ (continuous_lgGamma_0 ys (by norm_num)).measurable
    (fun y => (continuous_lgGamma_t (by norm_num) y).measurable) (measurable_jaxGrad _) (measurable_lgGrad (by norm_num))
    (fun _ => by norm_num) rfl rfl (by decide) false hZ,
    C71_rw (resampling := "multinomial") (tailA ys) (continuous_lgGamma_0 ys (by norm_num)).measurable
    (fun y => (continuous_lgGamma_t (by norm_num) y).measurable) (fun _ => by norm_num) rfl rfl (by decide) true hZ⟩

example (ys : Traj 20 3) : Consistent (trajVol 20 3) (lawOf (trajVol 20 3) (gaussPath (lgGauss ys 2 false)))
    (fun key (s : (Fin 20 → Vec 3) × (Fin 20 → Fin 26)) => (do
      let r ← tp_csmc_kernel (diagSvd 3) (lgGauss ys 2 false) key s.1 s.2 (fun _ => 0.1) (fun _ => 0.1)
        (fun key w i j c => killing key w i j c) (fun key w k => barker_move key w k) true
      pure (r.xs, r.Bs) : Ex _)) ∧
    Consistent (trajVol 20 3) (lawOf (trajVol 20 3) (gaussPath (lgGauss ys 2 false)))
    (fun key (s : (Fin 20 → Vec 3) × (Fin 20 → Fin 26)) => (do
      let r ← atp_kernel (diagSvd 3) (lgGauss ys 2 false) key s.1 s.2 (fun _ => 0.1) (fun _ => 0.1)
        (fun key w i j c => killing key w i j c) (fun key w k => barker_move key w k) false
      pure (r.xs, r.Bs) : Ex _)) := by
  have hsvd := diagSvd_smul 3 (c := 2 ^ 2) (by norm_num)
  have hok := lgGauss_ok ys (sigma := 2) (by norm_num) false hsvd (delta := fun _ => 0.1) (fun _ => by norm_num) fun _ => by norm_num
  have hZ := lgTarget_mass (sigma := 2) (by norm_num) ys
  rw [show lgTarget 2 ys = gaussPath (lgGauss ys 2 false) from funext fun x => (C55_lgssm_tp_csmc 2 false ys x).1.symm] at hZ
  refine ⟨C71_tp (resampling := "killing") hok (lgGauss_meas ys 2 false) _ rfl rfl (by decide) true hZ,
    C71_atp (resampling := "killing") hok (lgGauss_meas ys 2 false) (fun t => ?_) _ rfl rfl (by decide) false hZ⟩
  rw [lgGauss_cov]
  exact isotropic_diagonal (by norm_num) hsvd

/-- The twisted kernel of the stochastic volatility experiment, `T = 10`, `D = 2`. -/
example (ys : Traj 10 2) : ∃ make, SvType.kernel_maker (m := Ex) (N := 31) (diagSvd 2) .TP_CSMC (svDynArgs 10 2) "twisted"
    (.level 0.5) (fun key w i j c => killing key w i j c) (fun key w k => barker_move key w k) true = .ok make ∧
    RunsConsistent (trajVol 10 2) (svPosterior .TP_CSMC 10 ys) (make ys) (.perStep fun _ => 0.01) :=
  ⟨_, rfl, C71_sv (n := 9) (k := .TP_CSMC) (tau := 10) (svd := (diagSvd 2)) (style := "twisted") (target_stat := .level 0.5)
    (backward := true) (resampling := "killing") (by norm_num) rfl rfl (by decide) rfl (by decide) ⟨by decide, by decide⟩ ys
    (fun _ => by norm_num [StepSize.at]) fun _ => ⟨by decide, fun h => absurd h (by decide)⟩⟩

end Verif.Props
