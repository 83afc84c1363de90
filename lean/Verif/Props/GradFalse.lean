import Verif.Lemmas.AtpFlat
import Verif.Props.Grad
import Verif.Lemmas.TAtp

/-!
# C34: where Particle-aGRAD does not leave its target invariant
-/

open scoped ENNReal
open MeasureTheory ProbabilityTheory Finset

namespace Verif.Props
open Verif Verif.Spec Verif.Model Matrix

variable {N d : ℕ} {MP RP : Type}

/-- C34: for one time step and a flat potential, Particle-aGRAD with the Barker move leaves its target invariant exactly if
the covariance is the diagonal matrix of its singular values in the order of `svd`. -/
theorem C34_flat_iff (hN : 1 ≤ N) {svd : Mat d d → SvdOut d} {M : GaussModel MP RP 0 d} {ells : Fin 1 → ℝ}
    (h : ProposalOK svd M ells) (hr : M.r0 = fun _ => 0) (hg : M.r0_grad = fun _ => 0) (key : Key) (deltas : Fin 1 → ℝ)
    (resampling : Resampling Ex N) (backward : Bool) :
    LeavesInvariant volume (gaussPath M) (fun x b => do
      let r ← atp_kernel svd M key x b ells deltas resampling (fun key w k => barker_move key w k) backward
      pure (r.xs, r.Bs)) ↔ M.P0 = diagonal (svd M.P0).Gamma := by
  constructor
  swap
  · intro hd
    have hM : GaussMeas M := ⟨hr ▸ measurable_const, hg ▸ measurable_const, fun t => t.elim0, fun t => t.elim0, fun t => t.elim0⟩
    have hk := C34_atp_invariant_partial h hM (fun t => by
      have : t = 0 := Fin.fin_one_eq_zero t
      subst this
      exact hd) key deltas (N := N) (fun key => killing_condResampling key) (fun key => barker_moveInvariant key) backward
    refine hk.congr fun x b f hf => ?_
    exact (atp_kernel_zero svd M key x b ells deltas resampling backward f).trans
      (atp_kernel_zero svd M key x b ells deltas _ backward f).symm
  intro hinv
  have hP : M.P0.PosDef := h.posDef 0
  have hs : 0 < auxStd ells 0 := auxStd_pos h.pos 0
  have hs2 : auxStd ells 0 ^ 2 = ells 0 / 2 := by have := auxStd_sq h.pos 0; linarith
  have hL := h.det 0
  have hLL : (make_proposal svd M ells 0).chol * (make_proposal svd M ells 0).cholᵀ = isoPost (ells 0 / 2) M.P0 := svd_chol_eq h 0
  have hK : (make_proposal svd M ells 0).K_1 * (make_proposal svd M ells 0).K_2 = isoGain (ells 0 / 2) M.P0 :=
    svd_K (h.posDef 0) (h.isSvd 0) (h.pos 0)
  have hR : (auxStd ells 0 ^ 2 • (1 : Mat d d)).PosDef := posDef_smul_one (pow_pos hs 2)
  obtain ⟨pr, hpr⟩ : ∃ pr, pr = make_proposal svd M ells 0 := ⟨_, rfl⟩
  obtain ⟨s, hs'⟩ : ∃ s, s = auxStd ells 0 := ⟨_, rfl⟩
  rw [← hpr] at hLL hK hL
  rw [← hs'] at hs hs2 hR
  have hb : ∀ x u, normalLogpdf M.mu0 M.P0 x + normalLogpdf x (s ^ 2 • 1) u =
      normalLogpdf M.mu0 (s ^ 2 • 1 + M.P0) u +
        normalLogpdf (M.mu0 + pr.K_1 *ᵥ (pr.K_2 *ᵥ (u - M.mu0))) (pr.chol * pr.cholᵀ) x := fun x u => by
    have := normal_bayes hP hR 1 M.mu0 x 0 u
    simp only [one_mulVec, add_zero, transpose_one, Matrix.one_mul, Matrix.mul_one] at this
    rw [this, hLL, mulVec_mulVec, hK, isoPost, isoGain, ← hs2, add_comm M.P0]
  obtain ⟨lw, hlw⟩ : ∃ lw : Vec d → Vec d → ℝ, lw = fun u z =>
      atpGamma_0 M.r0 M.r0_grad z u M.mu0 (invChol M.P0) (deltas 0) (ells 0) -
        atpM0_logpdf z u M.mu0 pr.K_1 pr.K_2 pr.chol_inv := ⟨_, rfl⟩
  have hm : Measurable fun u : Vec d => M.mu0 + pr.K_1 *ᵥ (pr.K_2 *ᵥ (u - M.mu0)) := by fun_prop
  have hlwe : ∀ u z, lw u z = (d / 2 * Real.log (2 * Real.pi) + Real.log M.P0.det / 2) + isoC d s +
      normalLogpdf M.mu0 (s ^ 2 • 1 + M.P0) u +
      (normalLogpdf (M.mu0 + pr.K_1 *ᵥ (pr.K_2 *ᵥ (u - M.mu0))) (pr.chol * pr.cholᵀ) z -
        mvn_logpdf z (M.mu0 + pr.K_1 *ᵥ (pr.K_2 *ᵥ (u - M.mu0))) 0 (some pr.chol_inv) false) := fun u z => by
    have e1 := atp_aug h.pos 0 u z (fun j => 0.5 * deltas 0 * (0 : Vec d) j)
    have e2 := hb z u
    rw [show z + (fun j => 0.5 * deltas 0 * (0 : Vec d) j) = z from funext fun j => by simp, ← hs', ← normalLogpdf_iso hs] at e1
    rw [hlw]
    simp only [atpGamma_0, atpM0_logpdf, hr, hg, add_zero, mvn_logpdf_invChol hP]
    rw [e1]
    linarith
  have hw : ∀ u v, lw u (M.mu0 + pr.K_1 *ᵥ (pr.K_2 *ᵥ (u - M.mu0)) + v) =
      ((d / 2 * Real.log (2 * Real.pi) + Real.log M.P0.det / 2) + isoC d s +
      normalLogpdf M.mu0 (s ^ 2 • 1 + M.P0) u - d / 2 * Real.log (2 * Real.pi) - Real.log (pr.chol * pr.cholᵀ).det / 2) -
      (v ⬝ᵥ (((pr.chol * pr.cholᵀ)⁻¹ - pr.chol_invᵀ * pr.chol_inv) *ᵥ v)) / 2 := fun u v => by
    have e : normalLogpdf (M.mu0 + pr.K_1 *ᵥ (pr.K_2 *ᵥ (u - M.mu0))) (pr.chol * pr.cholᵀ)
        (M.mu0 + pr.K_1 *ᵥ (pr.K_2 *ᵥ (u - M.mu0)) + v) = -(v ⬝ᵥ ((pr.chol * pr.cholᵀ)⁻¹ *ᵥ v)) / 2 -
          d / 2 * Real.log (2 * Real.pi) - Real.log (pr.chol * pr.cholᵀ).det / 2 := by
      rw [normalLogpdf, add_sub_cancel_left]
    rw [hlwe, mvn_logpdf_quad, e, add_sub_cancel_left, sub_mulVec, dotProduct_sub]
    ring
  have hlwm : Measurable fun q : Vec d × Vec d => lw q.1 q.2 := by
    simp only [hlwe, mvn_logpdf_quad]
    have a := measurable_normalLogpdf (s ^ 2 • 1 + M.P0) (m := fun _ : Vec d × Vec d => M.mu0) (x := fun q => q.1) measurable_const measurable_fst
    have b := measurable_normalLogpdf (pr.chol * pr.cholᵀ) (m := fun q : Vec d × Vec d => M.mu0 + pr.K_1 *ᵥ (pr.K_2 *ᵥ (q.1 - M.mu0)))
      (x := fun q => q.2) (by fun_prop) measurable_snd
    have c := (measurable_quad (pr.chol_invᵀ * pr.chol_inv)).comp (f := fun q : Vec d × Vec d =>
      q.2 - (M.mu0 + pr.K_1 *ᵥ (pr.K_2 *ᵥ (q.1 - M.mu0)))) (by fun_prop)
    exact (a.const_add _).add (b.sub (c.neg.div_const 2))
  have hz := flat_const hs hL hm (measurable_normalLogpdf _ measurable_const measurable_id) hb hlwm hw hN hP ?_
  · have hS : (pr.chol * pr.cholᵀ)⁻¹ᵀ = (pr.chol * pr.cholᵀ)⁻¹ := by
      rw [transpose_nonsing_inv, transpose_mul, transpose_transpose]
    have hA := eq_of_quadForm hS (by rw [transpose_mul, transpose_transpose] : (pr.chol_invᵀ * pr.chol_inv)ᵀ = pr.chol_invᵀ * pr.chol_inv)
      fun v => by
        have := hz v
        rw [sub_mulVec, dotProduct_sub] at this
        linarith
    rw [hLL] at hA
    refine (atp_precision_iff (h.posDef 0) (h.isSvd 0) (h.pos 0) (h.floor 0)).mp ?_
    rw [hpr] at hA
    exact hA.symm
  · intro C hC
    have hf : Measurable fun q : (Fin 1 → Vec d) × (Fin 1 → Fin (N + 1)) =>
        ENNReal.ofReal ((q.1 0 - M.mu0) ⬝ᵥ (C *ᵥ (q.1 0 - M.mu0))) :=
      ((measurable_quad C).comp (f := fun q : (Fin 1 → Vec d) × (Fin 1 → Fin (N + 1)) => q.1 0 - M.mu0) (by fun_prop)).ennreal_ofReal
    have hI := hinv _ hf
    have hpath : ∀ x : Vec d, gaussPath M (fun _ => x) = normalLogpdf M.mu0 M.P0 x := fun x => by
      simp [gaussPath, pathLogDensity, hr]
    have hsum : ∀ g : Fin (N + 1) → ℝ≥0∞, ∑ b : Fin 1 → Fin (N + 1), g (b 0) = ∑ i, g i := fun g =>
      Fintype.sum_equiv (Equiv.funUnique (Fin 1) (Fin (N + 1))) (fun b => g (b 0)) g fun b => rfl
    rw [← hsum, ← hsum]
    refine Eq.trans (sum_congr rfl fun b _ => ?_) (hI.trans (sum_congr rfl fun b _ => ?_))
    · rw [lintegral_one, flatSel]
      refine lintegral_congr fun x => ?_
      rw [hpath]
      refine congrArg (ENNReal.ofReal (Real.exp (normalLogpdf M.mu0 M.P0 x)) * ·) ?_
      refine Eq.trans ?_ (atp_kernel_zero svd M key (fun _ => x) b ells deltas resampling backward _).symm
      rw [lintegral_one]
      refine lintegral_congr fun z => lintegral_congr fun y => ?_
      have hu : auxVars M.r0_grad M.rt_grad M.rt_params deltas (auxStd ells) (fun _ => x) (fun _ => z) 0 = x + s • z := by
        funext j
        simp [auxVars, hg, hs', insert0]
      simp only [hu, ← hpr, normalize_normalizeLog]
      rw [ENNReal.ofReal_sum_of_nonneg fun k _ => mul_nonneg (normalize_pos _ k).le (hC _)]
      refine sum_congr rfl fun k _ => ?_
      rw [catP, (normalize_isProb _).sum_one, div_one, ENNReal.ofReal_mul (normalize_pos _ k).le, hlw]
    · rw [lintegral_one, flatMean]
      simp only [hpath]

/-- C34 is false for every covariance with correlated coordinates. -/
theorem C34_false_correlated (hN : 1 ≤ N) {svd : Mat d d → SvdOut d} {M : GaussModel MP RP 0 d} {ells : Fin 1 → ℝ}
    (h : ProposalOK svd M ells) (hr : M.r0 = fun _ => 0) (hg : M.r0_grad = fun _ => 0) {i j : Fin d} (hij : i ≠ j)
    (hc : M.P0 i j ≠ 0) (key : Key) (deltas : Fin 1 → ℝ) (resampling : Resampling Ex N) (backward : Bool) :
    ¬ LeavesInvariant volume (gaussPath M) (fun x b => do
      let r ← atp_kernel svd M key x b ells deltas resampling (fun key w k => barker_move key w k) backward
      pure (r.xs, r.Bs)) := by
  rw [C34_flat_iff hN h hr hg]
  intro e
  apply hc
  rw [e, diagonal_apply_ne _ hij]

/-- A model with a single time step, correlated coordinates and a flat potential. -/
def flatModel (Q : Mat d d) : GaussModel Unit Unit 0 d where
  mu0 := 0
  P0 := Q
  r0 _ := 0
  r0_grad _ := 0
  mu x _ := x
  mu_params := Fin.elim0
  Qs := Fin.elim0
  rt _ _ _ := 0
  rt_grad _ _ _ := 0
  rt_params := Fin.elim0

theorem flatModel_ok {Q : Mat d d} (hQ : Q.PosDef) {svd : Mat d d → SvdOut d}
    (hsvd : IsSvd Q (svd Q).U (svd Q).Gamma (svd Q).U_t) {ell : ℝ} (hell : 0 < ell) (hfl : AtLeast 1e-15 (isoPost (ell / 2) Q)) :
    ProposalOK svd (flatModel Q) (fun _ => ell) where
  posDef t := by
    rw [Fin.fin_one_eq_zero t]
    exact hQ
  isSvd t := by
    rw [Fin.fin_one_eq_zero t]
    exact hsvd
  pos _ := hell
  floor t := by
    rw [Fin.fin_one_eq_zero t]
    exact hfl

/-- C34 is false of the code: covariance `[[2, 1], [1, 2]]`, `ell = 2`, two particles. -/
theorem C34_false {svd : Mat 2 2 → SvdOut 2} (hsvd : IsSvd exQ (svd exQ).U (svd exQ).Gamma (svd exQ).U_t) (key : Key)
    (deltas : Fin 1 → ℝ) (resampling : Resampling Ex 1) (backward : Bool) :
    ¬ LeavesInvariant volume (gaussPath (flatModel exQ)) (fun x b => do
      let r ← atp_kernel svd (flatModel exQ) key x b (fun _ => 2) deltas resampling (fun key w k => barker_move key w k) backward
      pure (r.xs, r.Bs)) :=
  C34_false_correlated le_rfl (flatModel_ok exQ_posDef hsvd (by norm_num) exQ_floor) rfl rfl (i := 0) (j := 1) (by decide)
    (by norm_num [flatModel, exQ]) key deltas resampling backward

/-- There is such a decomposition. -/
example : ∃ svd : Mat 2 2 → SvdOut 2, IsSvd exQ (svd exQ).U (svd exQ).Gamma (svd exQ).U_t := by
  obtain ⟨s, hs⟩ := exists_svd exQ_posDef
  exact ⟨fun _ => s, hs⟩

/-- C34 is false of the code also for independent coordinates: `jnp.linalg.svd` returns the singular values in decreasing order,
so that `diag(q_1, q_2)` with `q_1 < q_2` is not the diagonal matrix of its singular values. -/
theorem C34_false_independent {q1 q2 : ℝ} (h1 : 1 ≤ q1) (h2 : q1 < q2) {svd : Mat 2 2 → SvdOut 2}
    (hsvd : IsSvd (diagonal ![q1, q2]) (svd (diagonal ![q1, q2])).U (svd (diagonal ![q1, q2])).Gamma (svd (diagonal ![q1, q2])).U_t)
    (hdec : (svd (diagonal ![q1, q2])).Gamma 1 ≤ (svd (diagonal ![q1, q2])).Gamma 0) (hN : 1 ≤ N) (key : Key)
    (deltas : Fin 1 → ℝ) (resampling : Resampling Ex N) (backward : Bool) :
    ¬ LeavesInvariant volume (gaussPath (flatModel (diagonal ![q1, q2]))) (fun x b => do
      let r ← atp_kernel svd (flatModel (diagonal ![q1, q2])) key x b (fun _ => 2) deltas resampling
        (fun key w k => barker_move key w k) backward
      pure (r.xs, r.Bs)) := by
  have hQ : (diagonal ![q1, q2] : Mat 2 2).PosDef := by
    refine PosDef.diagonal fun i => ?_
    fin_cases i
    · show 0 < q1
      linarith
    · show 0 < q2
      linarith
  have hat : AtLeast 1 (diagonal ![q1, q2] : Mat 2 2) := by
    have e : (diagonal ![q1, q2] : Mat 2 2) - (1 : ℝ) • 1 = diagonal ![q1 - 1, q2 - 1] := by
      ext i j
      fin_cases i <;> fin_cases j <;> simp
    rw [AtLeast, e]
    refine PosSemidef.diagonal fun i => ?_
    fin_cases i
    · show 0 ≤ q1 - 1
      linarith
    · show 0 ≤ q2 - 1
      linarith
  rw [C34_flat_iff hN (flatModel_ok hQ hsvd (by norm_num) (floor_inactive hQ (by norm_num) one_pos hat (by norm_num))) rfl rfl]
  intro e
  have e0 : q1 = (svd (diagonal ![q1, q2])).Gamma 0 := by
    have := congrFun (congrFun e 0) 0
    simpa [flatModel] using this
  have e1 : q2 = (svd (diagonal ![q1, q2])).Gamma 1 := by
    have := congrFun (congrFun e 1) 1
    simpa [flatModel] using this
  linarith

/-- Such a decomposition: the permutation of the coordinates. -/
example : IsSvd (diagonal ![1, 2] : Mat 2 2) !![0, 1; 1, 0] ![2, 1] !![0, 1; 1, 0] ∧ (![2, 1] : Vec 2) 1 ≤ (![2, 1] : Vec 2) 0 := by
  refine ⟨⟨?_, ?_, fun j => ?_, ?_⟩, by norm_num⟩
  · ext i j
    fin_cases i <;> fin_cases j <;> norm_num [Matrix.mul_apply, Fin.sum_univ_two]
  · ext i j
    fin_cases i <;> fin_cases j <;> norm_num [Matrix.mul_apply, Fin.sum_univ_two]
  · fin_cases j <;> norm_num
  · ext i j
    fin_cases i <;> fin_cases j <;> simp [Matrix.mul_apply, vecMul_diagonal]

end Verif.Props
