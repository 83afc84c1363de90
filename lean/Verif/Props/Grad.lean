import Verif.Lemmas.MargDensity
import Verif.Lemmas.AtpCsmc
import Verif.Lemmas.Schemes

/-!
# Properties of the kernels that use the Gaussian dynamics: `marginalisation.py`, `atp_csmc_f.py`, `tp_csmc.py`
-/

open scoped ENNReal
open MeasureTheory

namespace Verif.Props
open Verif Verif.Spec Verif.Model Matrix

variable {N n d : ℕ} {MP RP : Type}

/-! ## C30: `get_log_H` gives marginal Gaussian density ratios -/

/-- C30: differences of `get_log_H` are differences of the log-densities of the other particles. -/
theorem C30_log_H {C E : Mat d d} (hC : C.PosDef) (hE : E.PosDef) (B : Mat d d) (xs ds phi : Fin (N + 1) → Vec d)
    (i j : Fin (N + 1)) :
    get_log_H xs ds B C⁻¹ E (xs i) (ds i) (phi i) - get_log_H xs ds B C⁻¹ E (xs j) (ds j) (phi j) =
      othersLogpdf xs ds B C E i (phi i) - othersLogpdf xs ds B C E j (phi j) := by
  rw [others_log_H hC hE, others_log_H hC hE]
  ring

/-- C30: the law in question is that of particles drawn independently around an auxiliary variable that is drawn around
particle `i`. -/
theorem C30_others {C E : Mat d d} (hC : C.PosDef) (hE : E.PosDef) (B : Mat d d) (xs ds : Fin (N + 1) → Vec d)
    (i : Fin (N + 1)) (phi : Vec d) :
    ∫⁻ u, ENNReal.ofReal (Real.exp (normalLogpdf (xs i + phi) E u +
        ∑ m, normalLogpdf (ds (i.succAbove m) + B *ᵥ u) C (xs (i.succAbove m)))) =
      ENNReal.ofReal (Real.exp (othersLogpdf xs ds B C E i phi)) :=
  others_integral hC hE B _ _ _

example (xs ds phi : Fin 6 → Vec 2) (B : Mat 2 2) :=
  C30_log_H (N := 5) (PosDef.one (n := Fin 2) (R := ℝ)) (posDef_smul_one (d := 2) (r := 2) (by norm_num)) B xs ds phi 0 3

/-! ## C31: the specialised formulas -/

/-- C31: `tp_csmc.get_log_H_bis`. -/
theorem C31_bis {K : Mat d d} {l : ℝ} (hK : K.PosDef) (hl : 0 < l) (xs ds : Fin (N + 1) → Vec d) (x dd phi : Vec d) :
    get_log_H_bis xs ds K K⁻¹ l x dd phi = get_log_H xs ds K ((l / 2) • K)⁻¹ ((l / 2) • 1) x dd phi :=
  get_log_H_bis_eq hK hl xs ds x dd phi

/-- C31: `mala.get_log_H`, with trajectories stacked into vectors. -/
theorem C31_mala {T : ℕ} {e : ℝ} (he : 0 < e) (xs : Fin (N + 1) → Traj T d) (x phi : Traj T d) :
    mala_log_H xs (1 / e) e x phi =
      get_log_H (fun i => stack (xs i)) (fun _ => 0) 1 (e • (1 : Mat (T * d) (T * d)))⁻¹ (e • 1) (stack x) 0 (stack phi) :=
  mala_log_H_general he xs x phi

/-- C31: the weights of `l_csmc_f`: log-target `v` with gradient `g`, step sizes `δ` and `2 e`. -/
theorem C31_l {e : ℝ} (he : 0 < e) (xs : Fin (N + 1) → Vec d) (x g : Vec d) (v δ : ℝ) :
    lHphi N g v δ (2 * e) (meanP xs) x =
      v + get_log_H xs (fun _ => 0) 1 (e • (1 : Mat d d))⁻¹ (e • 1) x 0 (fun j => 0.5 * δ * g j) :=
  lHphi_eq he xs x g v δ

example (xs ds : Fin 6 → Vec 2) (x dd phi : Vec 2) :=
  C31_bis (K := (2 : ℝ) • (1 : Mat 2 2)) (posDef_smul_one (by norm_num)) (l := 3) (by norm_num) xs ds x dd phi

/-! ## C32: the proposal parameters -/

section C32
variable {Q : Mat d d} {s : SvdOut d} {ell : ℝ} (hQ : Q.PosDef) (hs : IsSvd Q s.U s.Gamma s.U_t) (hell : 0 < ell)

include hQ hs hell in
/-- C32: the gain, its inverse, and the covariance of the proposal when the floor is not active. -/
theorem C32_params (hfl : AtLeast 1e-15 (isoPost (ell / 2) Q)) :
    let p := get_proposal_params ell s
    p.K_1 * p.K_2 = Q * (Q + (ell / 2) • 1)⁻¹ ∧ p.K_inv * (p.K_1 * p.K_2) = 1 ∧
      p.chol * p.cholᵀ = Q - (p.K_1 * p.K_2) * Q ∧ p.chol * p.cholᵀ = (ell / 2) • (p.K_1 * p.K_2) := by
  intro p
  have h1 : p.K_1 * p.K_2 = isoGain (ell / 2) Q := svd_K hQ hs hell
  have h3 : p.chol * p.cholᵀ = isoPost (ell / 2) Q := svd_chol hQ hs hell hfl
  refine ⟨h1, ?_, ?_, ?_⟩
  · rw [h1]; exact svd_K_inv hQ hs hell
  · rw [h1, h3]; rfl
  · rw [h1, h3]; exact svd_post_gain hQ hs hell

include hQ hs hell in
/-- C32: as a function of `x`, `N(x; m, Q) N(u; x, ell/2 I)` is proportional to the proposal
`N(x; m + K (u - m), chol cholᵀ)`; the factor is the density of `u`. -/
theorem C32_conditional (hfl : AtLeast 1e-15 (isoPost (ell / 2) Q)) (m u x : Vec d) :
    let p := get_proposal_params ell s
    normalLogpdf m Q x + normalLogpdf x ((ell / 2) • 1) u =
      normalLogpdf m (Q + (ell / 2) • 1) u +
        normalLogpdf (m + p.K_1 *ᵥ (p.K_2 *ᵥ (u - m))) (p.chol * p.cholᵀ) x := by
  intro p
  have h1 : p.K_1 * p.K_2 = isoGain (ell / 2) Q := svd_K hQ hs hell
  have h3 : p.chol * p.cholᵀ = isoPost (ell / 2) Q := svd_chol hQ hs hell hfl
  have h := normal_bayes hQ (posDef_smul_one (d := d) (half_pos hell)) 1 m x 0 u
  simp only [one_mulVec, add_zero, transpose_one, Matrix.one_mul, Matrix.mul_one] at h
  rw [h, mulVec_mulVec, h1, h3, add_comm ((ell / 2) • (1 : Mat d d))]
  rfl

include hQ hs hell in
/-- C32 without any condition on the floor: the gain and its inverse. -/
theorem C32_gain : (get_proposal_params ell s).K_1 * (get_proposal_params ell s).K_2 = Q * (Q + (ell / 2) • 1)⁻¹ ∧
    (get_proposal_params ell s).K_inv * ((get_proposal_params ell s).K_1 * (get_proposal_params ell s).K_2) = 1 := by
  rw [svd_K hQ hs hell]
  exact ⟨rfl, svd_K_inv hQ hs hell⟩

include hQ hell in
/-- The floor is not active if no eigenvalue of `Q` is below `q` and `1e-15 ≤ q (ell/2) / (q + ell/2)`. -/
theorem floor_inactive {q : ℝ} (hq : 0 < q) (h : AtLeast q Q) (hf : 1e-15 ≤ q * (ell / 2) / (q + ell / 2)) :
    AtLeast 1e-15 (isoPost (ell / 2) Q) := by
  obtain ⟨s, hs⟩ := exists_svd hQ
  obtain ⟨-, h2, h3⟩ := IsSvd.posDef hs hQ
  have hp := svd_pos hQ hs hell
  rw [AtLeast, svd_post hQ hs hell, ← conjD_const hs.U_orth, conjD_sub, conjD_nonneg_iff hs.U_orth]
  rw [AtLeast, h3, ← conjD_const hs.U_orth, conjD_sub, conjD_nonneg_iff hs.U_orth] at h
  intro j
  have hj : 0 ≤ s.Gamma j - q := h j
  have hl : (0 : ℝ) < ell / 2 := by positivity
  have : q * (ell / 2) / (q + ell / 2) ≤ s.Gamma j * (ell / 2) / (s.Gamma j + ell / 2) := by
    rw [div_le_div_iff₀ (by positivity) (hp j)]
    nlinarith [mul_nonneg hj (sq_nonneg (ell / 2))]
  show 0 ≤ s.Gamma j * (ell / 2) / (s.Gamma j + ell / 2) - 1e-15
  linarith

end C32

/-- A covariance with correlated coordinates. -/
def exQ : Mat 2 2 := !![2, 1; 1, 2]

theorem exQ_atLeast : AtLeast 1 exQ := by
  have h : exQ - (1 : ℝ) • 1 = vecMulVec (fun _ => 1) (star fun _ => 1) := by
    ext i j
    fin_cases i <;> fin_cases j <;> norm_num [exQ, vecMulVec_apply]
  rw [AtLeast, h]
  exact posSemidef_vecMulVec_self_star _

theorem exQ_posDef : exQ.PosDef := by
  have h := exQ_atLeast
  have e : exQ = (exQ - (1 : ℝ) • 1) + (1 : ℝ) • 1 := by rw [sub_add_cancel]
  rw [e]
  exact PosDef.posSemidef_add h (posDef_smul_one one_pos)

theorem exQ_floor : AtLeast 1e-15 (isoPost (2 / 2) exQ) :=
  floor_inactive exQ_posDef (by norm_num) one_pos exQ_atLeast (by norm_num)

/-- A matrix, a decomposition and a step size meeting the hypotheses of C32. -/
example : ∃ s : SvdOut 2, IsSvd exQ s.U s.Gamma s.U_t ∧ AtLeast 1e-15 (isoPost (2 / 2) exQ) ∧
    (get_proposal_params 2 s).chol * (get_proposal_params 2 s).cholᵀ =
      (2 / 2 : ℝ) • ((get_proposal_params 2 s).K_1 * (get_proposal_params 2 s).K_2) := by
  obtain ⟨s, hs⟩ := exists_svd exQ_posDef
  exact ⟨s, hs, exQ_floor, (C32_params exQ_posDef hs (by norm_num) exQ_floor).2.2.2⟩

/-! ## C33: the proposal log-density of `atp_csmc_f`

The statement is false: `chol_inv = U / temp` should be `diag(1 / temp) Uᵀ`, as `mvn_logpdf` multiplies it with `x - m`
from the left. -/

section C33
variable {Q : Mat d d} {s : SvdOut d} {ell : ℝ} (hQ : Q.PosDef) (hs : IsSvd Q s.U s.Gamma s.U_t) (hell : 0 < ell)

include hQ hs hell in
/-- `M0_logpdf` is the log-density of `M0_rvs` up to a constant exactly if `Q` is the diagonal matrix of its singular
values, in the order in which `svd` returns them. -/
theorem C33_M0_iff (hfl : AtLeast 1e-15 (isoPost (ell / 2) Q)) (key : Key) (u mu0 : Vec d) :
    let p := get_proposal_params ell s
    (∃ c, SamplesFrom volume (fun (_ : Fin (N + 1)) x => c + atpM0_logpdf x u mu0 p.K_1 p.K_2 p.chol_inv)
      (atpM0_rvs key (N + 1) u mu0 p.K_1 p.K_2 p.chol : Ex _)) ↔ Q = diagonal s.Gamma := by
  intro p
  have h3 : p.chol * p.cholᵀ = isoPost (ell / 2) Q := svd_chol hQ hs hell hfl
  have hS := gaussP_samplesFrom (N := N) (svd_chol_det hQ hs hell hfl) (fun _ => mu0 + p.K_1 *ᵥ (p.K_2 *ᵥ (u - mu0)))
  have hS' : SamplesFrom volume (fun (_ : Fin (N + 1)) x => normalLogpdf (mu0 + p.K_1 *ᵥ (p.K_2 *ᵥ (u - mu0)))
    (p.chol * p.cholᵀ) x) (atpM0_rvs key (N + 1) u mu0 p.K_1 p.K_2 p.chol : Ex _) := hS
  rw [h3] at hS'
  rw [← atp_precision_iff hQ hs hell hfl, ← mvn_logpdf_eq_iff (svd_post_posDef hQ hs hell)
    (mu0 + p.K_1 *ᵥ (p.K_2 *ᵥ (u - mu0)))]
  constructor
  · rintro ⟨c, hc⟩
    refine ⟨c, fun x => ?_⟩
    have := hc.density_unique hS' 0 (continuous_const.add (continuous_mvn_logpdf _ _)) (continuous_normalLogpdf _ _)
    exact congrFun this x
  · rintro ⟨c, hc⟩
    refine ⟨c, ?_⟩
    have : (fun (_ : Fin (N + 1)) x => c + atpM0_logpdf x u mu0 p.K_1 p.K_2 p.chol_inv) =
        fun (_ : Fin (N + 1)) x => normalLogpdf (mu0 + p.K_1 *ᵥ (p.K_2 *ᵥ (u - mu0))) (isoPost (ell / 2) Q) x := by
      funext _ x
      exact hc x
    rw [this]
    exact hS'

include hQ hs hell in
/-- The same for `Mt_logpdf` and `Mt_rvs`. -/
theorem C33_Mt_iff (hfl : AtLeast 1e-15 (isoPost (ell / 2) Q)) (key : Key) (mu : Vec d → MP → Vec d) (mp : MP) (u : Vec d)
    (x_prev : Fin (N + 1) → Vec d) :
    let p := get_proposal_params ell s
    let params : AtpMParams MP d := ⟨u, p.K_1, p.K_2, p.chol, p.chol_inv, mp⟩
    (∃ c, SamplesFrom volume (fun i x => c + atpMt_logpdf mu (x_prev i) x params)
      (atpMt_rvs mu key x_prev params : Ex _)) ↔ Q = diagonal s.Gamma := by
  intro p params
  have h3 : p.chol * p.cholᵀ = isoPost (ell / 2) Q := svd_chol hQ hs hell hfl
  have hS := gaussP_samplesFrom (N := N) (svd_chol_det hQ hs hell hfl)
    (fun i => atpMean (mu (x_prev i) mp) u p.K_1 p.K_2)
  have hS' : SamplesFrom volume (fun i x => normalLogpdf (atpMean (mu (x_prev i) mp) u p.K_1 p.K_2)
    (p.chol * p.cholᵀ) x) (atpMt_rvs mu key x_prev params : Ex _) := hS
  rw [h3] at hS'
  rw [← atp_precision_iff hQ hs hell hfl]
  constructor
  · rintro ⟨c, hc⟩
    rw [← mvn_logpdf_eq_iff (svd_post_posDef hQ hs hell) (atpMean (mu (x_prev 0) mp) u p.K_1 p.K_2)]
    refine ⟨c, fun x => ?_⟩
    have := hc.density_unique hS' 0 (continuous_const.add (continuous_mvn_logpdf _ _)) (continuous_normalLogpdf _ _)
    exact congrFun this x
  · intro h
    rw [← mvn_logpdf_eq_iff (svd_post_posDef hQ hs hell) 0] at h
    obtain ⟨c, hc⟩ := h
    refine ⟨c, ?_⟩
    have : (fun i x => c + atpMt_logpdf mu (x_prev i) x params) =
        fun i x => normalLogpdf (atpMean (mu (x_prev i) mp) u p.K_1 p.K_2) (isoPost (ell / 2) Q) x := by
      funext i x
      rw [mvn_shift c hc]
      rfl
    rw [this]
    exact hS'

end C33

/-- C33 is false: for `Q = [[2, 1], [1, 2]]` and `ell = 2`, whatever singular value decomposition is used, `M0_logpdf` is
not the log-density of what `M0_rvs` draws, up to any constant. -/
theorem C33_false {s : SvdOut 2} (hs : IsSvd exQ s.U s.Gamma s.U_t) (key : Key) (u mu0 : Vec 2) :
    let p := get_proposal_params 2 s
    ¬∃ c, SamplesFrom volume (fun (_ : Fin (N + 1)) x => c + atpM0_logpdf x u mu0 p.K_1 p.K_2 p.chol_inv)
      (atpM0_rvs key (N + 1) u mu0 p.K_1 p.K_2 p.chol : Ex _) := by
  intro p h'
  have h := (C33_M0_iff exQ_posDef hs (by norm_num) exQ_floor key u mu0).mp h'
  have := congrFun (congrFun h 0) 1
  simp [exQ] at this

/-- Such a decomposition exists. -/
example : ∃ s : SvdOut 2, IsSvd exQ s.U s.Gamma s.U_t := exists_svd exQ_posDef

/-- The order matters: `Q = diag(1, 2)` and singular values in decreasing order, as `jnp.linalg.svd` returns them. -/
theorem C33_false_diagonal {s : SvdOut 2} (hs : IsSvd (diagonal ![1, 2]) s.U s.Gamma s.U_t) (ho : Antitone s.Gamma)
    (key : Key) (u mu0 : Vec 2) :
    let p := get_proposal_params 2 s
    ¬∃ c, SamplesFrom volume (fun (_ : Fin (N + 1)) x => c + atpM0_logpdf x u mu0 p.K_1 p.K_2 p.chol_inv)
      (atpM0_rvs key (N + 1) u mu0 p.K_1 p.K_2 p.chol : Ex _) := by
  have hQ : (diagonal ![1, 2] : Mat 2 2).PosDef := PosDef.diagonal (fun j => by fin_cases j <;> norm_num)
  have h1 : AtLeast 1 (diagonal ![1, 2] : Mat 2 2) := by
    rw [AtLeast, smul_one_eq_diagonal, diagonal_sub]
    exact PosSemidef.diagonal (fun j => by fin_cases j <;> norm_num)
  intro p h'
  have h := (C33_M0_iff hQ hs (by norm_num) (floor_inactive hQ (by norm_num) one_pos h1 (by norm_num)) key u mu0).mp h'
  have e := diagonal_injective h
  have h0 := congrFun e 0
  have h2 := congrFun e 1
  have := ho (Fin.zero_le (1 : Fin 2))
  simp at h0 h2
  linarith

/-- C33 for isotropic covariances. -/
theorem C33_isotropic {q ell : ℝ} (hq : 0 < q) (hell : 0 < ell) {s : SvdOut d} (hs : IsSvd (q • 1) s.U s.Gamma s.U_t)
    (hf : 1e-15 ≤ q * (ell / 2) / (q + ell / 2)) (key : Key) (u mu0 : Vec d) :
    let p := get_proposal_params ell s
    ∃ c, SamplesFrom volume (fun (_ : Fin (N + 1)) x => c + atpM0_logpdf x u mu0 p.K_1 p.K_2 p.chol_inv)
      (atpM0_rvs key (N + 1) u mu0 p.K_1 p.K_2 p.chol : Ex _) := by
  have hQ : (q • 1 : Mat d d).PosDef := posDef_smul_one hq
  exact (C33_M0_iff hQ hs hell (floor_inactive hQ hell hq (atLeast_smul_one q) hf) key u mu0).mpr (isotropic_diagonal hq hs)

/-! ## C34: Particle-aGRAD -/

/-- C34, under the condition that every covariance is the diagonal matrix of its singular values in the order of `svd`
(for instance `q I`), which C33 shows to be needed for the weights to be right. -/
theorem C34_atp_invariant_partial {svd : Mat d d → SvdOut d} {M : GaussModel MP RP n d} {ells : Fin (n + 1) → ℝ}
    (h : ProposalOK svd M ells) (hM : GaussMeas M)
    (hd : ∀ t, insert0 M.P0 M.Qs t = diagonal (svd (insert0 M.P0 M.Qs t)).Gamma)
    (key : Key) (deltas : Fin (n + 1) → ℝ) {resampling : Resampling Ex N} {mv : AncestorMove Ex N}
    (hR : ∀ key, CondResampling (fun w i j => resampling key w i j true))
    (hmv : ∀ key, MoveInvariant (fun w k => do
      let r ← mv key w k
      pure r.1)) (backward : Bool) :
    LeavesInvariant volume (gaussPath M)
      (fun x b => do
        let r ← atp_kernel svd M key x b ells deltas resampling mv backward
        pure (r.xs, r.Bs)) := by
  have hex : ∀ t, (make_proposal svd M ells t).chol_invᵀ * (make_proposal svd M ells t).chol_inv =
      ((make_proposal svd M ells t).chol * (make_proposal svd M ells t).cholᵀ)⁻¹ := fun t => by
    rw [svd_chol_eq h t]
    exact (atp_precision_iff (h.posDef t) (h.isSvd t) (h.pos t) (h.floor t)).mpr (hd t)
  exact gaussPath_shift h (atp_invariant h hM hex key deltas hR hmv backward)

/-- C34 for isotropic covariances. -/
theorem C34_atp_invariant_isotropic_partial {svd : Mat d d → SvdOut d} {M : GaussModel MP RP n d} {ells : Fin (n + 1) → ℝ}
    (h : ProposalOK svd M ells) (hM : GaussMeas M)
    (hd : ∀ t, ∃ q : ℝ, 0 < q ∧ insert0 M.P0 M.Qs t = q • 1)
    (key : Key) (deltas : Fin (n + 1) → ℝ) (backward : Bool) :
    LeavesInvariant (N := N) volume (gaussPath M)
      (fun x b => do
        let r ← atp_kernel svd M key x b ells deltas (fun key w i j c => killing key w i j c)
          (fun key w k => barker_move key w k) backward
        pure (r.xs, r.Bs)) :=
  C34_atp_invariant_partial h hM (fun t => by
    obtain ⟨q, hq, e⟩ := hd t
    have hs := h.isSvd t
    rw [e] at hs ⊢
    exact isotropic_diagonal hq hs) key deltas (fun key => killing_condResampling key)
    (fun key => barker_moveInvariant key) backward

/-! ## C35: Particle-mGRAD -/

/-- C35: `tp_csmc.kernel` leaves the target invariant, for any step sizes `deltas` and any measurable functions in the
role of the gradients. -/
theorem C35_tp_invariant {svd : Mat d d → SvdOut d} {M : GaussModel MP RP n d} {ells : Fin (n + 1) → ℝ}
    (h : ProposalOK svd M ells) (hM : GaussMeas M)
    (key : Key) (deltas : Fin (n + 1) → ℝ) {resampling : Resampling Ex N} {mv : AncestorMove Ex N}
    (hR : ∀ key, CondResampling (fun w i j => resampling key w i j true))
    (hmv : ∀ key, MoveInvariant (fun w k => do
      let r ← mv key w k
      pure r.1)) (backward : Bool) :
    LeavesInvariant volume (gaussPath M)
      (fun x b => do
        let r ← tp_csmc_kernel svd M key x b ells deltas resampling mv backward
        pure (r.xs, r.Bs)) :=
  gaussPath_shift h ((tpS_invariant h hM key deltas hR (hmv (tpMoveKey key n backward)) backward).congr
    fun x b f hf => tp_kernel_eq h hM key x b deltas hR (fun key => (hmv key).ker) backward f hf)

/-- C35 with killing resampling and the Barker move. -/
theorem C35_tp_invariant_killing_barker {svd : Mat d d → SvdOut d} {M : GaussModel MP RP n d} {ells : Fin (n + 1) → ℝ}
    (h : ProposalOK svd M ells) (hM : GaussMeas M) (key : Key) (deltas : Fin (n + 1) → ℝ) (backward : Bool) :
    LeavesInvariant (N := N) volume (gaussPath M)
      (fun x b => do
        let r ← tp_csmc_kernel svd M key x b ells deltas (fun key w i j c => killing key w i j c)
          (fun key w k => barker_move key w k) backward
        pure (r.xs, r.Bs)) :=
  C35_tp_invariant h hM key deltas (fun key => killing_condResampling key) (fun key => barker_moveInvariant key) backward

/-- C35 with multinomial resampling and the Barker move. -/
theorem C35_tp_invariant_multinomial_barker {svd : Mat d d → SvdOut d} {M : GaussModel MP RP n d} {ells : Fin (n + 1) → ℝ}
    (h : ProposalOK svd M ells) (hM : GaussMeas M) (key : Key) (deltas : Fin (n + 1) → ℝ) (backward : Bool) :
    LeavesInvariant (N := N) volume (gaussPath M)
      (fun x b => do
        let r ← tp_csmc_kernel svd M key x b ells deltas (fun key w i j c => multinomial key w i j c)
          (fun key w k => barker_move key w k) backward
        pure (r.xs, r.Bs)) :=
  C35_tp_invariant h hM key deltas (fun key => multinomial_condResampling key) (fun key => barker_moveInvariant key)
    backward

/-- A model with correlated noise and nonlinear dynamics, and its gradients. -/
noncomputable def exModel (y : Fin 9 → ℝ) : GaussModel ℝ ℝ 9 2 where
  mu0 := ![1, -1]
  P0 := exQ
  r0 x := -(x 0) ^ 2
  r0_grad x := ![-2 * x 0, 0]
  mu x a := fun j => a * x j
  mu_params t := 1 / (1 + t)
  Qs _ := exQ
  rt _ x o := -(x 0 - o) ^ 2
  rt_grad _ x o := ![-2 * (x 0 - o), 0]
  rt_params := y

theorem exModel_meas (y : Fin 9 → ℝ) : GaussMeas (exModel y) where
  r0 := by unfold exModel; fun_prop
  r0_grad := measurable_pi_lambda _ fun j => by (fin_cases j <;> simp [exModel]); fun_prop
  mu t := by unfold exModel; fun_prop
  rt t := by unfold exModel; fun_prop
  rt_grad t := measurable_pi_lambda _ fun j => by (fin_cases j <;> simp [exModel]); fun_prop

theorem exModel_cov (y : Fin 9 → ℝ) (t : Fin 10) : insert0 (exModel y).P0 (exModel y).Qs t = exQ :=
  Fin.cases rfl (fun _ => rfl) t

/-- A model and a function `svd` meeting the hypotheses of C35. -/
example (y : Fin 9 → ℝ) : ∃ svd, ProposalOK svd (exModel y) (fun _ => 2) ∧ LeavesInvariant (N := 25) volume
    (gaussPath (exModel y)) (fun x b => do
        let r ← tp_csmc_kernel svd (exModel y) [] x b (fun _ => 2) (fun _ => 1) (fun key w i j c => killing key w i j c)
          (fun key w k => barker_move key w k) true
        pure (r.xs, r.Bs)) := by
  obtain ⟨s, hs⟩ := exists_svd exQ_posDef
  have h : ProposalOK (fun _ => s) (exModel y) (fun _ => 2) := by
    constructor
    · intro t; rw [exModel_cov]; exact exQ_posDef
    · intro t; rw [exModel_cov]; exact hs
    · intro t; norm_num
    · intro t; rw [exModel_cov]; exact exQ_floor
  exact ⟨_, h, C35_tp_invariant_killing_barker h (exModel_meas y) [] _ true⟩

/-- The same with isotropic covariances. -/
noncomputable def exModelIso (y : Fin 9 → ℝ) : GaussModel ℝ ℝ 9 2 :=
  { exModel y with P0 := (2 : ℝ) • 1, Qs := fun _ => (2 : ℝ) • 1 }

theorem exModelIso_cov (y : Fin 9 → ℝ) (t : Fin 10) : insert0 (exModelIso y).P0 (exModelIso y).Qs t = (2 : ℝ) • 1 :=
  Fin.cases rfl (fun _ => rfl) t

theorem exModelIso_meas (y : Fin 9 → ℝ) : GaussMeas (exModelIso y) :=
  ⟨(exModel_meas y).r0, (exModel_meas y).r0_grad, (exModel_meas y).mu, (exModel_meas y).rt, (exModel_meas y).rt_grad⟩

/-- A model and a function `svd` meeting the hypotheses of C34. -/
example (y : Fin 9 → ℝ) : ∃ svd, LeavesInvariant (N := 25) volume
    (gaussPath (exModelIso y)) (fun x b => do
        let r ← atp_kernel svd (exModelIso y) [] x b (fun _ => 2) (fun _ => 1)
          (fun key w i j c => killing key w i j c) (fun key w k => barker_move key w k) true
        pure (r.xs, r.Bs)) := by
  have hQ : ((2 : ℝ) • 1 : Mat 2 2).PosDef := posDef_smul_one (by norm_num)
  obtain ⟨s, hs⟩ := exists_svd hQ
  have h : ProposalOK (fun _ => s) (exModelIso y) (fun _ => 2) := by
    constructor
    · intro t; rw [exModelIso_cov]; exact hQ
    · intro t; rw [exModelIso_cov]; exact hs
    · intro t; norm_num
    · intro t; rw [exModelIso_cov]
      exact floor_inactive hQ (by norm_num) (by norm_num) (atLeast_smul_one 2) (by norm_num)
  exact ⟨_, C34_atp_invariant_isotropic_partial h (exModelIso_meas y)
    (fun t => ⟨2, by norm_num, exModelIso_cov y t⟩) [] _ true⟩

end Verif.Props
