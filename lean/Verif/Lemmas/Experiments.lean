import Mathlib.Analysis.SpecialFunctions.Log.Basic
import Verif.Lemmas.TpCsmc
import Verif.Spec.Csmc
import Verif.Spec.GaussModel
import Verif.Model.ExpSv
import Verif.Spec.Experiments
import Verif.Spec.Twisted

/-!
# Log-densities of the experiments
-/

namespace Verif
open Verif.Model Verif.Spec Matrix MeasureTheory

variable {n d T : ℕ}

/-- A Gaussian with diagonal covariance. -/
theorem normalLogpdf_diagonal {v : Vec d} (hv : ∀ j, 0 < v j) (m x : Vec d) :
    normalLogpdf m (diagonal v) x = ∑ j, -(Real.log (2 * Real.pi * v j) + (x j - m j) ^ 2 / v j) / 2 := by
  have hi : (diagonal v : Mat d d)⁻¹ = diagonal fun j => (v j)⁻¹ := by
    refine inv_eq_right_inv ?_
    rw [diagonal_mul_diagonal, ← diagonal_one]
    congr 1
    funext j
    exact mul_inv_cancel₀ (hv j).ne'
  have hl : ∀ j, Real.log (2 * Real.pi * v j) = Real.log (2 * Real.pi) + Real.log (v j) := fun j =>
    Real.log_mul (by positivity) (hv j).ne'
  rw [normalLogpdf, hi, det_diagonal, Real.log_prod (fun j _ => (hv j).ne')]
  simp only [hl, dotProduct, mulVec_diagonal, Pi.sub_apply]
  rw [show (d : ℝ) / 2 * Real.log (2 * Real.pi) = ∑ _j : Fin d, Real.log (2 * Real.pi) / 2 by
    rw [Finset.sum_const, Finset.card_univ, Fintype.card_fin, nsmul_eq_mul]; ring, ← Finset.sum_neg_distrib,
    Finset.sum_div, Finset.sum_div, ← Finset.sum_sub_distrib, ← Finset.sum_sub_distrib]
  refine Finset.sum_congr rfl fun j _ => ?_
  ring

theorem sumNorm_eq {s : ℝ} (hs : 0 < s) (x loc : Vec d) : sumNorm x loc s = normalLogpdf loc (s ^ 2 • 1) x := by
  rw [smul_one_eq_diagonal, normalLogpdf_diagonal fun _ => pow_pos hs 2]
  rfl

theorem lg_log_potential_eq (x y : Vec d) : lg_log_potential x y = normalLogpdf x 1 y := by
  rw [lg_log_potential, sumNorm_eq one_pos, one_pow, one_smul]

theorem sv_log_potential_eq (x y : Vec d) :
    sv_log_potential x y = normalLogpdf 0 (diagonal fun j => Real.exp (x j)) y := by
  rw [normalLogpdf_diagonal fun j => Real.exp_pos _, sv_log_potential]
  refine Finset.sum_congr rfl fun j _ => ?_
  have : Real.exp (0.5 * x j) ^ 2 = Real.exp (x j) := by
    rw [← Real.exp_nat_mul]; congr 1; norm_num; ring
  simp only [norm_logpdf, if_true, this, Pi.zero_apply]

theorem lg_log_likelihood_eq (x y : Traj T d) :
    lg_log_likelihood x y = obsLog (fun _ => 1) (fun _ => 1) (fun _ => 0) y x := by
  refine Finset.sum_congr rfl fun t _ => ?_
  rw [lg_log_potential_eq, one_mulVec, add_zero]

theorem sv_log_likelihood_eq (x y : Traj T d) : sv_log_likelihood x y = svObs y x :=
  Finset.sum_congr rfl fun _ _ => sv_log_potential_eq _ _

/-- A path density with observations regrouped. -/
theorem pathLogDensity_add_obs {X : Type} (Γ0 : X → ℝ) (Γ : Fin n → X → X → ℝ) (g : Fin (n + 1) → X → ℝ)
    (x : Fin (n + 1) → X) :
    pathLogDensity (fun x => Γ0 x + g 0 x) (fun t y x => Γ t y x + g t.succ x) x =
      pathLogDensity Γ0 Γ x + ∑ t, g t (x t) := by
  simp only [pathLogDensity]
  rw [Fin.sum_univ_succ (f := fun t => g t (x t)), Finset.sum_add_distrib]
  ring

theorem pathLogDensity_add_const {X : Type} (Γ0 : X → ℝ) (Γ : Fin n → X → X → ℝ) (c0 : ℝ) (c : Fin n → ℝ)
    (x : Fin (n + 1) → X) :
    pathLogDensity (fun x => c0 + Γ0 x) (fun t y x => c t + Γ t y x) x = pathLogDensity Γ0 Γ x + (c0 + ∑ t, c t) := by
  simp only [pathLogDensity]
  rw [Finset.sum_add_distrib]
  ring

/-- Draws `m + L e` with `e` standard normal have the Gaussian density with covariance `L Lᵀ`. -/
theorem samplesFrom_normal {k : ℕ} {L : Mat d d} (hL : L.det ≠ 0) (m : Fin k → Vec d) (key : Key) :
    SamplesFrom volume (fun i => normalLogpdf (m i) (L * Lᵀ))
      ((normal2 key k d : Ex _) >>= fun e => pure (fun i => m i + L *ᵥ e i)) := by
  have h := gauss_samplesFrom hL m key
  rwa [show (fun i x => stdLogpdf (L⁻¹ *ᵥ (x - m i)) - Real.log |L.det|) = fun i => normalLogpdf (m i) (L * Lᵀ) from
    funext fun i => funext fun x => normalLogpdf_factor hL (m i) x] at h

/-- Draws `m + s e` with `e` standard normal. -/
theorem samplesFrom_iso {k : ℕ} {s : ℝ} (hs : 0 < s) (m : Fin k → Vec d) (key : Key) :
    SamplesFrom volume (fun i => normalLogpdf (m i) (s ^ 2 • 1))
      ((normal2 key k d : Ex _) >>= fun e => pure (fun i => m i + s • e i)) := by
  have h := samplesFrom_normal (k := k) (L := s • (1 : Mat d d))
    (by rw [det_smul, det_one, mul_one]; exact (pow_pos hs _).ne') m key
  have e : s • (1 : Mat d d) * (s • (1 : Mat d d))ᵀ = s ^ 2 • 1 := by
    rw [transpose_smul, transpose_one, smul_mul_smul_comm, Matrix.one_mul, ← pow_two]
  rw [e] at h
  simpa only [smul_mulVec, one_mulVec] using h

theorem continuous_lg_log_potential (y : Vec d) : Continuous fun x : Vec d => lg_log_potential x y := by
  simp only [lg_log_potential, sumNorm, norm_logpdf, if_true]
  fun_prop (disch := positivity)

theorem continuous_sv_log_potential (y : Vec d) : Continuous fun x : Vec d => sv_log_potential x y := by
  simp only [sv_log_potential, norm_logpdf, if_true]
  fun_prop (disch := intros; positivity)

theorem continuous_normalLogpdf_comp {β : Type} [TopologicalSpace β] (C : Mat d d) {m x : β → Vec d} (hm : Continuous m)
    (hx : Continuous x) : Continuous fun b => normalLogpdf (m b) C (x b) := by
  unfold normalLogpdf
  simp only [dotProduct, mulVec]
  fun_prop

/-- The noise covariance of the stochastic volatility model. -/
theorem sv_Q_posDef (nu : ℝ) (phi : ℝ) {tau rho : ℝ} (ht : 0 < tau) (h0 : 0 ≤ rho) (h1 : rho < 1) (d : ℕ) :
    (get_dynamics nu phi tau rho d).Q.PosDef := by
  have e : (get_dynamics nu phi tau rho d).Q = (tau * (1 - rho)) • (1 : Mat d d) + (tau * rho) • vecMulVec 1 1 := by
    ext i j
    simp only [get_dynamics, stationary_covariance, Matrix.add_apply, Matrix.smul_apply, one_apply, vecMulVec_apply,
      Pi.one_apply, smul_eq_mul]
    split_ifs <;> ring
  rw [e]
  refine (posDef_smul_one (mul_pos ht (sub_pos.mpr h1))).add_posSemidef (PosSemidef.smul ?_ (mul_nonneg ht.le h0))
  have := posSemidef_vecMulVec_self_star (R := ℝ) (1 : Vec d)
  simpa using this

/-- The initial covariance of the stochastic volatility model. -/
theorem sv_P0_posDef (nu : ℝ) {phi tau rho : ℝ} (hphi : phi ^ 2 < 1) (ht : 0 < tau) (h0 : 0 ≤ rho) (h1 : rho < 1) (d : ℕ) :
    (get_dynamics nu phi tau rho d).P0.PosDef := by
  have e : (get_dynamics nu phi tau rho d).P0 = (1 - phi ^ 2)⁻¹ • (get_dynamics nu phi tau rho d).Q := by
    ext i j
    rw [Matrix.smul_apply, smul_eq_mul, ← div_eq_inv_mul]
    rfl
  rw [e]
  exact (sv_Q_posDef nu phi ht h0 h1 d).smul (inv_pos.mpr (sub_pos.mpr hphi))

end Verif
