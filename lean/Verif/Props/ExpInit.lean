import Verif.Props.Kalman
import Verif.Lemmas.Experiments

/-!
# C59, C60: quantities computed by the scripts of the experiments
-/

namespace Verif.Props
open Verif Verif.Model Verif.Spec Matrix MeasureTheory

variable {N n d : ℕ}

/-! ## C59: the inverse factors returned by the data generator -/

/-- The upper triangle of a lower triangular matrix is its diagonal. -/
theorem symmUpper_chol {L : Mat d d} (hL : IsCholFactor L) : symmUpper L = diagonal fun i => L i i := by
  ext i j
  rw [symmUpper, diagonal_apply]
  rcases lt_trichotomy i j with h | rfl | h
  · rw [if_pos h.le, if_neg h.ne]
    exact hL.1 i j h
  · simp
  · rw [if_neg (not_le.mpr h), if_neg h.ne']
    exact hL.1 j i h

/-- **C59**: what `solve(chol, eye, assume_a="pos")` returns: the inverses of the diagonal entries of the factor. -/
theorem C59_value {L : Mat d d} (hL : IsCholFactor L) : solvePosEye L = diagonal fun i => (L i i)⁻¹ := by
  rw [solvePosEye, symmUpper_chol hL, Matrix.mul_one]
  refine inv_eq_right_inv ?_
  rw [diagonal_mul_diagonal, ← diagonal_one]
  congr 1
  funext i
  exact mul_inv_cancel₀ (hL.2 i).ne'

/-- **C59**: it is the inverse of the Cholesky factor exactly for diagonal covariances. -/
theorem C59_iff {P : Mat d d} (hP : P.PosDef) :
    solvePosEye (cholesky P) = (cholesky P)⁻¹ ↔ ∀ i j, i ≠ j → P i j = 0 := by
  have hL := (cholesky_spec hP).1
  have hu : IsUnit (cholesky P).det := (cholesky_det_pos hP).ne'.isUnit
  rw [C59_value hL]
  constructor
  · intro h i j hij
    have h1 : cholesky P = diagonal fun i => cholesky P i i := by
      have h2 : (cholesky P) * (diagonal fun i => (cholesky P i i)⁻¹) = 1 := by rw [h, mul_nonsing_inv _ hu]
      have h3 : (diagonal fun i => (cholesky P i i)⁻¹) * (diagonal fun i => cholesky P i i) = 1 := by
        rw [diagonal_mul_diagonal, ← diagonal_one]
        congr 1
        funext i
        exact inv_mul_cancel₀ (hL.2 i).ne'
      calc cholesky P = cholesky P * ((diagonal fun i => (cholesky P i i)⁻¹) * (diagonal fun i => cholesky P i i)) := by
            rw [h3, Matrix.mul_one]
        _ = _ := by rw [← Matrix.mul_assoc, h2, Matrix.one_mul]
    rw [← (cholesky_spec hP).2, h1, diagonal_transpose, diagonal_mul_diagonal, diagonal_apply_ne _ hij]
  · intro h
    have hd : P = diagonal fun i => P i i := by
      ext i j
      rcases eq_or_ne i j with rfl | hij
      · simp
      · rw [h i j hij, diagonal_apply_ne _ hij]
    have hpos : ∀ i, 0 < P i i := fun i => hP.diag_pos
    have hc : cholesky P = diagonal fun i => Real.sqrt (P i i) := by
      refine cholesky_unique ⟨fun i j hij => diagonal_apply_ne _ hij.ne, fun i => ?_⟩ ?_
      · rw [diagonal_apply_eq]; exact Real.sqrt_pos.mpr (hpos i)
      · rw [diagonal_transpose, diagonal_mul_diagonal]
        conv_rhs => rw [hd]
        congr 1
        funext i
        exact Real.mul_self_sqrt (hpos i).le
    rw [← Matrix.mul_one (diagonal fun i => (cholesky P i i)⁻¹), ← mul_nonsing_inv _ hu, ← Matrix.mul_assoc]
    rw [show (diagonal fun i => (cholesky P i i)⁻¹) * cholesky P = 1 by
      rw [hc, diagonal_mul_diagonal, ← diagonal_one]
      congr 1
      funext i
      rw [diagonal_apply_eq]
      exact inv_mul_cancel₀ (Real.sqrt_pos.mpr (hpos i)).ne', Matrix.one_mul]

/-- **C59 is false**: for correlated noise (`ρ > 0`, `D ≥ 2`), on every run `get_data` returns as `inv_chol_Q` and
`inv_chol_P0` matrices which are not the inverses of the Cholesky factors. -/
theorem C59_false (key : Key) (nu : ℝ) {phi tau rho : ℝ} (hphi : phi ^ 2 < 1) (ht : 0 < tau) (h0 : 0 < rho) (h1 : rho < 1)
    (hd : 2 ≤ d) (T : ℕ) :
    let D := get_dynamics nu phi tau rho d
    Poss.Always (sv_get_data key nu phi tau rho d T) (fun r =>
      r.inv_chol_Q ≠ (cholesky D.Q)⁻¹ ∧ r.inv_chol_P0 ≠ (cholesky D.P0)⁻¹) := by
  intro D
  have hQ : D.Q.PosDef := sv_Q_posDef nu phi ht h0.le h1 d
  have hP : D.P0.PosDef := sv_P0_posDef nu hphi ht h0.le h1 d
  have hij : (⟨0, by omega⟩ : Fin d) ≠ ⟨1, by omega⟩ := by simp
  have hne : tau * rho ≠ 0 := (mul_pos ht h0).ne'
  refine Poss.always_bind' fun e => Poss.always_bind' fun r => Poss.always_pure ⟨?_, ?_⟩
  · intro h
    have := (C59_iff hQ).1 h _ _ hij
    simp only [D, get_dynamics, stationary_covariance, if_neg hij] at this
    exact hne this
  · intro h
    have := (C59_iff hP).1 h _ _ hij
    simp only [D, get_dynamics, stationary_covariance, if_neg hij] at this
    rw [div_eq_zero_iff] at this
    exact this.elim hne (sub_pos.mpr hphi).ne'

example := C59_false [] 0 (phi := 0.9) (tau := 0.1) (rho := 0.25) (d := 30) (by norm_num) (by norm_num) (by norm_num)
  (by norm_num) (by norm_num) 128

/-! ## C60: initialisation at stationarity -/

/-- **C60**: the initial trajectories of the `lgssm` experiment are independent draws from the posterior, the
normalising constant being the third output of the Kalman filter. -/
theorem C60_lgssm_init {sigma : ℝ} (hs : 0 < sigma) (ys : Traj (n + 1) d) (key : Key) :
    ∃ c : ℝ, SamplesFrom (Measure.pi fun _ : Fin (n + 1) => (volume : Measure (Vec d)))
      (fun _ x => lgTarget sigma ys x - c) (lg_init key ys sigma N : Ex (Fin N → Fin (n + 1) → Vec d)) :=
  ⟨_, C39_filtering0 (N := N) ys (0 : Vec d) (Fs := fun _ => 1) (fun _ => 0) (fun _ => 1) (fun _ => 0)
    (posDef_smul_one (pow_pos hs 2)) (fun _ => posDef_smul_one (pow_pos hs 2)) (fun _ => PosDef.one) key⟩

example (ys : Traj 100 30) := C60_lgssm_init (N := 1000) (sigma := 0.1) (by norm_num) ys []

end Verif.Props
