import Mathlib.Analysis.Matrix.PosDef
import Mathlib.LinearAlgebra.Matrix.SchurComplement
import Verif.Lemmas.Gauss
import Verif.Lemmas.Chol

/-!
# Multivariate normal densities: factors, conditioning
-/

namespace Verif
open Verif.Model Verif.Spec Matrix MeasureTheory
open scoped ENNReal

variable {d k : ℕ}

theorem dot_mulVec_left {a b : ℕ} (A : Mat a b) (v : Vec b) (w : Vec a) : (A *ᵥ v) ⬝ᵥ w = v ⬝ᵥ (Aᵀ *ᵥ w) := by
  rw [dotProduct_comm, dotProduct_mulVec, dotProduct_comm, mulVec_transpose]

theorem dot_mulVec_comm {a b : ℕ} (A : Mat a b) (v : Vec a) (w : Vec b) : v ⬝ᵥ (A *ᵥ w) = w ⬝ᵥ (Aᵀ *ᵥ v) := by
  rw [dotProduct_comm, dot_mulVec_left]

theorem PosDef.isUnit_det {P : Mat d d} (hP : P.PosDef) : IsUnit P.det := hP.det_pos.ne'.isUnit

theorem PosDef.transpose_eq {P : Mat d d} (hP : P.PosDef) : Pᵀ = P := by
  have := hP.isHermitian
  rwa [IsHermitian, conjTranspose_eq_transpose_of_trivial] at this

theorem PosDef.inv_transpose {P : Mat d d} (hP : P.PosDef) : P⁻¹ᵀ = P⁻¹ := by
  rw [transpose_nonsing_inv, PosDef.transpose_eq hP]

theorem PosDef.conj {P : Mat d d} (hP : P.PosDef) (H : Mat k d) : (H * P * Hᵀ).PosSemidef := by
  have := hP.posSemidef.mul_mul_conjTranspose_same H
  rwa [conjTranspose_eq_transpose_of_trivial] at this

theorem posDef_smul_one {r : ℝ} (hr : 0 < r) : (r • (1 : Mat d d)).PosDef := PosDef.one.smul hr

theorem mul_transpose_posDef {L : Mat d d} (hL : L.det ≠ 0) : (L * Lᵀ).PosDef := by
  have h := PosDef.one.mul_mul_conjTranspose_same (B := L) (by
    intro v w h
    have := congrArg (· ᵥ* L⁻¹) h
    simpa [vecMul_vecMul, mul_nonsing_inv _ (isUnit_iff_ne_zero.mpr hL)] using this)
  rwa [Matrix.mul_one, conjTranspose_eq_transpose_of_trivial] at h

/-- The law of `m + L z` is `N(m, L Lᵀ)`. -/
theorem normalLogpdf_factor {L : Mat d d} (hL : L.det ≠ 0) (m x : Vec d) :
    stdLogpdf (L⁻¹ *ᵥ (x - m)) - Real.log |L.det| = normalLogpdf m (L * Lᵀ) x := by
  rw [stdLogpdf, normalLogpdf, dot_mulVec_left, mulVec_mulVec, Matrix.mul_inv_rev, transpose_nonsing_inv, det_mul,
    det_transpose, ← Real.log_abs (L.det * L.det), abs_mul, Real.log_mul (abs_pos.mpr hL).ne' (abs_pos.mpr hL).ne']
  ring

theorem measurable_normalLogpdf {β : Type} [MeasurableSpace β] (C : Mat d d) {m x : β → Vec d} (hm : Measurable m)
    (hx : Measurable x) : Measurable fun b => normalLogpdf (m b) C (x b) := by
  unfold normalLogpdf
  fun_prop

theorem measurable_normalLogpdf' (C : Mat d d) (m : Vec d) : Measurable fun x => normalLogpdf m C x :=
  measurable_normalLogpdf C measurable_const measurable_id

theorem gauss_law {L : Mat d d} (hL : L.det ≠ 0) (m : Vec d) (F : Vec d → ℝ≥0∞) (hF : Measurable F) :
    ∫⁻ z, F (m + L *ᵥ z) ∂gaussM d = ∫⁻ x, ENNReal.ofReal (Real.exp (normalLogpdf m (L * Lᵀ) x)) * F x := by
  rw [gauss_affine hL m F hF]
  simp only [normalLogpdf_factor hL]

theorem gauss_law_chol {P : Mat d d} (hP : P.PosDef) (m : Vec d) (F : Vec d → ℝ≥0∞) (hF : Measurable F) :
    ∫⁻ z, F (m + cholesky P *ᵥ z) ∂gaussM d = ∫⁻ x, ENNReal.ofReal (Real.exp (normalLogpdf m P x)) * F x := by
  rw [gauss_law (cholesky_det_pos hP).ne' m F hF, (cholesky_spec hP).2]

theorem normalLogpdf_norm {P : Mat d d} (hP : P.PosDef) (m : Vec d) :
    ∫⁻ x, ENNReal.ofReal (Real.exp (normalLogpdf m P x)) = 1 := by
  have := gauss_law_chol hP m (fun _ => 1) measurable_const
  simpa using this.symm

section bayes
variable {P : Mat d d} {R : Mat k k} (hP : P.PosDef) (hR : R.PosDef) (H : Mat k d)
include hP hR

theorem innov_posDef : (R + H * P * Hᵀ).PosDef := hR.add_posSemidef (PosDef.conj hP H)

theorem info_posDef : (P⁻¹ + Hᵀ * R⁻¹ * H).PosDef := by
  refine hP.inv.add_posSemidef ?_
  have := PosDef.conj hR.inv Hᵀ
  rwa [transpose_transpose] at this

/-- `Λ (P Hᵀ) = Hᵀ R⁻¹ S`. -/
theorem info_gain : (P⁻¹ + Hᵀ * R⁻¹ * H) * (P * Hᵀ) = Hᵀ * R⁻¹ * (R + H * P * Hᵀ) := by
  rw [Matrix.add_mul, ← Matrix.mul_assoc P⁻¹, nonsing_inv_mul _ (PosDef.isUnit_det hP), Matrix.one_mul, Matrix.mul_add,
    Matrix.mul_assoc Hᵀ R⁻¹ R, nonsing_inv_mul _ (PosDef.isUnit_det hR), Matrix.mul_one]
  simp only [Matrix.mul_assoc]

/-- `Λ G = Hᵀ R⁻¹`. -/
theorem info_gain' : (P⁻¹ + Hᵀ * R⁻¹ * H) * (P * Hᵀ * (R + H * P * Hᵀ)⁻¹) = Hᵀ * R⁻¹ := by
  rw [← Matrix.mul_assoc, info_gain hP hR, Matrix.mul_assoc, mul_nonsing_inv _ (PosDef.isUnit_det (innov_posDef hP hR H)),
    Matrix.mul_one]

/-- Woodbury: the posterior covariance is the inverse of the posterior information. -/
theorem post_cov : P - P * Hᵀ * (R + H * P * Hᵀ)⁻¹ * (H * P) = (P⁻¹ + Hᵀ * R⁻¹ * H)⁻¹ := by
  refine (inv_eq_right_inv ?_).symm
  rw [Matrix.mul_sub, ← Matrix.mul_assoc _ (P * Hᵀ * _), info_gain' hP hR, Matrix.add_mul,
    nonsing_inv_mul _ (PosDef.isUnit_det hP)]
  simp only [Matrix.mul_assoc]
  rw [add_sub_cancel_right]

theorem post_cov_posDef : (P - P * Hᵀ * (R + H * P * Hᵀ)⁻¹ * (H * P)).PosDef := by
  rw [post_cov hP hR]
  exact (info_posDef hP hR H).inv

theorem post_det : (R + H * P * Hᵀ).det * (P - P * Hᵀ * (R + H * P * Hᵀ)⁻¹ * (H * P)).det = P.det * R.det := by
  have hi := (info_posDef hP hR H).det_pos.ne'
  have h1 : (P⁻¹ + Hᵀ * R⁻¹ * H).det * P.det = (1 + Hᵀ * (R⁻¹ * H * P)).det := by
    rw [← det_mul, Matrix.add_mul, nonsing_inv_mul _ (PosDef.isUnit_det hP)]
    simp only [Matrix.mul_assoc]
  have h2 : R.det * (1 + (R⁻¹ * H * P) * Hᵀ).det = (R + H * P * Hᵀ).det := by
    rw [← det_mul, Matrix.mul_add, Matrix.mul_one]
    simp only [← Matrix.mul_assoc]
    rw [mul_nonsing_inv _ (PosDef.isUnit_det hR), Matrix.one_mul]
  rw [post_cov hP hR, det_nonsing_inv, Ring.inverse_eq_inv', ← h2, ← det_one_add_mul_comm, ← h1]
  field_simp

/-- Gaussian conditioning: `N(x; m, P) N(y; H x + c, R) = N(y; H m + c, S) N(x; m + G (y - H m - c), P - G S Gᵀ)`. -/
theorem normal_bayes (m x : Vec d) (c y : Vec k) :
    normalLogpdf m P x + normalLogpdf (H *ᵥ x + c) R y =
      normalLogpdf (H *ᵥ m + c) (R + H * P * Hᵀ) y +
      normalLogpdf (m + (P * Hᵀ * (R + H * P * Hᵀ)⁻¹) *ᵥ (y - (H *ᵥ m + c)))
        (P - P * Hᵀ * (R + H * P * Hᵀ)⁻¹ * (H * P)) x := by
  have hS := innov_posDef hP hR H
  have hdet := post_det hP hR H
  have hlog : Real.log P.det + Real.log R.det = Real.log (R + H * P * Hᵀ).det +
      Real.log (P - P * Hᵀ * (R + H * P * Hᵀ)⁻¹ * (H * P)).det := by
    rw [← Real.log_mul hP.det_pos.ne' hR.det_pos.ne', ← hdet,
      Real.log_mul hS.det_pos.ne' (post_cov_posDef hP hR H).det_pos.ne']
  have hΛ : (P - P * Hᵀ * (R + H * P * Hᵀ)⁻¹ * (H * P))⁻¹ = P⁻¹ + Hᵀ * R⁻¹ * H := by
    rw [post_cov hP hR, nonsing_inv_nonsing_inv _ (PosDef.isUnit_det (info_posDef hP hR H))]
  have hG := info_gain' hP hR H
  have hΛt : (P⁻¹ + Hᵀ * R⁻¹ * H)ᵀ = P⁻¹ + Hᵀ * R⁻¹ * H := PosDef.transpose_eq (info_posDef hP hR H)
  have hGt : (P * Hᵀ * (R + H * P * Hᵀ)⁻¹)ᵀ * (P⁻¹ + Hᵀ * R⁻¹ * H) = R⁻¹ * H := by
    have := congrArg transpose hG
    rw [transpose_mul, hΛt, transpose_mul Hᵀ, transpose_transpose, PosDef.inv_transpose hR] at this
    exact this
  have hGG : (P * Hᵀ * (R + H * P * Hᵀ)⁻¹)ᵀ * (Hᵀ * R⁻¹) = R⁻¹ - (R + H * P * Hᵀ)⁻¹ := by
    have h1 : H * P * Hᵀ * R⁻¹ = (R + H * P * Hᵀ) * R⁻¹ - 1 := by
      rw [Matrix.add_mul, mul_nonsing_inv _ (PosDef.isUnit_det hR), add_sub_cancel_left]
    rw [transpose_mul, transpose_mul, transpose_transpose, PosDef.inv_transpose hS, PosDef.transpose_eq hP]
    have h2 : (R + H * P * Hᵀ)⁻¹ * (H * P) * (Hᵀ * R⁻¹) = (R + H * P * Hᵀ)⁻¹ * (H * P * Hᵀ * R⁻¹) := by
      simp only [Matrix.mul_assoc]
    rw [h2, h1, Matrix.mul_sub, ← Matrix.mul_assoc, nonsing_inv_mul _ (PosDef.isUnit_det hS), Matrix.one_mul,
      Matrix.mul_one]
  obtain ⟨x', hx'⟩ : ∃ x', x' = x - m := ⟨_, rfl⟩
  obtain ⟨e, he⟩ : ∃ e, e = y - (H *ᵥ m + c) := ⟨_, rfl⟩
  have e1 : y - (H *ᵥ x + c) = e - H *ᵥ x' := by
    rw [he, hx', mulVec_sub]; abel
  have e2 : x - (m + (P * Hᵀ * (R + H * P * Hᵀ)⁻¹) *ᵥ e) = x' - (P * Hᵀ * (R + H * P * Hᵀ)⁻¹) *ᵥ e := by
    rw [hx']; abel
  have hq : x' ⬝ᵥ (P⁻¹ *ᵥ x') + (e - H *ᵥ x') ⬝ᵥ (R⁻¹ *ᵥ (e - H *ᵥ x')) =
      e ⬝ᵥ ((R + H * P * Hᵀ)⁻¹ *ᵥ e) + (x' - (P * Hᵀ * (R + H * P * Hᵀ)⁻¹) *ᵥ e) ⬝ᵥ
        ((P⁻¹ + Hᵀ * R⁻¹ * H) *ᵥ (x' - (P * Hᵀ * (R + H * P * Hᵀ)⁻¹) *ᵥ e)) := by
    have a1 : (R⁻¹ *ᵥ (e - H *ᵥ x')) = R⁻¹ *ᵥ e - (R⁻¹ * H) *ᵥ x' := by
      rw [mulVec_sub, mulVec_mulVec]
    have a2 : (P⁻¹ + Hᵀ * R⁻¹ * H) *ᵥ (x' - (P * Hᵀ * (R + H * P * Hᵀ)⁻¹) *ᵥ e) =
        (P⁻¹ + Hᵀ * R⁻¹ * H) *ᵥ x' - (Hᵀ * R⁻¹) *ᵥ e := by
      rw [mulVec_sub, mulVec_mulVec, hG]
    rw [a1, a2]
    simp only [sub_dotProduct, dotProduct_sub, dot_mulVec_left, mulVec_mulVec]
    rw [hGG, hGt]
    have a3 : e ⬝ᵥ (R⁻¹ * H) *ᵥ x' = x' ⬝ᵥ (Hᵀ * R⁻¹) *ᵥ e := by
      rw [dot_mulVec_comm, transpose_mul, PosDef.inv_transpose hR]
    rw [a3, add_mulVec, sub_mulVec, dotProduct_add, dotProduct_sub]
    simp only [Matrix.mul_assoc]
    ring
  simp only [normalLogpdf]
  rw [e1, ← he, ← hx', hΛ, e2]
  linarith

end bayes

end Verif
