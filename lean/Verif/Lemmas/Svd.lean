import Verif.Lemmas.Marginal
import Verif.Spec.Svd
import Mathlib.Analysis.SpecialFunctions.ContinuousFunctionalCalculus.Rpow.Basic
import Mathlib.Analysis.Matrix.Order

/-!
# `make_proposal`: the proposal parameters from a singular value decomposition
-/

namespace Verif
open Verif.Model Verif.Spec Matrix MeasureTheory
open scoped ENNReal

variable {d : ℕ}

section
open scoped MatrixOrder Matrix.Norms.L2Operator

theorem posSemidef_sq_inj {A B : Mat d d} (hA : A.PosSemidef) (hB : B.PosSemidef) (h : A * A = B * B) : A = B :=
  (CFC.sq_eq_sq_iff A B (nonneg_iff_posSemidef.mpr hA) (nonneg_iff_posSemidef.mpr hB)).1 (by rw [sq, sq, h])

end

/-- Matrix with eigenvectors `U` and eigenvalues `f`. -/
def conjD (U : Mat d d) (f : Vec d) : Mat d d := U * diagonal f * Uᵀ

section conjD
variable {U : Mat d d} (hU : U * Uᵀ = 1)

include hU in
theorem orth_left : Uᵀ * U = 1 := mul_eq_one_comm.mp hU

include hU in
theorem conjD_mul (f g : Vec d) : conjD U f * conjD U g = conjD U (f * g) := by
  unfold conjD
  calc U * diagonal f * Uᵀ * (U * diagonal g * Uᵀ) = U * diagonal f * (Uᵀ * U) * (diagonal g * Uᵀ) := by
        simp only [Matrix.mul_assoc]
    _ = U * (diagonal f * diagonal g) * Uᵀ := by rw [orth_left hU, Matrix.mul_one]; simp only [Matrix.mul_assoc]
    _ = _ := by rw [diagonal_mul_diagonal']; rfl

theorem conjD_add (f g : Vec d) : conjD U f + conjD U g = conjD U (f + g) := by
  unfold conjD
  rw [← Matrix.add_mul, ← Matrix.mul_add, diagonal_add]; rfl

theorem conjD_sub (f g : Vec d) : conjD U f - conjD U g = conjD U (f - g) := by
  unfold conjD
  rw [← Matrix.sub_mul, ← Matrix.mul_sub, diagonal_sub]; rfl

theorem conjD_smul (r : ℝ) (f : Vec d) : r • conjD U f = conjD U (r • f) := by
  unfold conjD
  rw [diagonal_smul, mul_smul_comm, smul_mul_assoc]

include hU in
theorem conjD_one : conjD U (fun _ => 1) = 1 := by
  unfold conjD
  rw [diagonal_one, Matrix.mul_one, hU]

include hU in
theorem conjD_const (r : ℝ) : conjD U (fun _ => r) = r • 1 := by
  rw [← conjD_one hU, conjD_smul]
  congr 1
  funext j
  simp

include hU in
theorem conjD_inv {f : Vec d} (hf : ∀ j, f j ≠ 0) : (conjD U f)⁻¹ = conjD U (fun j => (f j)⁻¹) := by
  refine inv_eq_right_inv ?_
  rw [conjD_mul hU, ← conjD_one hU]
  congr 1
  funext j
  exact mul_inv_cancel₀ (hf j)

theorem conjD_posSemidef {f : Vec d} (hf : ∀ j, 0 ≤ f j) : (conjD U f).PosSemidef := by
  have := (PosSemidef.diagonal (n := Fin d) (d := f) hf).mul_mul_conjTranspose_same U
  rwa [conjTranspose_eq_transpose_of_trivial] at this

include hU in
theorem conjD_posDef {f : Vec d} (hf : ∀ j, 0 < f j) : (conjD U f).PosDef := by
  refine (conjD_posSemidef fun j => (hf j).le).posDef_iff_isUnit.mpr ?_
  refine IsUnit.of_mul_eq_one (conjD U fun j => (f j)⁻¹) ?_
  rw [conjD_mul hU, ← conjD_one hU]
  congr 1
  funext j
  exact mul_inv_cancel₀ (hf j).ne'

include hU in
theorem conjD_diag (f : Vec d) : Uᵀ * conjD U f * U = diagonal f := by
  unfold conjD
  calc Uᵀ * (U * diagonal f * Uᵀ) * U = (Uᵀ * U) * diagonal f * (Uᵀ * U) := by simp only [Matrix.mul_assoc]
    _ = _ := by rw [orth_left hU, Matrix.one_mul, Matrix.mul_one]

include hU in
theorem conjD_nonneg_iff {f : Vec d} : (conjD U f).PosSemidef ↔ ∀ j, 0 ≤ f j := by
  refine ⟨fun h => ?_, conjD_posSemidef⟩
  have := h.conjTranspose_mul_mul_same U
  rw [conjTranspose_eq_transpose_of_trivial, conjD_diag hU] at this
  exact posSemidef_diagonal_iff.mp this

end conjD

/-- The singular value decomposition of a positive definite matrix is its eigendecomposition. -/
theorem IsSvd.posDef {Q U V : Mat d d} {Γ : Vec d} (h : IsSvd Q U Γ V) (hQ : Q.PosDef) :
    V = Uᵀ ∧ (∀ j, 0 < Γ j) ∧ Q = conjD U Γ := by
  have hV : Vᵀ * V = 1 := orth_left h.V_orth
  have hQT : Qᵀ = Vᵀ * diagonal Γ * Uᵀ := by
    rw [h.eq, transpose_mul, transpose_mul, diagonal_transpose, Matrix.mul_assoc]
  have hsq : Q * Q = conjD U Γ * conjD U Γ := by
    nth_rewrite 2 [← PosDef.transpose_eq hQ]
    rw [hQT, conjD_mul h.U_orth]
    nth_rewrite 1 [h.eq]
    calc U * diagonal Γ * V * (Vᵀ * diagonal Γ * Uᵀ) = U * diagonal Γ * (V * Vᵀ) * (diagonal Γ * Uᵀ) := by
          simp only [Matrix.mul_assoc]
      _ = U * (diagonal Γ * diagonal Γ) * Uᵀ := by rw [h.V_orth, Matrix.mul_one]; simp only [Matrix.mul_assoc]
      _ = _ := by rw [diagonal_mul_diagonal']; rfl
  have hQe : Q = conjD U Γ := posSemidef_sq_inj hQ.posSemidef (conjD_posSemidef h.nonneg) hsq
  have hpos : ∀ j, 0 < Γ j := by
    have h1 := hQ.conjTranspose_mul_mul_same (B := U) (mulVec_injective_of_isUnit
      (IsUnit.of_mul_eq_one _ h.U_orth))
    rw [conjTranspose_eq_transpose_of_trivial, hQe, conjD_diag h.U_orth] at h1
    exact posDef_diagonal_iff.mp h1
  refine ⟨?_, hpos, hQe⟩
  have e1 : U * diagonal Γ * V = U * diagonal Γ * Uᵀ := by rw [← h.eq]; exact hQe
  have hd : IsUnit (U * diagonal Γ) := by
    refine IsUnit.mul (IsUnit.of_mul_eq_one _ h.U_orth) ?_
    refine IsUnit.of_mul_eq_one (diagonal fun j => (Γ j)⁻¹) ?_
    rw [diagonal_mul_diagonal, ← diagonal_one]
    congr 1
    funext j
    exact mul_inv_cancel₀ (hpos j).ne'
  exact hd.mul_left_cancel e1

/-- Every positive definite matrix has a singular value decomposition. -/
theorem exists_svd {Q : Mat d d} (hQ : Q.PosDef) : ∃ s : SvdOut d, IsSvd Q s.U s.Gamma s.U_t := by
  have hs := hQ.1.spectral_theorem
  refine ⟨⟨hQ.1.eigenvectorUnitary, hQ.1.eigenvalues, (hQ.1.eigenvectorUnitary : Mat d d)ᵀ⟩, ?_, ?_, ?_, ?_⟩
  · exact (mem_unitaryGroup_iff.mp hQ.1.eigenvectorUnitary.2)
  · show (hQ.1.eigenvectorUnitary : Mat d d)ᵀ * (hQ.1.eigenvectorUnitary : Mat d d)ᵀᵀ = 1
    rw [transpose_transpose]
    exact (mem_unitaryGroup_iff'.mp hQ.1.eigenvectorUnitary.2)
  · exact fun j => (hQ.eigenvalues_pos j).le
  · exact hs

section params
variable {Q : Mat d d} (hQ : Q.PosDef) {s : SvdOut d} (hs : IsSvd Q s.U s.Gamma s.U_t) {ell : ℝ} (hell : 0 < ell)

include hQ hs hell in
theorem svd_pos : ∀ j, 0 < s.Gamma j + ell / 2 := fun j => by
  have := (IsSvd.posDef hs hQ).2.1 j
  positivity

include hQ hs hell in
theorem svd_gain : isoGain (ell / 2) Q = conjD s.U (fun j => s.Gamma j * (1 / (s.Gamma j + ell / 2))) := by
  obtain ⟨-, -, h3⟩ := IsSvd.posDef hs hQ
  have hp := svd_pos hQ hs hell
  rw [isoGain, h3, ← conjD_const hs.U_orth, conjD_add, conjD_inv hs.U_orth (f := s.Gamma + fun _ => ell / 2) fun j => (hp j).ne', conjD_mul hs.U_orth]
  congr 1
  funext j
  simp

include hQ hs hell in
theorem svd_K : (get_proposal_params ell s).K_1 * (get_proposal_params ell s).K_2 = isoGain (ell / 2) Q := by
  obtain ⟨h1, -, -⟩ := IsSvd.posDef hs hQ
  rw [svd_gain hQ hs hell, conjD, Matrix.mul_assoc]
  show s.U * _ = s.U * _
  congr 1
  ext i j
  rw [diagonal_mul, ← h1]
  rfl

include hQ hs hell in
theorem svd_K_inv : (get_proposal_params ell s).K_inv * isoGain (ell / 2) Q = 1 := by
  obtain ⟨h1, h2, -⟩ := IsSvd.posDef hs hQ
  have hp := svd_pos hQ hs hell
  have : (get_proposal_params ell s).K_inv = conjD s.U (fun j => (s.Gamma j * (1 / (s.Gamma j + ell / 2)))⁻¹) := by
    rw [conjD, Matrix.mul_assoc]
    show s.U * _ = s.U * _
    congr 1
    ext i j
    rw [diagonal_mul, ← h1, Matrix.of_apply, div_eq_mul_inv, mul_comm]
  rw [this, svd_gain hQ hs hell, conjD_mul hs.U_orth, ← conjD_one hs.U_orth]
  congr 1
  funext j
  have a := h2 j
  have b := hp j
  exact inv_mul_cancel₀ (by positivity)

include hQ hs hell in
theorem svd_post : isoPost (ell / 2) Q = conjD s.U (fun j => s.Gamma j * (ell / 2) / (s.Gamma j + ell / 2)) := by
  obtain ⟨-, -, h3⟩ := IsSvd.posDef hs hQ
  have hp := svd_pos hQ hs hell
  rw [isoPost, svd_gain hQ hs hell]
  nth_rewrite 1 [h3]
  nth_rewrite 1 [h3]
  rw [conjD_mul hs.U_orth, conjD_sub]
  congr 1
  funext j
  simp only [Pi.sub_apply, Pi.mul_apply]
  rw [eq_div_iff (hp j).ne', sub_mul, mul_right_comm _ (s.Gamma j), mul_assoc _ _ (s.Gamma j + ell / 2), one_div, inv_mul_cancel₀ (hp j).ne']
  ring

include hQ hs hell in
theorem svd_post_gain : isoPost (ell / 2) Q = (ell / 2) • isoGain (ell / 2) Q := by
  rw [svd_post hQ hs hell, svd_gain hQ hs hell, conjD_smul]
  congr 1
  funext j
  simp only [Pi.smul_apply, smul_eq_mul]
  ring

include hQ hs hell in
theorem svd_post_posDef : (isoPost (ell / 2) Q).PosDef := by
  obtain ⟨-, h2, -⟩ := IsSvd.posDef hs hQ
  rw [svd_post hQ hs hell]
  refine conjD_posDef hs.U_orth fun j => ?_
  have a := h2 j
  positivity

include hQ hs hell in
theorem svd_temp (hfl : AtLeast 1e-15 (isoPost (ell / 2) Q)) (j : Fin d) :
    max (s.Gamma j - s.Gamma j ^ 2 * (1 / (s.Gamma j + ell / 2))) stableZero =
      s.Gamma j * (ell / 2) / (s.Gamma j + ell / 2) := by
  have hp := svd_pos hQ hs hell
  rw [AtLeast, svd_post hQ hs hell, ← conjD_const hs.U_orth, conjD_sub, conjD_nonneg_iff hs.U_orth] at hfl
  have e : s.Gamma j - s.Gamma j ^ 2 * (1 / (s.Gamma j + ell / 2)) = s.Gamma j * (ell / 2) / (s.Gamma j + ell / 2) := by
    rw [eq_div_iff (hp j).ne', sub_mul, mul_assoc, one_div, inv_mul_cancel₀ (hp j).ne']
    ring
  have h := hfl j
  simp only [Pi.sub_apply] at h
  rw [e, max_eq_left]
  rw [stableZero]
  linarith

include hQ hs hell in
theorem svd_chol (hfl : AtLeast 1e-15 (isoPost (ell / 2) Q)) :
    (get_proposal_params ell s).chol * (get_proposal_params ell s).cholᵀ = isoPost (ell / 2) Q := by
  have ht := svd_temp hQ hs hell hfl
  obtain ⟨-, h2, -⟩ := IsSvd.posDef hs hQ
  have e : (get_proposal_params ell s).chol = s.U * diagonal (fun j => Real.sqrt (s.Gamma j * (ell / 2) / (s.Gamma j + ell / 2))) := by
    ext i j
    rw [mul_diagonal, ← ht]
    rfl
  rw [e, svd_post hQ hs hell, transpose_mul, diagonal_transpose, conjD]
  calc s.U * diagonal (fun j => Real.sqrt (s.Gamma j * (ell / 2) / (s.Gamma j + ell / 2))) *
        (diagonal (fun j => Real.sqrt (s.Gamma j * (ell / 2) / (s.Gamma j + ell / 2))) * s.Uᵀ)
      = s.U * (diagonal (fun j => Real.sqrt (s.Gamma j * (ell / 2) / (s.Gamma j + ell / 2))) *
        diagonal (fun j => Real.sqrt (s.Gamma j * (ell / 2) / (s.Gamma j + ell / 2)))) * s.Uᵀ := by
        simp only [Matrix.mul_assoc]
    _ = _ := by
        rw [diagonal_mul_diagonal]
        congr 3
        funext j
        have a := h2 j
        exact Real.mul_self_sqrt (by positivity)

include hQ hs hell in
theorem svd_chol_inv (hfl : AtLeast 1e-15 (isoPost (ell / 2) Q)) :
    (get_proposal_params ell s).chol_invᵀ * (get_proposal_params ell s).chol_inv =
      diagonal (fun j => (s.Gamma j * (ell / 2) / (s.Gamma j + ell / 2))⁻¹) := by
  have ht := svd_temp hQ hs hell hfl
  obtain ⟨-, h2, -⟩ := IsSvd.posDef hs hQ
  have e : (get_proposal_params ell s).chol_inv = s.U * diagonal (fun j => (Real.sqrt (s.Gamma j * (ell / 2) / (s.Gamma j + ell / 2)))⁻¹) := by
    ext i j
    rw [mul_diagonal, ← ht]
    exact div_eq_mul_inv _ _
  rw [e, transpose_mul, diagonal_transpose]
  calc diagonal (fun j => (Real.sqrt (s.Gamma j * (ell / 2) / (s.Gamma j + ell / 2)))⁻¹) * s.Uᵀ *
        (s.U * diagonal (fun j => (Real.sqrt (s.Gamma j * (ell / 2) / (s.Gamma j + ell / 2)))⁻¹))
      = diagonal (fun j => (Real.sqrt (s.Gamma j * (ell / 2) / (s.Gamma j + ell / 2)))⁻¹) * (s.Uᵀ * s.U) *
        diagonal (fun j => (Real.sqrt (s.Gamma j * (ell / 2) / (s.Gamma j + ell / 2)))⁻¹) := by
        simp only [Matrix.mul_assoc]
    _ = _ := by
        rw [orth_left hs.U_orth, Matrix.mul_one, diagonal_mul_diagonal]
        congr 1
        funext j
        have a := h2 j
        rw [← mul_inv, Real.mul_self_sqrt (by positivity)]

end params

end Verif
