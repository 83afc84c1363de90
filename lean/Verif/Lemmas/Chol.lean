import Mathlib.Analysis.Matrix.LDL
import Mathlib.LinearAlgebra.Matrix.Block
import Verif.Model.Linalg

/-!
# Existence and uniqueness of Cholesky factors
-/

namespace Verif
open Verif.Model Matrix

variable {d : ℕ}

theorem IsCholFactor.blockTriangular {L : Mat d d} (h : IsCholFactor L) : BlockTriangular L OrderDual.toDual :=
  fun i j hij => h.1 i j (OrderDual.toDual_lt_toDual.mp hij)

theorem IsCholFactor.det {L : Mat d d} (h : IsCholFactor L) : L.det = ∏ i, L i i :=
  det_of_isLowerTriangular L (IsCholFactor.blockTriangular h)

theorem IsCholFactor.det_pos {L : Mat d d} (h : IsCholFactor L) : 0 < L.det := by
  rw [IsCholFactor.det h]
  exact Finset.prod_pos fun i _ => h.2 i

/-- A positive definite matrix has a Cholesky factor. -/
theorem exists_cholesky {P : Mat d d} (hP : P.PosDef) : ∃ L : Mat d d, IsCholFactor L ∧ L * Lᵀ = P := by
  classical
  set A := LDL.lowerInv hP with hA
  have hinv : Invertible A := LDL.invertibleLowerInv hP
  have hAtri : BlockTriangular A OrderDual.toDual := fun i j hij =>
    LDL.lowerInv_triangular hP (OrderDual.toDual_lt_toDual.mp hij)
  have hLtri : BlockTriangular A⁻¹ OrderDual.toDual := blockTriangular_inv_of_blockTriangular hAtri
  have hdet : A⁻¹.det ≠ 0 := by
    rw [det_nonsing_inv]
    exact ((isUnit_det_of_invertible A).ringInverse).ne_zero
  have hdiag : ∀ i, A⁻¹ i i ≠ 0 := by
    rw [det_of_isLowerTriangular _ hLtri, Finset.prod_ne_zero_iff] at hdet
    exact fun i => hdet i (Finset.mem_univ i)
  have hD : (LDL.diag hP).PosDef := by
    rw [LDL.diag_eq_lowerInv_conj]
    exact hP.mul_mul_conjTranspose_same (B := A) (by
      intro v w h
      have := congrArg (· ᵥ* A⁻¹) h
      simpa [vecMul_vecMul] using this)
  have hpos : ∀ i, 0 < LDL.diagEntries hP i := by
    intro i
    have := hD.diag_pos (i := i)
    simpa [LDL.diag] using this
  have hsq := LDL.lower_conj_diag hP
  rw [LDL.lower, LDL.diag, conjTranspose_eq_transpose_of_trivial] at hsq
  let s : Fin d → ℝ := fun j => SignType.sign (A⁻¹ j j) * Real.sqrt (LDL.diagEntries hP j)
  have hs : ∀ j, s j * s j = LDL.diagEntries hP j := by
    intro j
    have h1 : ((SignType.sign (A⁻¹ j j) : ℝ)) * (SignType.sign (A⁻¹ j j) : ℝ) = 1 := by
      rcases lt_or_gt_of_ne (hdiag j) with h | h
      · simp [sign_neg h]
      · simp [sign_pos h]
    calc s j * s j = ((SignType.sign (A⁻¹ j j) : ℝ) * (SignType.sign (A⁻¹ j j) : ℝ)) *
          (Real.sqrt (LDL.diagEntries hP j) * Real.sqrt (LDL.diagEntries hP j)) := by simp only [s]; ring
      _ = _ := by rw [h1, Real.mul_self_sqrt (hpos j).le, one_mul]
  refine ⟨A⁻¹ * diagonal s, ⟨fun i j hij => ?_, fun i => ?_⟩, ?_⟩
  · rw [mul_diagonal, hLtri (OrderDual.toDual_lt_toDual.mpr hij), zero_mul]
  · rw [mul_diagonal]
    have : A⁻¹ i i * s i = |A⁻¹ i i| * Real.sqrt (LDL.diagEntries hP i) := by
      simp only [s]
      rw [← mul_assoc, self_mul_sign]
    rw [this]
    exact mul_pos (abs_pos.mpr (hdiag i)) (Real.sqrt_pos.mpr (hpos i))
  · rw [transpose_mul, diagonal_transpose, Matrix.mul_assoc, ← Matrix.mul_assoc (diagonal s), diagonal_mul_diagonal,
      ← Matrix.mul_assoc]
    simp only [hs]
    exact hsq

theorem cholesky_spec {P : Mat d d} (hP : P.PosDef) :
    IsCholFactor (cholesky P) ∧ cholesky P * (cholesky P)ᵀ = P := by
  have h := exists_cholesky hP
  rw [cholesky, dif_pos h]
  exact h.choose_spec

theorem cholesky_det_pos {P : Mat d d} (hP : P.PosDef) : 0 < (cholesky P).det :=
  IsCholFactor.det_pos (cholesky_spec hP).1

/-- Cholesky factors are unique. -/
theorem cholFactor_unique {L M : Mat d d} (hL : IsCholFactor L) (hM : IsCholFactor M) (h : L * Lᵀ = M * Mᵀ) :
    L = M := by
  have hLu : IsUnit L.det := (IsCholFactor.det_pos hL).ne'.isUnit
  have hMu : IsUnit M.det := (IsCholFactor.det_pos hM).ne'.isUnit
  have hiL : Invertible L := invertibleOfIsUnitDet L hLu
  have hiM : Invertible M := invertibleOfIsUnitDet M hMu
  obtain ⟨D, hD⟩ : ∃ D, D = M⁻¹ * L := ⟨_, rfl⟩
  have hDtri : BlockTriangular D OrderDual.toDual := hD ▸
    (blockTriangular_inv_of_blockTriangular (IsCholFactor.blockTriangular hM)).mul (IsCholFactor.blockTriangular hL)
  have hLD : L = M * D := by rw [hD, ← Matrix.mul_assoc, mul_nonsing_inv _ hMu, Matrix.one_mul]
  have hDD : D * Dᵀ = 1 := by
    have h1 : M * (D * Dᵀ) * Mᵀ = M * Mᵀ := by
      rw [← h]
      conv_rhs => rw [hLD]
      rw [transpose_mul]
      simp only [Matrix.mul_assoc]
    have h2 := congrArg (fun Z => M⁻¹ * Z * Mᵀ⁻¹) h1
    have hMt : IsUnit Mᵀ.det := by rwa [det_transpose]
    rw [Matrix.mul_assoc M, ← Matrix.mul_assoc M⁻¹ M, nonsing_inv_mul _ hMu, Matrix.one_mul, Matrix.mul_assoc _ Mᵀ,
      mul_nonsing_inv _ hMt, Matrix.mul_one, ← Matrix.mul_assoc M⁻¹, nonsing_inv_mul _ hMu, Matrix.one_mul,
      mul_nonsing_inv _ hMt] at h2
    exact h2
  have hiD : Invertible D := invertibleOfRightInverse _ _ hDD
  have hDinv : D⁻¹ = Dᵀ := inv_eq_right_inv hDD
  have hDtri' : BlockTriangular Dᵀ OrderDual.toDual := hDinv ▸ blockTriangular_inv_of_blockTriangular hDtri
  have hdiag : ∀ i j, i ≠ j → D i j = 0 := by
    intro i j hij
    rcases lt_or_gt_of_ne hij with hlt | hgt
    · exact hDtri (OrderDual.toDual_lt_toDual.mpr hlt)
    · exact hDtri' (i := j) (j := i) (OrderDual.toDual_lt_toDual.mpr hgt)
  have hDd : D = diagonal fun i => D i i := by
    ext i j
    by_cases hij : i = j
    · subst hij; simp
    · rw [diagonal_apply_ne _ hij, hdiag i j hij]
  have hsq : ∀ i, D i i * D i i = 1 := by
    intro i
    have := congrFun (congrFun hDD i) i
    rw [hDd, diagonal_transpose, diagonal_mul_diagonal, diagonal_apply_eq, one_apply_eq] at this
    exact this
  have hLi : ∀ i, L i i = M i i * D i i := by
    intro i
    have := congrFun (congrFun hLD i) i
    conv at this => rhs; rw [hDd]
    rwa [mul_diagonal] at this
  have hone : ∀ i, D i i = 1 := by
    intro i
    have hp : 0 < D i i := by
      have := hL.2 i
      rw [hLi i] at this
      exact (pos_iff_pos_of_mul_pos this).mp (hM.2 i)
    nlinarith [hsq i]
  rw [hLD, hDd]
  simp only [hone, diagonal_one, Matrix.mul_one]

theorem cholesky_unique {P L : Mat d d} (hL : IsCholFactor L) (h : L * Lᵀ = P) : cholesky P = L := by
  have hex : ∃ L : Mat d d, IsCholFactor L ∧ L * Lᵀ = P := ⟨L, hL, h⟩
  have hs : IsCholFactor (cholesky P) ∧ cholesky P * (cholesky P)ᵀ = P := by
    rw [cholesky, dif_pos hex]
    exact hex.choose_spec
  exact cholFactor_unique hs.1 hL (hs.2.trans h.symm)

theorem cholesky_smul_one {r : ℝ} (hr : 0 < r) :
    cholesky (r • (1 : Mat d d)) = Real.sqrt r • (1 : Mat d d) := by
  refine cholesky_unique ⟨fun i j hij => by simp [one_apply_ne hij.ne], fun i => by simp [hr]⟩ ?_
  rw [transpose_smul, transpose_one, smul_mul_smul_comm, Real.mul_self_sqrt hr.le, Matrix.one_mul]

end Verif
