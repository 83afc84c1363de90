import Verif.Lemmas.MatGauss
import Verif.Lemmas.IsoGauss
import Verif.Model.TpCsmc
import Verif.Model.MultiTry

/-!
# `get_log_H`: marginalisation of the auxiliary variable
-/

namespace Verif
open Verif.Model Verif.Spec Matrix MeasureTheory
open scoped ENNReal

variable {d N : ℕ}

/-- Bilinear form of a matrix. -/
def bl {a b : ℕ} (M : Mat a b) (v : Vec a) (w : Vec b) : ℝ := v ⬝ᵥ (M *ᵥ w)

theorem bl_def {a b : ℕ} (M : Mat a b) (v : Vec a) (w : Vec b) : v ⬝ᵥ (M *ᵥ w) = bl M v w := rfl

section bl
variable {a b c : ℕ} (M M' : Mat a b)

theorem bl_add_left (v v' : Vec a) (w : Vec b) : bl M (v + v') w = bl M v w + bl M v' w := add_dotProduct _ _ _
theorem bl_sub_left (v v' : Vec a) (w : Vec b) : bl M (v - v') w = bl M v w - bl M v' w := sub_dotProduct _ _ _
theorem bl_smul_left (r : ℝ) (v : Vec a) (w : Vec b) : bl M (r • v) w = r * bl M v w := smul_dotProduct _ _ _
theorem bl_add_right (v : Vec a) (w w' : Vec b) : bl M v (w + w') = bl M v w + bl M v w' := by
  simp only [bl, mulVec_add, dotProduct_add]
theorem bl_sub_right (v : Vec a) (w w' : Vec b) : bl M v (w - w') = bl M v w - bl M v w' := by
  simp only [bl, mulVec_sub, dotProduct_sub]
theorem bl_smul_right (r : ℝ) (v : Vec a) (w : Vec b) : bl M v (r • w) = r * bl M v w := by
  simp only [bl, mulVec_smul, dotProduct_smul, smul_eq_mul]
theorem bl_add (v : Vec a) (w : Vec b) : bl (M + M') v w = bl M v w + bl M' v w := by
  simp only [bl, add_mulVec, dotProduct_add]
theorem bl_sub (v : Vec a) (w : Vec b) : bl (M - M') v w = bl M v w - bl M' v w := by
  simp only [bl, sub_mulVec, dotProduct_sub]
theorem bl_smul (r : ℝ) (v : Vec a) (w : Vec b) : bl (r • M) v w = r * bl M v w := by
  simp only [bl, smul_mulVec, dotProduct_smul, smul_eq_mul]
theorem bl_mulVec_right (A : Mat b c) (v : Vec a) (w : Vec c) : bl M v (A *ᵥ w) = bl (M * A) v w := by
  simp only [bl, mulVec_mulVec]
theorem bl_mulVec_left (A : Mat a c) (v : Vec c) (w : Vec b) : bl M (A *ᵥ v) w = bl (Aᵀ * M) v w := by
  simp only [bl, dot_mulVec_left, mulVec_mulVec]
theorem bl_comm {M : Mat d d} (h : Mᵀ = M) (v w : Vec d) : bl M v w = bl M w v := by
  rw [bl, dot_mulVec_comm, h, bl]
theorem bl_sum_left {ι : Type} (s : Finset ι) (v : ι → Vec a) (w : Vec b) :
    bl M (∑ i ∈ s, v i) w = ∑ i ∈ s, bl M (v i) w := sum_dotProduct _ _ _

end bl

section general
variable {C E : Mat d d} (hC : C.PosDef) (hE : E.PosDef) (B : Mat d d)

/-- Posterior precision of the auxiliary variable given `N` particles. -/
noncomputable def margPrec (N : ℕ) (C E B : Mat d d) : Mat d d := E⁻¹ + (N : ℝ) • (Bᵀ * C⁻¹ * B)

include hC hE in
theorem margPrec_posDef : (margPrec N C E B).PosDef := by
  refine hE.inv.add_posSemidef ?_
  have := PosDef.conj hC.inv Bᵀ
  rw [transpose_transpose] at this
  exact this.smul (Nat.cast_nonneg N)

/-- The matrix `G` of `get_log_H`. -/
noncomputable def margG (N : ℕ) (C E B : Mat d d) : Mat d d := C⁻¹ * B * (margPrec N C E B)⁻¹ * (Bᵀ * C⁻¹)

include hC hE in
theorem margG_symm : (margG N C E B)ᵀ = margG N C E B := by
  unfold margG
  rw [transpose_mul, transpose_mul, transpose_mul, transpose_mul, transpose_transpose,
    PosDef.inv_transpose (margPrec_posDef hC hE B), PosDef.inv_transpose hC]
  simp only [Matrix.mul_assoc]

include hC hE in
theorem margG_code : C⁻¹ * B * E * solvePos (E + (N : ℝ) • ((C⁻¹ * B * E)ᵀ * B * E)) (C⁻¹ * B * E)ᵀ = margG N C E B := by
  have hEi := PosDef.isUnit_det hE
  have h1 : E + (N : ℝ) • ((C⁻¹ * B * E)ᵀ * B * E) = E * margPrec N C E B * E := by
    rw [margPrec, Matrix.mul_add, Matrix.add_mul, mul_nonsing_inv _ hEi, Matrix.one_mul, transpose_mul, transpose_mul,
      PosDef.inv_transpose hC, PosDef.transpose_eq hE, mul_smul_comm, smul_mul_assoc]
    simp only [Matrix.mul_assoc]
  rw [h1, solvePos, Matrix.mul_inv_rev, Matrix.mul_inv_rev, transpose_mul, transpose_mul, PosDef.inv_transpose hC,
    PosDef.transpose_eq hE, margG]
  calc C⁻¹ * B * E * (E⁻¹ * ((margPrec N C E B)⁻¹ * E⁻¹) * (E * (Bᵀ * C⁻¹)))
      = C⁻¹ * B * (E * E⁻¹) * (margPrec N C E B)⁻¹ * ((E⁻¹ * E) * (Bᵀ * C⁻¹)) := by simp only [Matrix.mul_assoc]
    _ = _ := by rw [mul_nonsing_inv _ hEi, nonsing_inv_mul _ hEi, Matrix.mul_one, Matrix.one_mul]

/-- The part of the log-density that does not depend on which particle is conditioned on. -/
noncomputable def margConst (C E B : Mat d d) (xs ds : Fin (N + 1) → Vec d) : ℝ :=
  -(∑ i, bl C⁻¹ (xs i - ds i) (xs i - ds i) - bl (margG N C E B) (∑ i, (xs i - ds i)) (∑ i, (xs i - ds i))) / 2 -
    N * (d / 2 * Real.log (2 * Real.pi) + Real.log C.det / 2) - Real.log E.det / 2 +
    Real.log ((margPrec N C E B)⁻¹).det / 2

theorem meanP_sub (xs ds : Fin (N + 1) → Vec d) :
    ((N : ℝ) + 1) • (meanP xs - meanP ds) = ∑ i, (xs i - ds i) := by
  have hN : ((N : ℝ) + 1) ≠ 0 := by positivity
  funext j
  simp only [meanP, Pi.smul_apply, Pi.sub_apply, smul_eq_mul, Finset.sum_apply, Finset.sum_sub_distrib]
  field_simp

include hC hE in
theorem get_log_H_eq (xs ds : Fin (N + 1) → Vec d) (x dd phi : Vec d) :
    get_log_H xs ds B C⁻¹ E x dd phi = (-0.5 : ℝ) *
      (-(bl C⁻¹ (x - dd) (x - dd) + bl (margG N C E B) (x - dd) (x - dd)) +
        N * (bl C⁻¹ (B *ᵥ (x + phi)) (B *ᵥ (x + phi)) - N * bl (margG N C E B) (B *ᵥ (x + phi)) (B *ᵥ (x + phi))) +
        2 * (bl (margG N C E B) (∑ i, (xs i - ds i)) (x - dd) - (bl C⁻¹ (∑ i, (xs i - ds i)) (B *ᵥ (x + phi)) -
          N * bl (margG N C E B) (∑ i, (xs i - ds i)) (B *ᵥ (x + phi)))) +
        2 * (bl C⁻¹ (x - dd) (B *ᵥ (x + phi)) - N * bl (margG N C E B) (x - dd) (B *ᵥ (x + phi)))) := by
  have h := margG_code (N := N) hC hE B
  have hs := meanP_sub xs ds
  have e3 : 2 * ((N : ℝ) + 1) * ((meanP xs - meanP ds) ⬝ᵥ (margG N C E B *ᵥ (x - dd) -
      (C⁻¹ - (N : ℝ) • margG N C E B) *ᵥ (B *ᵥ (x + phi)))) = 2 * ((∑ i, (xs i - ds i)) ⬝ᵥ (margG N C E B *ᵥ (x - dd) -
      (C⁻¹ - (N : ℝ) • margG N C E B) *ᵥ (B *ᵥ (x + phi)))) := by
    rw [← hs, smul_dotProduct, smul_eq_mul]; ring
  simp only [get_log_H, h]
  rw [e3]
  simp only [dotProduct_sub, bl_def, bl_add, bl_sub, bl_smul]

include hC hE in
/-- Completing the square in the auxiliary variable. -/
theorem marg_pointwise (xs ds : Fin (N + 1) → Vec d) (b : Fin (N + 1)) (phi u : Vec d) :
    normalLogpdf (xs b + phi) E u + ∑ i, normalLogpdf (ds i + B *ᵥ u) C (xs i) - normalLogpdf (ds b + B *ᵥ u) C (xs b) =
      margConst C E B xs ds + get_log_H xs ds B C⁻¹ E (xs b) (ds b) phi +
        normalLogpdf (xs b + phi + ((margPrec N C E B)⁻¹ * (Bᵀ * C⁻¹)) *ᵥ (∑ i, (xs i - ds i) - (xs b - ds b) -
          (N : ℝ) • B *ᵥ (xs b + phi))) (margPrec N C E B)⁻¹ u := by
  have hΛ := margPrec_posDef (N := N) hC hE B
  have hGs := margG_symm (N := N) hC hE B
  have hCs := PosDef.inv_transpose hC
  rw [get_log_H_eq hC hE]
  obtain ⟨v, hv⟩ : ∃ v, v = xs b + phi := ⟨_, rfl⟩
  obtain ⟨y, hy⟩ : ∃ y : Fin (N + 1) → Vec d, y = fun i => xs i - ds i := ⟨_, rfl⟩
  obtain ⟨S, hS⟩ : ∃ S, S = ∑ i, (xs i - ds i) := ⟨_, rfl⟩
  obtain ⟨e, he⟩ : ∃ e, e = u - v := ⟨_, rfl⟩
  have hu : u = v + e := by rw [he]; abel
  have hyi : ∀ i, xs i - ds i = y i := fun i => by rw [hy]
  have hyS : ∑ i, y i = S := by rw [hS, hy]
  obtain ⟨s, hs⟩ : ∃ s, s = S - y b - (N : ℝ) • B *ᵥ v := ⟨_, rfl⟩
  have q1 : ∀ i, xs i - (ds i + B *ᵥ u) = y i - B *ᵥ u := fun i => by rw [← hyi]; abel
  have q2 : u - (v + ((margPrec N C E B)⁻¹ * (Bᵀ * C⁻¹)) *ᵥ s) = e - ((margPrec N C E B)⁻¹ * (Bᵀ * C⁻¹)) *ᵥ s := by
    rw [he]; abel
  have hinv : ((margPrec N C E B)⁻¹)⁻¹ = margPrec N C E B := nonsing_inv_nonsing_inv _ (PosDef.isUnit_det hΛ)
  -- the quadratic form of the posterior
  have q3 : bl (margPrec N C E B) (e - ((margPrec N C E B)⁻¹ * (Bᵀ * C⁻¹)) *ᵥ s)
      (e - ((margPrec N C E B)⁻¹ * (Bᵀ * C⁻¹)) *ᵥ s) =
      bl E⁻¹ e e + N * bl C⁻¹ (B *ᵥ e) (B *ᵥ e) - 2 * bl C⁻¹ s (B *ᵥ e) + bl (margG N C E B) s s := by
    have a1 : bl (margPrec N C E B) e e = bl E⁻¹ e e + N * bl C⁻¹ (B *ᵥ e) (B *ᵥ e) := by
      rw [margPrec, bl_add, bl_smul, bl_mulVec_left, bl_mulVec_right]
    have a2 : bl (margPrec N C E B) e (((margPrec N C E B)⁻¹ * (Bᵀ * C⁻¹)) *ᵥ s) = bl C⁻¹ s (B *ᵥ e) := by
      rw [bl_mulVec_right, ← Matrix.mul_assoc, mul_nonsing_inv _ (PosDef.isUnit_det hΛ), Matrix.one_mul, bl_comm hCs s,
        bl_mulVec_left]
    have a3 : bl (margPrec N C E B) (((margPrec N C E B)⁻¹ * (Bᵀ * C⁻¹)) *ᵥ s)
        (((margPrec N C E B)⁻¹ * (Bᵀ * C⁻¹)) *ᵥ s) = bl (margG N C E B) s s := by
      rw [bl_mulVec_right, ← Matrix.mul_assoc, mul_nonsing_inv _ (PosDef.isUnit_det hΛ), Matrix.one_mul, bl_mulVec_left,
        transpose_mul, transpose_mul, transpose_transpose, hCs, PosDef.inv_transpose hΛ, margG]
    rw [bl_sub_left, bl_sub_right, bl_sub_right, bl_comm (PosDef.transpose_eq hΛ) (((margPrec N C E B)⁻¹ * (Bᵀ * C⁻¹)) *ᵥ s) e, a1, a2, a3]
    ring
  have q4 : ∑ i, bl C⁻¹ (y i - B *ᵥ u) (y i - B *ᵥ u) = ∑ i, bl C⁻¹ (y i) (y i) - 2 * bl C⁻¹ S (B *ᵥ u) +
      (N + 1) * bl C⁻¹ (B *ᵥ u) (B *ᵥ u) := by
    have : ∀ i, bl C⁻¹ (y i - B *ᵥ u) (y i - B *ᵥ u) = bl C⁻¹ (y i) (y i) - 2 * bl C⁻¹ (y i) (B *ᵥ u) +
        bl C⁻¹ (B *ᵥ u) (B *ᵥ u) := fun i => by
      rw [bl_sub_left, bl_sub_right, bl_sub_right, bl_comm hCs (B *ᵥ u) (y i)]; ring
    have hyS' : bl C⁻¹ S (B *ᵥ u) = ∑ i, bl C⁻¹ (y i) (B *ᵥ u) := by rw [← hyS, bl_sum_left]
    simp only [this, Finset.sum_add_distrib, Finset.sum_sub_distrib, ← Finset.mul_sum, hyS', Finset.sum_const,
      Finset.card_univ, Fintype.card_fin, nsmul_eq_mul]
    push_cast
    ring
  have q5 : bl C⁻¹ (y b - B *ᵥ u) (y b - B *ᵥ u) = bl C⁻¹ (y b) (y b) - 2 * bl C⁻¹ (y b) (B *ᵥ u) +
        bl C⁻¹ (B *ᵥ u) (B *ᵥ u) := by
    rw [bl_sub_left, bl_sub_right, bl_sub_right, bl_comm hCs (B *ᵥ u) (y b)]; ring
  have q6 : bl (margG N C E B) s s = bl (margG N C E B) S S + bl (margG N C E B) (y b) (y b) +
      N * (N * bl (margG N C E B) (B *ᵥ v) (B *ᵥ v)) - 2 * bl (margG N C E B) S (y b) -
      2 * (N * bl (margG N C E B) S (B *ᵥ v)) + 2 * (N * bl (margG N C E B) (y b) (B *ᵥ v)) := by
    rw [hs]
    simp only [bl_sub_left, bl_sub_right, bl_smul_left, bl_smul_right]
    rw [bl_comm hGs (y b) S, bl_comm hGs (B *ᵥ v) S, bl_comm hGs (B *ᵥ v) (y b)]
    ring
  have q7 : bl C⁻¹ s (B *ᵥ e) = bl C⁻¹ S (B *ᵥ e) - bl C⁻¹ (y b) (B *ᵥ e) - N * bl C⁻¹ (B *ᵥ v) (B *ᵥ e) := by
    rw [hs]
    simp only [bl_sub_left, bl_smul_left]
  have q8 : ∀ w, bl C⁻¹ w (B *ᵥ u) = bl C⁻¹ w (B *ᵥ v) + bl C⁻¹ w (B *ᵥ e) := fun w => by
    rw [hu, mulVec_add, bl_add_right]
  have q9 : bl C⁻¹ (B *ᵥ u) (B *ᵥ u) = bl C⁻¹ (B *ᵥ v) (B *ᵥ v) + 2 * bl C⁻¹ (B *ᵥ v) (B *ᵥ e) +
      bl C⁻¹ (B *ᵥ e) (B *ᵥ e) := by
    rw [hu, mulVec_add]
    simp only [bl_add_left, bl_add_right]
    rw [bl_comm hCs (B *ᵥ e) (B *ᵥ v)]
    ring
  rw [← hv, hyi b, ← hS, ← hs]
  simp only [normalLogpdf, margConst, q1, q2, hinv, ← he, bl_def, hyi, hyS]
  rw [q3]
  have hsum : ∑ i, (-bl C⁻¹ (y i - B *ᵥ u) (y i - B *ᵥ u) / 2 - (d : ℝ) / 2 * Real.log (2 * Real.pi) -
      Real.log C.det / 2) = -(∑ i, bl C⁻¹ (y i - B *ᵥ u) (y i - B *ᵥ u)) / 2 -
        ((N : ℝ) + 1) * ((d : ℝ) / 2 * Real.log (2 * Real.pi) + Real.log C.det / 2) := by
    simp only [Finset.sum_sub_distrib, ← Finset.sum_div, Finset.sum_neg_distrib, Finset.sum_const, Finset.card_univ,
      Fintype.card_fin, nsmul_eq_mul]
    push_cast
    ring
  rw [hsum, q4, q5, q6, q7, q9, q8, q8]
  ring

include hC hE in
/-- The marginal density of the other particles given particle `b`. -/
theorem marg_integral (xs ds : Fin (N + 1) → Vec d) (b : Fin (N + 1)) (phi : Vec d) :
    ∫⁻ u, ENNReal.ofReal (Real.exp (normalLogpdf (xs b + phi) E u + ∑ i, normalLogpdf (ds i + B *ᵥ u) C (xs i) -
        normalLogpdf (ds b + B *ᵥ u) C (xs b))) =
      ENNReal.ofReal (Real.exp (margConst C E B xs ds + get_log_H xs ds B C⁻¹ E (xs b) (ds b) phi)) := by
  simp only [marg_pointwise hC hE B]
  simp only [ofReal_exp_add (margConst C E B xs ds + _)]
  rw [lintegral_const_mul _ (measurable_expR (measurable_normalLogpdf' _ _)),
    normalLogpdf_norm (margPrec_posDef hC hE B).inv, mul_one]

end general

/-! ## The specialised formulas -/

theorem inv_smul_one {c : ℝ} (hc : c ≠ 0) : (c • (1 : Mat d d))⁻¹ = c⁻¹ • 1 := by
  refine inv_eq_right_inv ?_
  rw [smul_mul_smul_comm, mul_inv_cancel₀ hc, one_smul, Matrix.one_mul]

theorem inv_smul_mat {c : ℝ} (hc : c ≠ 0) {K : Mat d d} (hK : IsUnit K.det) : (c • K)⁻¹ = c⁻¹ • K⁻¹ := by
  refine inv_eq_right_inv ?_
  rw [smul_mul_smul_comm, mul_inv_cancel₀ hc, one_smul, mul_nonsing_inv _ hK]

section bis
variable {K : Mat d d} (hK : K.PosDef) {l : ℝ} (hl : 0 < l)

include hK in
theorem one_add_posDef : (1 + (N : ℝ) • K).PosDef :=
  PosDef.one.add_posSemidef (hK.posSemidef.smul (Nat.cast_nonneg N))

include hK hl in
theorem margG_bis : margG N ((l / 2) • K) ((l / 2) • 1) K = (1 / l) • ((2 : ℝ) • solvePos (1 + (N : ℝ) • K) (1 : Mat d d)) := by
  have h2 : l / 2 ≠ 0 := by positivity
  have hu := PosDef.isUnit_det hK
  have hΛ : margPrec N ((l / 2) • K) ((l / 2) • 1) K = (l / 2)⁻¹ • (1 + (N : ℝ) • K) := by
    rw [margPrec, inv_smul_one h2, inv_smul_mat h2 hu, PosDef.transpose_eq hK, mul_smul_comm, smul_mul_assoc,
      mul_nonsing_inv _ hu, Matrix.one_mul, smul_add, smul_comm]
  have hb := PosDef.isUnit_det (one_add_posDef (N := N) hK)
  have k1 : (l / 2)⁻¹ • K⁻¹ * K = (l / 2)⁻¹ • (1 : Mat d d) := by rw [smul_mul_assoc, nonsing_inv_mul _ hu]
  have k2 : K * ((l / 2)⁻¹ • K⁻¹) = (l / 2)⁻¹ • (1 : Mat d d) := by rw [mul_smul_comm, mul_nonsing_inv _ hu]
  rw [margG, hΛ, inv_smul_mat (inv_ne_zero h2) hb, inv_smul_mat h2 hu, PosDef.transpose_eq hK, k1, k2, inv_inv,
    smul_mul_smul_comm, smul_mul_smul_comm, Matrix.one_mul,
    Matrix.mul_one, solvePos, Matrix.mul_one, smul_smul]
  congr 1
  field_simp

include hK hl in
theorem margG_bis_mul : (((l / 2) • K)⁻¹ - (N : ℝ) • margG N ((l / 2) • K) ((l / 2) • 1) K) * K =
    margG N ((l / 2) • K) ((l / 2) • 1) K := by
  have h2 : l / 2 ≠ 0 := by positivity
  have hu := PosDef.isUnit_det hK
  have hb := PosDef.isUnit_det (one_add_posDef (N := N) hK)
  rw [margG_bis hK hl, inv_smul_mat h2 hu, solvePos, Matrix.mul_one, Matrix.sub_mul, smul_mul_assoc,
    nonsing_inv_mul _ hu, smul_smul, smul_smul, smul_mul_assoc]
  have h1 : (1 + (N : ℝ) • K)⁻¹ + (N : ℝ) • ((1 + (N : ℝ) • K)⁻¹ * K) = 1 := by
    rw [← mul_smul_comm]
    nth_rewrite 1 [← Matrix.mul_one (1 + (N : ℝ) • K)⁻¹]
    rw [← Matrix.mul_add, nonsing_inv_mul _ hb]
  have e1 : (l / 2)⁻¹ = 1 / l * 2 := by field_simp
  have e2 : (N : ℝ) • (1 + (N : ℝ) • K)⁻¹ * K = 1 - (1 + (N : ℝ) • K)⁻¹ := by
    rw [smul_mul_assoc]; exact eq_sub_of_add_eq' h1
  rw [smul_mul_assoc] at e2
  have e3 : ((N : ℝ) * (1 / l) * 2) = (1 / l * 2) * N := by ring
  rw [e1, e3, ← smul_smul (1 / l * 2) (N : ℝ), e2, smul_sub, smul_smul (1 / l) 2]
  abel

include hK hl in
/-- `get_log_H_bis` is `get_log_H` for `B = K`, `C = l/2 K`, `E = l/2 I`. -/
theorem get_log_H_bis_eq (xs ds : Fin (N + 1) → Vec d) (x dd phi : Vec d) :
    get_log_H_bis xs ds K K⁻¹ l x dd phi =
      get_log_H xs ds K ((l / 2) • K)⁻¹ ((l / 2) • 1) x dd phi := by
  have h2 : l / 2 ≠ 0 := by positivity
  have hl2 : 0 < l / 2 := by positivity
  have hu := PosDef.isUnit_det hK
  have hG := margG_bis (N := N) hK hl
  have hm := margG_bis_mul (N := N) hK hl
  have hc : ∀ a w, bl ((l / 2) • K)⁻¹ a (K *ᵥ w) - N * bl (margG N ((l / 2) • K) ((l / 2) • 1) K) a (K *ᵥ w) =
      bl (margG N ((l / 2) • K) ((l / 2) • 1) K) a w := fun a w => by
    rw [← bl_smul, ← bl_sub, bl_mulVec_right, hm]
  rw [get_log_H_eq (hK.smul hl2) (posDef_smul_one hl2)]
  simp only [hc]
  have hs := meanP_sub xs ds
  simp only [get_log_H_bis, ← hG, bl_def]
  have e3 : -2 * ((N : ℝ) + 1) * bl (margG N ((l / 2) • K) ((l / 2) • 1) K) (meanP xs - meanP ds) (dd + phi) =
      -2 * bl (margG N ((l / 2) • K) ((l / 2) • 1) K) (∑ i, (xs i - ds i)) (dd + phi) := by
    rw [← hs, bl_smul_left]; ring
  rw [e3]
  have e4 : (2 / l) • K⁻¹ = ((l / 2) • K)⁻¹ := by
    rw [inv_smul_mat h2 hu]; congr 1; field_simp
  rw [e4, bl_add]
  have e5 : dd + phi = x + phi - (x - dd) := by abel
  rw [e5, bl_sub_right _ _ (x + phi) (x - dd)]
  ring

end bis

/-- Trajectory as one vector. -/
def flat {T : ℕ} (x : Traj T d) : Vec (T * d) := fun k => x (finProdFinEquiv.symm k).1 (finProdFinEquiv.symm k).2

theorem flat_dot {T : ℕ} (x y : Traj T d) : flat x ⬝ᵥ flat y = dot2 x y := by
  unfold flat dot2 dotProduct
  rw [← Fintype.sum_prod_type' (f := fun t j => x t j * y t j), ← finProdFinEquiv.symm.sum_comp]

section iso
variable {e : ℝ} (he : 0 < e)

include he in
theorem margG_iso : margG N (e • (1 : Mat d d)) (e • 1) 1 = (1 / (e + N * e)) • 1 := by
  have h := margG_bis (N := N) (K := (1 : Mat d d)) (l := 2 * e) PosDef.one (by positivity)
  have e1 : 2 * e / 2 = e := by ring
  rw [e1] at h
  have hN : (1 + (N : ℝ)) ≠ 0 := by positivity
  have h1 : (1 : Mat d d) + (N : ℝ) • (1 : Mat d d) = (1 + (N : ℝ)) • 1 := by rw [add_smul, one_smul]
  rw [h, solvePos, Matrix.mul_one, h1, inv_smul_one hN, smul_smul, smul_smul]
  congr 1
  field_simp

include he in
/-- `get_log_H` in the isotropic case. -/
theorem get_log_H_iso (xs : Fin (N + 1) → Vec d) (x phi : Vec d) :
    get_log_H xs (fun _ => 0) 1 (e • (1 : Mat d d))⁻¹ (e • 1) x 0 phi = (-0.5 : ℝ) *
      (-(1 / e + 1 / (e + N * e)) * (x ⬝ᵥ x) + N * (1 / e - N * (1 / (e + N * e))) * ((x + phi) ⬝ᵥ (x + phi)) +
        2 * ((N : ℝ) + 1) * (meanP xs ⬝ᵥ ((1 / (e + N * e)) • x - (1 / e - N * (1 / (e + N * e))) • (x + phi))) +
        2 * (1 / e - N * (1 / (e + N * e))) * (x ⬝ᵥ (x + phi))) := by
  have hs := meanP_sub xs (fun _ => (0 : Vec d))
  have hz : meanP (fun _ : Fin (N + 1) => (0 : Vec d)) = 0 := by funext j; simp [meanP]
  rw [hz] at hs
  have hb : ∀ (c : ℝ) (v w : Vec d), bl (c • (1 : Mat d d)) v w = c * (v ⬝ᵥ w) := fun c v w => by
    rw [bl_smul, bl, one_mulVec]
  rw [get_log_H_eq (posDef_smul_one he) (posDef_smul_one he), margG_iso he, inv_smul_one he.ne', ← hs]
  simp only [hb, one_mulVec, sub_zero, smul_dotProduct, dotProduct_sub, dotProduct_smul, smul_eq_mul]
  ring

include he in
/-- `mala.get_log_H` is `get_log_H` for `B = I`, `C = E = e I`. -/
theorem mala_log_H_general {T : ℕ} (xs : Fin (N + 1) → Traj T d) (x phi : Traj T d) :
    mala_log_H xs (1 / e) e x phi =
      get_log_H (fun i => flat (xs i)) (fun _ => 0) 1 (e • (1 : Mat (T * d) (T * d)))⁻¹ (e • 1) (flat x) 0 (flat phi) := by
  have h1 : meanP (fun i => flat (xs i)) = flat (fun t j => (∑ i, xs i t j) / ((N : ℝ) + 1)) := rfl
  have h2 : flat x + flat phi = flat (fun t j => x t j + phi t j) := rfl
  have h3 : ∀ (a b : ℝ) (u v : Traj T d), a • flat u - b • flat v = flat (fun t j => a * u t j - b * v t j) :=
    fun _ _ _ _ => rfl
  rw [get_log_H_iso he, h1, h2, h3]
  simp only [flat_dot]
  rfl

include he in
/-- The weight of Particle-MALA is `get_log_H` for `B = I`, `C = E = e I`. -/
theorem lHphi_eq (xs : Fin (N + 1) → Vec d) (x g : Vec d) (v δ : ℝ) :
    lHphi N g v δ (2 * e) (meanP xs) x = v +
      get_log_H xs (fun _ => 0) 1 (e • (1 : Mat d d))⁻¹ (e • 1) x 0 (fun j => 0.5 * δ * g j) := by
  rw [get_log_H_iso he]
  obtain ⟨p, hp⟩ : ∃ p : Vec d, p = fun j => 0.5 * δ * g j := ⟨_, rfl⟩
  have h1 : ∑ j, (meanP xs j - x j) * p j = meanP xs ⬝ᵥ p - x ⬝ᵥ p := by
    rw [← sub_dotProduct]; rfl
  have h2 : sumSq p = p ⬝ᵥ p := by simp [sumSq, dotProduct, sq]
  have h3 : ∀ j, 0.5 * δ * g j = p j := fun j => by rw [hp]
  simp only [lHphi, h3, h1, h2]
  simp only [dotProduct_add, add_dotProduct, dotProduct_sub, dotProduct_smul, smul_eq_mul]
  rw [dotProduct_comm p x]
  have hN : ((N : ℝ) + 1) ≠ 0 := by positivity
  have hN2 : (e + (N : ℝ) * e) ≠ 0 := by positivity
  have := he.ne'
  field_simp
  ring

end iso

end Verif
