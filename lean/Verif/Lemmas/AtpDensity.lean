import Verif.Lemmas.TpCsmc

/-!
# The proposal log-density of `atp_csmc_f`
-/

open scoped ENNReal
open MeasureTheory ProbabilityTheory

namespace Verif
open Verif.Spec Verif.Model Matrix

variable {k N n d : ℕ}

/-- A program has only one continuous density. -/
theorem Spec.SamplesFrom.density_unique {q q' : Fin k → Vec d → ℝ} {P : Ex (Fin k → Vec d)}
    (h : SamplesFrom volume q P) (h' : SamplesFrom volume q' P) (i : Fin k) (hq : Continuous (q i))
    (hq' : Continuous (q' i)) : q i = q' i := by
  have hp : ∀ {q : Fin k → Vec d → ℝ}, SamplesFrom volume q P → ∀ F : Vec d → ℝ≥0∞, Measurable F →
      P (fun X => F (X i)) = ∫⁻ x, F x ∂(volume.withDensity fun x => ENNReal.ofReal (Real.exp (q i x))) := by
    intro q h F hF
    have : ∀ i, IsProbabilityMeasure (volume.withDensity fun x : Vec d => ENNReal.ofReal (Real.exp (q i x))) := fun i =>
      ⟨by rw [withDensity_apply _ MeasurableSet.univ, Measure.restrict_univ, h.norm i]⟩
    refine (h.law _ (hF.comp (measurable_pi_apply i))).trans ?_
    exact (measurePreserving_eval (fun i => volume.withDensity fun x : Vec d => ENNReal.ofReal (Real.exp (q i x))) i).lintegral_comp hF
  have hm : volume.withDensity (fun x => ENNReal.ofReal (Real.exp (q i x))) =
      volume.withDensity fun x => ENNReal.ofReal (Real.exp (q' i x)) :=
    Measure.ext_of_lintegral _ fun F hF => by rw [← hp h F hF, hp h' F hF]
  rw [withDensity_eq_iff_of_sigmaFinite (measurable_expR (h.meas i)).aemeasurable (measurable_expR (h'.meas i)).aemeasurable] at hm
  refine Continuous.ae_eq_iff_eq volume hq hq' |>.mp ?_
  filter_upwards [hm] with x hx
  rw [ENNReal.ofReal_eq_ofReal_iff (Real.exp_pos _).le (Real.exp_pos _).le] at hx
  exact Real.exp_injective hx

theorem bl_single (M : Mat d d) (i j : Fin d) : bl M (Pi.single i 1) (Pi.single j 1) = M i j := by
  simp [bl]

/-- A symmetric matrix is determined by its quadratic form. -/
theorem eq_of_quadForm {A B : Mat d d} (hA : Aᵀ = A) (hB : Bᵀ = B) (h : ∀ v : Vec d, v ⬝ᵥ (A *ᵥ v) = v ⬝ᵥ (B *ᵥ v)) :
    A = B := by
  have hs : ∀ {A : Mat d d}, Aᵀ = A → ∀ i j, (Pi.single i 1 + Pi.single j 1 : Vec d) ⬝ᵥ (A *ᵥ (Pi.single i 1 + Pi.single j 1)) =
      A i i + 2 * A i j + A j j := by
    intro A hA i j
    have hji : A j i = A i j := congrFun (congrFun hA i) j
    rw [mulVec_add, dotProduct_add, add_dotProduct, add_dotProduct]
    simp only [single_one_dotProduct, mulVec_single_one, col_apply]
    rw [hji]
    ring
  have hd : ∀ i, A i i = B i i := fun i => by
    have := h (Pi.single i 1)
    simpa using this
  ext i j
  have h1 := h (Pi.single i 1 + Pi.single j 1)
  rw [hs hA, hs hB, hd, hd] at h1
  linarith

theorem mvn_logpdf_quad (x m : Vec d) (C : Mat d d) :
    mvn_logpdf x m 0 (some C) false = -((x - m) ⬝ᵥ ((Cᵀ * C) *ᵥ (x - m))) / 2 := by
  have : (x - m) ⬝ᵥ ((Cᵀ * C) *ᵥ (x - m)) = (C *ᵥ (x - m)) ⬝ᵥ (C *ᵥ (x - m)) := by
    rw [dot_mulVec_left, mulVec_mulVec]
  rw [this]
  simp only [mvn_logpdf, logpdf_with_inv, dotProduct, Bool.false_eq_true, if_false]
  ring

/-- `mvn_logpdf` with `chol_inv = C` is a Gaussian log-density up to a constant exactly if `Cᵀ C` is the precision. -/
theorem mvn_logpdf_eq_iff {P C : Mat d d} (hP : P.PosDef) (m : Vec d) :
    (∃ c, ∀ x, c + mvn_logpdf x m 0 (some C) false = normalLogpdf m P x) ↔ Cᵀ * C = P⁻¹ := by
  constructor
  · rintro ⟨c, hc⟩
    have h0 := hc m
    simp only [mvn_logpdf_quad, normalLogpdf, sub_self, zero_dotProduct, neg_zero, zero_div, add_zero, zero_sub] at h0
    refine eq_of_quadForm (by rw [transpose_mul, transpose_transpose]) (PosDef.inv_transpose hP) fun v => ?_
    have h1 := hc (m + v)
    simp only [mvn_logpdf_quad, normalLogpdf, add_sub_cancel_left] at h1
    linarith
  · intro h
    refine ⟨-(d / 2 * Real.log (2 * Real.pi)) - Real.log P.det / 2, fun x => ?_⟩
    rw [mvn_logpdf_quad, h, normalLogpdf]
    ring

section
variable {Q : Mat d d} {s : SvdOut d} {ell : ℝ} (hQ : Q.PosDef) (hs : IsSvd Q s.U s.Gamma s.U_t) (hell : 0 < ell)

include hQ hs hell in
/-- The true precision and the one of the code. -/
theorem atp_precision_iff (hfl : AtLeast 1e-15 (isoPost (ell / 2) Q)) :
    (get_proposal_params ell s).chol_invᵀ * (get_proposal_params ell s).chol_inv = (isoPost (ell / 2) Q)⁻¹ ↔
      Q = diagonal s.Gamma := by
  obtain ⟨-, h2, h3⟩ := IsSvd.posDef hs hQ
  have hp := svd_pos hQ hs hell
  have hl : (0 : ℝ) < ell / 2 := by positivity
  have e0 : ∀ j, (s.Gamma j * (ell / 2) / (s.Gamma j + ell / 2))⁻¹ = 1 / (ell / 2) + (s.Gamma j)⁻¹ := fun j => by
    have := h2 j
    field_simp
  have hdi : (diagonal s.Gamma : Mat d d)⁻¹ = diagonal (fun j => (s.Gamma j)⁻¹) := by
    refine inv_eq_right_inv ?_
    rw [diagonal_mul_diagonal, ← diagonal_one]
    congr 1
    funext j
    exact mul_inv_cancel₀ (h2 j).ne'
  have e1 : (isoPost (ell / 2) Q)⁻¹ = (1 / (ell / 2)) • 1 + Q⁻¹ := by
    rw [svd_post hQ hs hell, conjD_inv hs.U_orth (fun j => (by
      have := h2 j
      positivity : s.Gamma j * (ell / 2) / (s.Gamma j + ell / 2) ≠ 0))]
    nth_rewrite 1 [h3]
    rw [conjD_inv hs.U_orth (fun j => (h2 j).ne'), ← conjD_const hs.U_orth, conjD_add]
    congr 1
    funext j
    exact e0 j
  have e2 : (diagonal fun j => (s.Gamma j * (ell / 2) / (s.Gamma j + ell / 2))⁻¹ : Mat d d) =
      (1 / (ell / 2)) • 1 + (diagonal s.Gamma)⁻¹ := by
    rw [hdi, smul_one_eq_diagonal, diagonal_add]
    congr 1
    funext j
    exact e0 j
  rw [svd_chol_inv hQ hs hell hfl, e1, e2, add_right_inj]
  constructor
  · intro h
    have hu : IsUnit (diagonal s.Gamma : Mat d d).det := by
      rw [det_diagonal]
      exact (Finset.prod_pos fun j _ => h2 j).ne'.isUnit
    rw [← nonsing_inv_nonsing_inv Q (PosDef.isUnit_det hQ), ← h, nonsing_inv_nonsing_inv _ hu]
  · intro h
    rw [← h]

end

theorem continuous_mvn_logpdf (m : Vec d) (C : Mat d d) : Continuous fun x => mvn_logpdf x m 0 (some C) false := by
  simp only [mvn_logpdf_quad, dotProduct, mulVec]
  fun_prop

theorem continuous_normalLogpdf (m : Vec d) (C : Mat d d) : Continuous fun x => normalLogpdf m C x := by
  simp only [normalLogpdf, dotProduct, mulVec]
  fun_prop

/-- The constant does not depend on the mean. -/
theorem mvn_shift {P C : Mat d d} (c : ℝ) (hc : ∀ x, c + mvn_logpdf x 0 0 (some C) false = normalLogpdf 0 P x)
    (m x : Vec d) : normalLogpdf m P x = c + mvn_logpdf x m 0 (some C) false := by
  have := hc (x - m)
  simp only [mvn_logpdf_quad, normalLogpdf, sub_zero] at this ⊢
  exact this.symm

end Verif
