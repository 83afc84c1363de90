import Mathlib.MeasureTheory.Measure.Lebesgue.Basic
import Mathlib.LinearAlgebra.Matrix.ToLin
import Verif.Spec.Gauss
import Verif.Lemmas.PiMeasure
import Verif.Spec.Invariance

/-!
# Densities of products and of Gaussians
-/

open scoped ENNReal
open MeasureTheory ProbabilityTheory Matrix

namespace Verif
open Verif.Spec

section prod
variable {X : Type} [MeasurableSpace X]

theorem measurable_expR {β : Type} [MeasurableSpace β] {g : β → ℝ} (hg : Measurable g) :
    Measurable fun x => ENNReal.ofReal (Real.exp (g x)) :=
  ENNReal.measurable_ofReal.comp (Real.measurable_exp.comp hg)

theorem measurable_expR_mul {β : Type} [MeasurableSpace β] {g : β → ℝ} {F : β → ℝ≥0∞} (hg : Measurable g)
    (hF : Measurable F) : Measurable fun x => ENNReal.ofReal (Real.exp (g x)) * F x :=
  (measurable_expR hg).mul hF

theorem ofReal_exp_add (a b : ℝ) : ENNReal.ofReal (Real.exp (a + b)) =
    ENNReal.ofReal (Real.exp a) * ENNReal.ofReal (Real.exp b) := by
  rw [Real.exp_add, ENNReal.ofReal_mul (Real.exp_pos a).le]

theorem lintegral_withDensity_exp {μ : Measure X} {g : X → ℝ} (hg : Measurable g) {F : X → ℝ≥0∞}
    (hF : Measurable F) : ∫⁻ x, F x ∂(μ.withDensity fun x => ENNReal.ofReal (Real.exp (g x))) =
      ∫⁻ x, ENNReal.ofReal (Real.exp (g x)) * F x ∂μ := by
  rw [lintegral_withDensity_eq_lintegral_mul _ (measurable_expR hg) hF]
  rfl

theorem measurable_sum_apply {n : ℕ} {g : Fin n → X → ℝ} (hg : ∀ i, Measurable (g i)) :
    Measurable fun x : Fin n → X => ∑ i, g i (x i) :=
  Finset.measurable_fun_sum _ fun i _ => (hg i).comp (measurable_pi_apply i)

/-- A product of measures with densities has the product density. -/
theorem lintegral_pi_withDensity {n : ℕ} (μ : Fin n → Measure X) [∀ i, SigmaFinite (μ i)]
    (g : Fin n → X → ℝ) (hg : ∀ i, Measurable (g i)) (F : (Fin n → X) → ℝ≥0∞) (hF : Measurable F) :
    ∫⁻ x, F x ∂(Measure.pi fun i => (μ i).withDensity fun x => ENNReal.ofReal (Real.exp (g i x))) =
      ∫⁻ x, ENNReal.ofReal (Real.exp (∑ i, g i (x i))) * F x ∂Measure.pi μ := by
  induction n with
  | zero =>
    rw [Measure.pi_of_empty (x := fun i : Fin 0 => i.elim0),
      Measure.pi_of_empty (x := fun i : Fin 0 => i.elim0), lintegral_dirac' _ hF, lintegral_dirac']
    · simp
    · exact (measurable_expR (measurable_sum_apply hg)).mul hF
  | succ n ih =>
    have hmf : Measurable fun x : Fin (n + 1) → X => ENNReal.ofReal (Real.exp (∑ i, g i (x i))) * F x :=
      (measurable_expR (measurable_sum_apply hg)).mul hF
    rw [lintegral_pi_snoc _ F hF, lintegral_pi_snoc _ _ hmf]
    have h1 : ∀ x' : Fin n → X, ∫⁻ xl, F (snocA x' xl) ∂((μ (Fin.last n)).withDensity fun x =>
        ENNReal.ofReal (Real.exp (g (Fin.last n) x))) =
        ∫⁻ xl, ENNReal.ofReal (Real.exp (g (Fin.last n) xl)) * F (snocA x' xl) ∂(μ (Fin.last n)) :=
      fun x' => lintegral_withDensity_exp (hg _) (by fun_prop)
    simp only [h1]
    have hm : Measurable fun p : (Fin n → X) × X =>
        ENNReal.ofReal (Real.exp (g (Fin.last n) p.2)) * F (snocA p.1 p.2) :=
      (measurable_expR ((hg _).comp measurable_snd)).mul (by fun_prop)
    have : ∀ i, SigmaFinite (initA μ i) := fun i => inferInstanceAs (SigmaFinite (μ i.castSucc))
    have h2 := ih (initA μ) (initA g) (fun i => hg i.castSucc)
      (fun x' => ∫⁻ xl, ENNReal.ofReal (Real.exp (g (Fin.last n) xl)) * F (snocA x' xl) ∂(μ (Fin.last n)))
      (hm.lintegral_prod_right')
    refine Eq.trans ?_ (h2.trans ?_)
    · rfl
    · refine lintegral_congr fun x' => ?_
      have hm' : Measurable fun xl =>
          ENNReal.ofReal (Real.exp (g (Fin.last n) xl)) * F (snocA x' xl) :=
        (measurable_expR (hg _)).mul (by fun_prop)
      rw [← lintegral_const_mul _ hm']
      refine lintegral_congr fun xl => ?_
      rw [Fin.sum_univ_castSucc, ofReal_exp_add, mul_assoc]
      simp only [snocA_castSucc, snocA_last]
      rfl

theorem pi_withDensity {n : ℕ} (μ : Fin n → Measure X) [∀ i, SigmaFinite (μ i)]
    (g : Fin n → X → ℝ) (hg : ∀ i, Measurable (g i)) :
    (Measure.pi fun i => (μ i).withDensity fun x => ENNReal.ofReal (Real.exp (g i x))) =
      (Measure.pi μ).withDensity fun x => ENNReal.ofReal (Real.exp (∑ i, g i (x i))) := by
  refine Measure.ext_of_lintegral _ fun F hF => ?_
  rw [lintegral_pi_withDensity μ g hg F hF, lintegral_withDensity_exp (measurable_sum_apply hg) hF]

end prod

section gauss
variable {d : ℕ}

@[fun_prop] theorem measurable_dotProduct {β : Type} [MeasurableSpace β] {a b : β → Fin d → ℝ} (ha : Measurable a)
    (hb : Measurable b) : Measurable fun x => a x ⬝ᵥ b x := by
  unfold dotProduct
  refine Finset.measurable_fun_sum _ fun i _ => ?_
  exact ((measurable_pi_apply i).comp ha).mul ((measurable_pi_apply i).comp hb)

@[fun_prop] theorem measurable_mulVec {β : Type} [MeasurableSpace β] (M : Matrix (Fin k) (Fin d) ℝ) {b : β → Fin d → ℝ}
    (hb : Measurable b) : Measurable fun x => M *ᵥ b x := by
  refine measurable_pi_lambda _ fun i => ?_
  unfold mulVec
  exact measurable_dotProduct measurable_const hb

theorem measurable_stdLogpdf : Measurable (stdLogpdf (d := d)) := by
  unfold stdLogpdf
  fun_prop

/-- The standard Gaussian has density `exp stdLogpdf`. -/
theorem gaussM_eq : gaussM d = volume.withDensity fun z => ENNReal.ofReal (Real.exp (stdLogpdf z)) := by
  have h1 : gaussianReal 0 1 = (volume : Measure ℝ).withDensity fun x =>
      ENNReal.ofReal (Real.exp (-(x * x) / 2 - 1 / 2 * Real.log (2 * Real.pi))) := by
    rw [gaussianReal_of_var_ne_zero _ one_ne_zero]
    congr 1
    funext x
    rw [gaussianPDF, gaussianPDFReal, Real.exp_sub]
    congr 1
    have : Real.exp (1 / 2 * Real.log (2 * Real.pi)) = √(2 * Real.pi) := by
      rw [Real.sqrt_eq_rpow, Real.rpow_def_of_pos (by positivity), mul_comm]
    rw [this]
    simp only [NNReal.coe_one, mul_one, sub_zero]
    rw [pow_two, div_eq_inv_mul (Real.exp _)]
  have h2 := pi_withDensity (fun _ : Fin d => (volume : Measure ℝ))
    (fun _ x => -(x * x) / 2 - 1 / 2 * Real.log (2 * Real.pi)) (fun _ => by fun_prop)
  rw [gaussM, h1, h2]
  have h3 : ∀ z : Fin d → ℝ, ∑ i, (-(z i * z i) / 2 - 1 / 2 * Real.log (2 * Real.pi)) = stdLogpdf z := by
    intro z
    rw [stdLogpdf, Finset.sum_sub_distrib, ← Finset.sum_div, Finset.sum_neg_distrib, Finset.sum_const,
      Finset.card_univ, Fintype.card_fin, dotProduct]
    simp only [nsmul_eq_mul]
    ring
  simp only [h3]
  rfl

theorem lintegral_gaussM (F : (Fin d → ℝ) → ℝ≥0∞) (hF : Measurable F) :
    ∫⁻ z, F z ∂gaussM d = ∫⁻ z, ENNReal.ofReal (Real.exp (stdLogpdf z)) * F z := by
  rw [gaussM_eq, lintegral_withDensity_exp measurable_stdLogpdf hF]

/-- Change of variables `x = m + L z`. -/
theorem lintegral_affine {L : Matrix (Fin d) (Fin d) ℝ} (hL : L.det ≠ 0) (m : Fin d → ℝ)
    (F : (Fin d → ℝ) → ℝ≥0∞) (hF : Measurable F) :
    ∫⁻ z, F (m + L *ᵥ z) = ENNReal.ofReal (Real.exp (-Real.log |L.det|)) * ∫⁻ x, F x := by
  have h1 := Real.map_matrix_volume_pi_eq_smul_volume_pi hL
  have h2 : ∫⁻ z, F (m + L *ᵥ z) = ∫⁻ y, F (m + y) ∂(Measure.map (toLin' L) volume) := by
    rw [lintegral_map (by fun_prop) (by
      exact (toLin' L).continuous_on_pi.measurable)]
    rfl
  rw [h2, h1, lintegral_smul_measure, lintegral_add_left_eq_self F m, smul_eq_mul, Real.exp_neg,
    Real.exp_log (abs_pos.mpr hL), abs_inv]

/-- Law of `m + L z` for a standard Gaussian `z`. -/
theorem gauss_affine {L : Matrix (Fin d) (Fin d) ℝ} (hL : L.det ≠ 0) (m : Fin d → ℝ)
    (F : (Fin d → ℝ) → ℝ≥0∞) (hF : Measurable F) :
    ∫⁻ z, F (m + L *ᵥ z) ∂gaussM d =
      ∫⁻ x, ENNReal.ofReal (Real.exp (stdLogpdf (L⁻¹ *ᵥ (x - m)) - Real.log |L.det|)) * F x := by
  rw [lintegral_gaussM _ (by fun_prop)]
  have hinv : ∀ z, L⁻¹ *ᵥ (m + L *ᵥ z - m) = z := by
    intro z
    rw [add_sub_cancel_left, mulVec_mulVec, nonsing_inv_mul _ (isUnit_iff_ne_zero.mpr hL), one_mulVec]
  have hm : Measurable fun x => ENNReal.ofReal (Real.exp (stdLogpdf (L⁻¹ *ᵥ (x - m)))) * F x :=
    (measurable_expR (measurable_stdLogpdf.comp (by fun_prop))).mul hF
  have h1 := lintegral_affine hL m _ hm
  simp only [hinv] at h1
  rw [h1, ← lintegral_const_mul _ hm]
  refine lintegral_congr fun x => ?_
  rw [sub_eq_add_neg (stdLogpdf _), ofReal_exp_add]
  ring

theorem gaussM_map_affine {L : Matrix (Fin d) (Fin d) ℝ} (hL : L.det ≠ 0) (m : Fin d → ℝ) :
    (gaussM d).map (fun z => m + L *ᵥ z) = volume.withDensity fun x =>
      ENNReal.ofReal (Real.exp (stdLogpdf (L⁻¹ *ᵥ (x - m)) - Real.log |L.det|)) := by
  refine Measure.ext_of_lintegral _ fun F hF => ?_
  rw [lintegral_map hF (by fun_prop), gauss_affine hL m F hF, lintegral_withDensity_exp _ hF]
  exact (measurable_stdLogpdf.comp (by fun_prop)).sub measurable_const

/-- Independent Gaussian particles `m i + L z i`. -/
theorem gauss_samplesFrom {k : ℕ} {L : Matrix (Fin d) (Fin d) ℝ} (hL : L.det ≠ 0)
    (m : Fin k → Fin d → ℝ) (key : Key) :
    SamplesFrom volume (fun i x => stdLogpdf (L⁻¹ *ᵥ (x - m i)) - Real.log |L.det|)
      ((normal2 key k d : Ex _) >>= fun e => pure (fun i => m i + L *ᵥ e i)) where
  meas i := (measurable_stdLogpdf.comp (by fun_prop)).sub measurable_const
  norm i := by
    have := gauss_affine hL (m i) (fun _ => 1) measurable_const
    simpa using this.symm
  law f hf := by
    have : ∀ i, SigmaFinite ((gaussM d).map (fun z => m i + L *ᵥ z)) := fun i => by
      rw [gaussM_map_affine hL]; infer_instance
    have h := Measure.pi_map_pi (μ := fun _ : Fin k => gaussM d) (f := fun i z => m i + L *ᵥ z)
      (fun i => by fun_prop)
    simp only [gaussM_map_affine hL] at h
    rw [← h, lintegral_map hf (by fun_prop)]
    rfl

end gauss

end Verif
