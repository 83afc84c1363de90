import Verif.Lemmas.ImhMany
import Mathlib.Probability.Moments.Variance
import Mathlib.Probability.Distributions.Gaussian.Real

/-!
# Mean and total variance of a Gaussian density, and the marginals of the linear Gaussian posterior
-/

open scoped ENNReal
open MeasureTheory ProbabilityTheory

namespace Verif
open Verif.Model Verif.Spec Verif.Props Matrix

variable {n d : ℕ}

/-- The covariances of the smoother do not depend on the means. -/
theorem smoothing_scan_cov {k : ℕ} (inp inp' : Fin k → BwdInp d) (h : ∀ t, (inp t).P = (inp' t).P ∧ (inp t).F = (inp' t).F ∧ (inp t).Q = (inp' t).Q)
    (c c' : Vec d × Mat d d) (hc : c.2 = c'.2) (t : Fin k) : ((scan smoothingBody c inp).2 t).2 = ((scan smoothingBody c' inp').2 t).2 := by
  induction k generalizing c c' with
  | zero => exact t.elim0
  | succ k ih =>
    have h0 : (smoothingBody c (inp 0)).2.2 = (smoothingBody c' (inp' 0)).2.2 := by
      simp only [smoothingBody, hc, (h 0).1, (h 0).2.1, (h 0).2.2]
    rw [scan_succ, scan_succ]
    refine Fin.cases h0 (fun j => ?_) t
    exact ih (tailA inp) (tailA inp') (fun t => h t.succ) _ _ h0 j

theorem smoothing_cov_indep (ms ms' : Fin (n + 1) → Vec d) (Ps : Fin (n + 1) → Mat d d) (Fs Qs : Fin n → Mat d d) (bs bs' : Fin n → Vec d) :
    (smoothing ms Ps Fs Qs bs).2 = (smoothing ms' Ps Fs Qs bs').2 := by
  simp only [smoothing]
  congr 2
  funext t
  refine smoothing_scan_cov _ _ (fun t => ?_) _ _ ?_ _
  · exact ⟨rfl, rfl, rfl⟩
  · rfl

theorem memLp_gauss : MemLp (fun x : ℝ => x) 2 (gaussianReal 0 1) := by
  have := memLp_id_gaussianReal (μ := 0) (v := 1) 2
  exact this

theorem memLp_coord (a : ℝ) (k : Fin d) : MemLp (fun z : Vec d => a * z k) 2 (gaussM d) :=
  (memLp_gauss.const_mul a).comp_measurePreserving (measurePreserving_eval (fun _ : Fin d => gaussianReal 0 1) k)

theorem memLp_row (a : Vec d) : MemLp (fun z : Vec d => ∑ k, a k * z k) 2 (gaussM d) :=
  memLp_finsetSum _ fun k _ => memLp_coord (a k) k

theorem mean_row (a : Vec d) : ∫ z : Vec d, ∑ k, a k * z k ∂gaussM d = 0 := by
  rw [integral_finsetSum _ fun k _ => (memLp_coord (a k) k).integrable (by norm_num)]
  refine Finset.sum_eq_zero fun k _ => ?_
  have h := integral_map (μ := gaussM d) (φ := fun z => z k) (measurable_pi_apply k).aemeasurable (f := fun x : ℝ => a k * x) (by fun_prop)
  rw [show (gaussM d).map (fun z => z k) = gaussianReal 0 1 from (measurePreserving_eval (fun _ : Fin d => gaussianReal 0 1) k).map_eq,
    integral_const_mul, integral_id_gaussianReal, mul_zero] at h
  exact h.symm

theorem var_row (a : Vec d) : ∫⁻ z : Vec d, ENNReal.ofReal ((∑ k, a k * z k) ^ 2) ∂gaussM d = ENNReal.ofReal (∑ k, a k ^ 2) := by
  have hv : Var[fun z : Vec d => ∑ k, a k * z k; gaussM d] = ∑ k, a k ^ 2 := by
    have h := variance_sum_pi (ι := Fin d) (μ := fun _ => gaussianReal 0 1) (X := fun k x => a k * x) fun k => memLp_gauss.const_mul (a k)
    have e : (∑ k, fun z : Vec d => a k * z k) = fun z => ∑ k, a k * z k := by
      funext z
      simp
    rw [e] at h
    refine h.trans (Finset.sum_congr rfl fun k _ => ?_)
    have h2 := variance_const_mul (a k) (fun x : ℝ => x) (gaussianReal 0 1)
    rw [variance_fun_id_gaussianReal] at h2
    simpa using h2
  rw [← hv, ofReal_variance (memLp_row a), evariance, mean_row]
  refine lintegral_congr fun z => ?_
  rw [sub_zero, ← ofReal_norm, ← ENNReal.ofReal_pow (norm_nonneg _), Real.norm_eq_abs, sq_abs]

variable {P : Mat d d} (hP : P.PosDef) (m : Vec d)
include hP

/-- A Gaussian vector as an affine map of a standard one. -/
theorem gauss_affine_form : ∃ L : Mat d d, L * Lᵀ = P ∧ ∀ F : Vec d → ℝ≥0∞, Measurable F →
    ∫⁻ x, ENNReal.ofReal (Real.exp (normalLogpdf m P x)) * F x = ∫⁻ z, F (m + L *ᵥ z) ∂gaussM d := by
  obtain ⟨L, hL, rfl⟩ := exists_cholesky hP
  refine ⟨L, rfl, fun F hF => ?_⟩
  rw [gauss_affine (IsCholFactor.det_pos hL).ne' m F hF]
  exact lintegral_congr fun x => by rw [normalLogpdf_factor (IsCholFactor.det_pos hL).ne']

/-- The total variance of a Gaussian vector is the trace of its covariance. -/
theorem gauss_trace : ∫⁻ x, ENNReal.ofReal (Real.exp (normalLogpdf m P x)) * ENNReal.ofReal (∑ j, (x j - m j) ^ 2) = ENNReal.ofReal P.trace := by
  obtain ⟨L, rfl, h⟩ := gauss_affine_form hP m
  rw [h _ (by fun_prop)]
  have e (z : Vec d) : ENNReal.ofReal (∑ j, ((m + L *ᵥ z) j - m j) ^ 2) = ∑ j, ENNReal.ofReal ((∑ k, L j k * z k) ^ 2) := by
    rw [← ENNReal.ofReal_sum_of_nonneg fun j _ => sq_nonneg _]
    congr 1
    refine Finset.sum_congr rfl fun j _ => ?_
    rw [Pi.add_apply, add_sub_cancel_left]
    rfl
  rw [lintegral_congr e, lintegral_finsetSum _ fun j _ => by fun_prop, Finset.sum_congr rfl fun j _ => var_row (L j),
    ← ENNReal.ofReal_sum_of_nonneg (s := Finset.univ) (f := fun j => ∑ k, L j k ^ 2) fun j _ => Finset.sum_nonneg fun k _ => sq_nonneg _]
  congr 1
  simp only [Matrix.trace, Matrix.diag, Matrix.mul_apply, Matrix.transpose_apply, sq]

/-- The mean of a measure with the law of a Gaussian vector. -/
theorem gauss_mean {μ : Measure (Vec d)}
    (hμ : ∀ F : Vec d → ℝ≥0∞, Measurable F → ∫⁻ x, F x ∂μ = ∫⁻ x, ENNReal.ofReal (Real.exp (normalLogpdf m P x)) * F x) (j : Fin d) :
    ∫ x, x j ∂μ = m j := by
  obtain ⟨L, rfl, h⟩ := gauss_affine_form hP m
  have hm : Measurable fun z : Vec d => m + L *ᵥ z := by fun_prop
  have e : μ = (gaussM d).map fun z => m + L *ᵥ z := Measure.ext_of_lintegral _ fun F hF => by
    rw [hμ F hF, h F hF, lintegral_map hF hm]
  rw [e, integral_map hm.aemeasurable (measurable_pi_apply j).aestronglyMeasurable]
  show ∫ z : Vec d, (m j + ∑ k, L j k * z k) ∂gaussM d = m j
  have : IsProbabilityMeasure (gaussM d) := by unfold gaussM; infer_instance
  rw [integral_add (integrable_const _) ((memLp_row (L j)).integrable (by norm_num)), mean_row]
  simp

end Verif
