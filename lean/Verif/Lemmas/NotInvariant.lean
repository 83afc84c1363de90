import Mathlib.Probability.Distributions.Gaussian.Real
import Mathlib.MeasureTheory.Measure.OpenPos
import Verif.Lemmas.AtpCsmc

/-!
# Selection with wrong weights: helper lemmas for non-invariance
-/

open scoped ENNReal
open MeasureTheory ProbabilityTheory Finset

namespace Verif
open Verif.Spec Verif.Model Matrix

variable {N d : ℕ}

/-! ## Weights that decrease with a function -/

theorem sum_pairs (w a : Fin (N + 1) → ℝ) :
    ∑ i, ∑ j, (w i - w j) * (a j - a i) = 2 * ((∑ i, w i) * ∑ i, a i - ((N : ℝ) + 1) * ∑ i, w i * a i) := by
  have h : ∀ i, ∑ j, (w i - w j) * (a j - a i) = w i * ∑ j, a j - ((N : ℝ) + 1) * (w i * a i) - ∑ j, w j * a j +
      (∑ j, w j) * a i := by
    intro i
    have : ∀ j, (w i - w j) * (a j - a i) = w i * a j - w i * a i - w j * a j + w j * a i := fun j => by ring
    simp only [this, sum_add_distrib, sum_sub_distrib, sum_const, card_univ, Fintype.card_fin, nsmul_eq_mul, ← mul_sum,
      ← sum_mul]
    push_cast
    ring
  simp only [h, sum_add_distrib, sum_sub_distrib, sum_const, card_univ, Fintype.card_fin, nsmul_eq_mul, ← mul_sum,
    ← sum_mul]
  push_cast
  ring

theorem pair_nonneg (a b : ℝ) : 0 ≤ (Real.exp (-a / 2) - Real.exp (-b / 2)) * (b - a) := by
  rcases le_total a b with h | h
  · exact mul_nonneg (sub_nonneg.mpr (Real.exp_le_exp.mpr (by linarith))) (sub_nonneg.mpr h)
  · exact mul_nonneg_of_nonpos_of_nonpos (sub_nonpos.mpr (Real.exp_le_exp.mpr (by linarith))) (sub_nonpos.mpr h)

theorem pair_eq_zero {a b : ℝ} (h : (Real.exp (-a / 2) - Real.exp (-b / 2)) * (b - a) = 0) : a = b := by
  rcases mul_eq_zero.mp h with h | h
  · have := Real.exp_injective (sub_eq_zero.mp h)
    linarith
  · linarith

theorem softmax_mean (a : Fin (N + 1) → ℝ) : (∑ i, Real.exp (-a i / 2)) * (∑ i, a i - ((N : ℝ) + 1) *
    ∑ i, normalizeW (fun i => -a i / 2) i * a i) =
      (∑ i, ∑ j, (Real.exp (-a i / 2) - Real.exp (-a j / 2)) * (a j - a i)) / 2 := by
  have hp := sum_exp_pos fun i => -a i / 2
  have e : (∑ i, Real.exp (-a i / 2)) * ∑ i, normalizeW (fun i => -a i / 2) i * a i = ∑ i, Real.exp (-a i / 2) * a i := by
    rw [mul_sum]
    refine sum_congr rfl fun i _ => ?_
    rw [normalize_eq]
    field_simp
  rw [sum_pairs]
  linear_combination (-((N : ℝ) + 1)) * e

/-- Weights `∝ exp(-a/2)` give a smaller mean of `a` than uniform weights. -/
theorem softmax_le (a : Fin (N + 1) → ℝ) :
    ((N : ℝ) + 1) * ∑ i, normalizeW (fun i => -a i / 2) i * a i ≤ ∑ i, a i := by
  have h := softmax_mean a
  have hp := sum_exp_pos fun i => -a i / 2
  have : 0 ≤ (∑ i, Real.exp (-a i / 2)) * (∑ i, a i - ((N : ℝ) + 1) * ∑ i, normalizeW (fun i => -a i / 2) i * a i) := by
    rw [h]
    exact div_nonneg (sum_nonneg fun i _ => sum_nonneg fun j _ => pair_nonneg _ _) (by norm_num)
  have := nonneg_of_mul_nonneg_right this hp
  linarith

/-- Equality only if `a` is constant. -/
theorem softmax_eq {a : Fin (N + 1) → ℝ}
    (h : ((N : ℝ) + 1) * ∑ i, normalizeW (fun i => -a i / 2) i * a i = ∑ i, a i) (i j : Fin (N + 1)) : a i = a j := by
  have h1 := softmax_mean a
  rw [h, sub_self, mul_zero, eq_comm, div_eq_zero_iff] at h1
  have h1 := h1.resolve_right (by norm_num)
  rw [sum_eq_zero_iff_of_nonneg fun i _ => sum_nonneg fun j _ => pair_nonneg _ _] at h1
  have h2 := h1 i (mem_univ i)
  rw [sum_eq_zero_iff_of_nonneg fun j _ => pair_nonneg _ _] at h2
  exact pair_eq_zero (h2 j (mem_univ j))

/-! ## The law of the particles -/

instance : Measure.IsOpenPosMeasure (gaussM d) := by
  have : (volume : Measure (Fin d → ℝ)) ≪ gaussM d := by
    rw [gaussM_eq]
    exact withDensity_absolutelyContinuous' (measurable_expR measurable_stdLogpdf).aemeasurable
      (Filter.Eventually.of_forall fun x => by simp [Real.exp_pos])
  exact this.isOpenPosMeasure

theorem gaussM_neg : MeasurePreserving (fun z : Vec d => -z) (gaussM d) (gaussM d) := by
  refine ⟨measurable_neg, Measure.ext_of_lintegral _ fun F hF => ?_⟩
  rw [lintegral_map hF measurable_neg, lintegral_gaussM (fun z => F (-z)) (hF.comp measurable_neg), lintegral_gaussM _ hF]
  have h := lintegral_neg_eq_self (μ := (volume : Measure (Vec d)))
    (fun z => ENNReal.ofReal (Real.exp (stdLogpdf z)) * F z)
  rw [← h]
  refine lintegral_congr fun z => ?_
  have : stdLogpdf (-z) = stdLogpdf z := by simp [stdLogpdf]
  rw [this]

theorem gaussM_pi_neg : MeasurePreserving (fun (e : Fin (N + 1) → Vec d) i => -e i)
    (Measure.pi fun _ => gaussM d) (Measure.pi fun _ => gaussM d) :=
  measurePreserving_pi _ _ fun _ => gaussM_neg

/-- Second moments are finite. -/
theorem gaussM_sq_lt_top : ∫⁻ z, ENNReal.ofReal (z ⬝ᵥ z) ∂gaussM d < ⊤ := by
  have h1 : ∀ j : Fin d, ∫⁻ z, ENNReal.ofReal (z j * z j) ∂gaussM d < ⊤ := by
    intro j
    have hme := measurePreserving_eval (fun _ : Fin d => gaussianReal 0 1) j
    have := hme.lintegral_comp (f := fun t : ℝ => ENNReal.ofReal (t * t)) (by fun_prop)
    refine (this.trans_lt ?_)
    have hi : Integrable (fun t : ℝ => t * t) (gaussianReal 0 1) := by
      have := (memLp_id_gaussianReal (μ := 0) (v := 1) 2).integrable_sq
      simpa [sq] using this
    rw [← ofReal_integral_eq_lintegral_ofReal hi (Filter.Eventually.of_forall fun t => mul_self_nonneg t)]
    exact ENNReal.ofReal_lt_top
  have e : ∀ z : Vec d, ENNReal.ofReal (z ⬝ᵥ z) = ∑ j, ENNReal.ofReal (z j * z j) := fun z => by
    rw [dotProduct, ENNReal.ofReal_sum_of_nonneg fun j _ => mul_self_nonneg _]
  simp only [e]
  rw [lintegral_finsetSum _ fun j _ => by fun_prop]
  exact ENNReal.sum_lt_top.mpr fun j _ => h1 j

/-! ## Moments of the selected particle -/

/-- Mean of `c` under the weights `∝ exp(-a/2)`. -/
noncomputable def selMean (a c : Vec d → ℝ) (e : Fin (N + 1) → Vec d) : ℝ :=
  ∑ i, normalizeW (fun i => -a (e i) / 2) i * c (e i)

theorem selMean_nonneg {a c : Vec d → ℝ} (hc : ∀ v, 0 ≤ c v) (e : Fin (N + 1) → Vec d) : 0 ≤ selMean a c e :=
  sum_nonneg fun i _ => mul_nonneg (normalize_pos _ i).le (hc _)

theorem measurable_selMean {a c : Vec d → ℝ} (ha : Measurable a) (hc : Measurable c) :
    Measurable (selMean (N := N) a c) := by
  have hw : Measurable fun e : Fin (N + 1) → Vec d => normalizeW fun i => -a (e i) / 2 :=
    measurable_normalizeW (measurable_pi_lambda _ fun i => ((ha.comp (measurable_pi_apply i)).neg).div_const 2)
  exact Finset.measurable_fun_sum _ fun i _ => ((measurable_pi_apply i).comp hw).mul (hc.comp (measurable_pi_apply i))

theorem lintegral_sum_gauss {c : Vec d → ℝ} (hc : ∀ v, 0 ≤ c v) (hm : Measurable c) :
    ∫⁻ e, ENNReal.ofReal (∑ i, c (e i)) ∂(Measure.pi fun _ : Fin (N + 1) => gaussM d) =
      ((N : ℝ≥0∞) + 1) * ∫⁻ v, ENNReal.ofReal (c v) ∂gaussM d := by
  have e : ∀ e : Fin (N + 1) → Vec d, ENNReal.ofReal (∑ i, c (e i)) = ∑ i, ENNReal.ofReal (c (e i)) := fun e =>
    ENNReal.ofReal_sum_of_nonneg fun i _ => hc _
  simp only [e]
  rw [lintegral_finsetSum _ fun i _ => (by fun_prop : Measurable fun e : Fin (N + 1) → Vec d => ENNReal.ofReal (c (e i)))]
  have h : ∀ i : Fin (N + 1), ∫⁻ e, ENNReal.ofReal (c (e i)) ∂(Measure.pi fun _ : Fin (N + 1) => gaussM d) =
      ∫⁻ v, ENNReal.ofReal (c v) ∂gaussM d := fun i =>
    (measurePreserving_eval (fun _ : Fin (N + 1) => gaussM d) i).lintegral_comp hm.ennreal_ofReal
  simp only [h, sum_const, card_univ, Fintype.card_fin, nsmul_eq_mul]
  push_cast
  rfl

/-- If the selection does not change the means of two functions whose difference is `a`, then `a` is constant. -/
theorem const_of_moments (hN : 1 ≤ N) {a c1 c2 : Vec d → ℝ} (ha : Continuous a) (h1 : ∀ v, 0 ≤ c1 v) (h2 : ∀ v, 0 ≤ c2 v)
    (hm1 : Measurable c1) (hm2 : Measurable c2) (hac : ∀ v, c1 v - c2 v = a v)
    (hf1 : ∫⁻ v, ENNReal.ofReal (c1 v) ∂gaussM d < ⊤) (hf2 : ∫⁻ v, ENNReal.ofReal (c2 v) ∂gaussM d < ⊤)
    (hs1 : ∫⁻ e, ENNReal.ofReal (selMean a c1 e) ∂(Measure.pi fun _ : Fin (N + 1) => gaussM d) =
      ∫⁻ v, ENNReal.ofReal (c1 v) ∂gaussM d)
    (hs2 : ∫⁻ e, ENNReal.ofReal (selMean a c2 e) ∂(Measure.pi fun _ : Fin (N + 1) => gaussM d) =
      ∫⁻ v, ENNReal.ofReal (c2 v) ∂gaussM d) (v v' : Vec d) : a v = a v' := by
  have hNp : (0 : ℝ) ≤ (N : ℝ) + 1 := by positivity
  have hNe : ENNReal.ofReal ((N : ℝ) + 1) = (N : ℝ≥0∞) + 1 := by
    rw [ENNReal.ofReal_add (by positivity) zero_le_one, ENNReal.ofReal_natCast, ENNReal.ofReal_one]
  have key : ∀ {c c' : Vec d → ℝ}, (∀ v, 0 ≤ c v) → (∀ v, 0 ≤ c' v) → Measurable c → Measurable c' →
      ∫⁻ e, ENNReal.ofReal (selMean a c e) ∂(Measure.pi fun _ : Fin (N + 1) => gaussM d) =
        ∫⁻ v, ENNReal.ofReal (c v) ∂gaussM d →
      ∫⁻ e, ENNReal.ofReal (((N : ℝ) + 1) * selMean a c e + ∑ i, c' (e i)) ∂(Measure.pi fun _ : Fin (N + 1) => gaussM d) =
        ((N : ℝ≥0∞) + 1) * (∫⁻ v, ENNReal.ofReal (c v) ∂gaussM d + ∫⁻ v, ENNReal.ofReal (c' v) ∂gaussM d) := by
    intro c c' hc hc' hm hm' hs
    have : ∀ e : Fin (N + 1) → Vec d, ENNReal.ofReal (((N : ℝ) + 1) * selMean a c e + ∑ i, c' (e i)) =
        ((N : ℝ≥0∞) + 1) * ENNReal.ofReal (selMean a c e) + ENNReal.ofReal (∑ i, c' (e i)) := fun e => by
      rw [ENNReal.ofReal_add (mul_nonneg hNp (selMean_nonneg hc e)) (sum_nonneg fun i _ => hc' _),
        ENNReal.ofReal_mul hNp, hNe]
    simp only [this]
    rw [lintegral_add_left ((measurable_selMean ha.measurable hm).ennreal_ofReal.const_mul _),
      lintegral_const_mul _ (measurable_selMean ha.measurable hm).ennreal_ofReal, hs, lintegral_sum_gauss hc' hm', mul_add]
  have hX := key h1 h2 hm1 hm2 hs1
  have hY := key h2 h1 hm2 hm1 hs2
  have hd : ∀ e : Fin (N + 1) → Vec d, selMean a c1 e - selMean a c2 e =
      ∑ i, normalizeW (fun i => -a (e i) / 2) i * a (e i) := fun e => by
    simp only [selMean, ← sum_sub_distrib, ← mul_sub, hac]
  have hd' : ∀ e : Fin (N + 1) → Vec d, ∑ i, c1 (e i) - ∑ i, c2 (e i) = ∑ i, a (e i) := fun e => by
    simp only [← sum_sub_distrib, hac]
  have hle : ∀ e : Fin (N + 1) → Vec d, ((N : ℝ) + 1) * selMean a c1 e + ∑ i, c2 (e i) ≤
      ((N : ℝ) + 1) * selMean a c2 e + ∑ i, c1 (e i) := fun e => by
    have := softmax_le fun i => a (e i)
    have h := hd e
    have h' := hd' e
    have : ((N : ℝ) + 1) * (selMean a c1 e - selMean a c2 e) ≤ ∑ i, c1 (e i) - ∑ i, c2 (e i) := by
      rw [h, h']
      exact this
    linarith
  have hmeas : ∀ {c c' : Vec d → ℝ}, Measurable c → Measurable c' → Measurable fun e : Fin (N + 1) → Vec d =>
      ENNReal.ofReal (((N : ℝ) + 1) * selMean a c e + ∑ i, c' (e i)) := fun {c c'} hc hc' =>
    (((measurable_selMean ha.measurable hc).const_mul _).add (Finset.measurable_fun_sum _ fun i _ =>
      hc'.comp (measurable_pi_apply i))).ennreal_ofReal
  have hae := ae_eq_of_ae_le_of_lintegral_le (Filter.Eventually.of_forall fun e => ENNReal.ofReal_le_ofReal (hle e))
    (by
      rw [hX]
      exact ENNReal.mul_ne_top (by simp) (ENNReal.add_ne_top.mpr ⟨hf1.ne, hf2.ne⟩)) (hmeas hm2 hm1).aemeasurable
    (by rw [hX, hY, add_comm (∫⁻ v, ENNReal.ofReal (c1 v) ∂gaussM d)])
  have hae2 : (fun e : Fin (N + 1) → Vec d => a (e 0)) =ᵐ[Measure.pi fun _ => gaussM d]
      fun e => a (e ⟨1, by omega⟩) := by
    filter_upwards [hae] with e he
    rw [ENNReal.ofReal_eq_ofReal_iff (add_nonneg (mul_nonneg hNp (selMean_nonneg h1 e)) (sum_nonneg fun i _ => h2 _))
      (add_nonneg (mul_nonneg hNp (selMean_nonneg h2 e)) (sum_nonneg fun i _ => h1 _))] at he
    have h := hd e
    have h' := hd' e
    have hq : ((N : ℝ) + 1) * ∑ i, normalizeW (fun i => -a (e i) / 2) i * a (e i) = ∑ i, a (e i) := by
      rw [← h, ← h']
      linarith
    exact softmax_eq hq 0 ⟨1, by omega⟩
  have hc0 : Continuous fun e : Fin (N + 1) → Vec d => a (e 0) := ha.comp (continuous_apply 0)
  have hc1 : Continuous fun e : Fin (N + 1) → Vec d => a (e ⟨1, by omega⟩) := ha.comp (continuous_apply _)
  have : Measure.IsOpenPosMeasure (Measure.pi fun _ : Fin (N + 1) => gaussM d) :=
    Measure.pi.isOpenPosMeasure (fun _ : Fin (N + 1) => gaussM d)
  have h := congrFun (Continuous.ae_eq_iff_eq (Measure.pi fun _ => gaussM d) hc0 hc1 |>.mp hae2)
    (fun i => if i = 0 then v else v')
  simpa [Fin.ext_iff] using h

/-- Symmetrisation: the centres of the particles do not matter for quadratic functions. -/
theorem selMean_center {a c : Vec d → ℝ} (ha : Measurable a) (hs : ∀ v, a (-v) = a v) (hc : ∀ v, 0 ≤ c v) (hm : Measurable c)
    (hq : ∀ m v, c (m + v) + c (m - v) = 2 * c m + 2 * c v) (L : Mat d d) (m : Vec d) :
    ∫⁻ e, ENNReal.ofReal (selMean a (fun v => c (m + L *ᵥ v)) e) ∂(Measure.pi fun _ : Fin (N + 1) => gaussM d) =
      ENNReal.ofReal (c m) +
        ∫⁻ e, ENNReal.ofReal (selMean a (fun v => c (L *ᵥ v)) e) ∂(Measure.pi fun _ : Fin (N + 1) => gaussM d) := by
  obtain ⟨F, hF⟩ : ∃ F : (Fin (N + 1) → Vec d) → ℝ, F = selMean a (fun v => c (m + L *ᵥ v)) := ⟨_, rfl⟩
  obtain ⟨G, hG⟩ : ∃ G : (Fin (N + 1) → Vec d) → ℝ, G = selMean a (fun v => c (L *ᵥ v)) := ⟨_, rfl⟩
  have hFm : Measurable F := by
    rw [hF]
    exact measurable_selMean ha (hm.comp (by fun_prop))
  have hGm : Measurable G := by
    rw [hG]
    exact measurable_selMean ha (hm.comp (by fun_prop))
  have hF0 : ∀ e, 0 ≤ F e := fun e => hF ▸ selMean_nonneg (fun v => hc _) e
  have hG0 : ∀ e, 0 ≤ G e := fun e => hG ▸ selMean_nonneg (fun v => hc _) e
  rw [← hF, ← hG]
  have hneg : ∀ e, F (fun i => -e i) + F e = 2 * c m + 2 * G e := by
    intro e
    have hone : ∑ i, normalizeW (fun i => -a (e i) / 2) i = 1 := (normalize_isProb _).sum_one
    simp only [hF, hG, selMean, hs, mulVec_neg, ← sub_eq_add_neg, ← sum_add_distrib, ← mul_add]
    have : ∀ i, c (m - L *ᵥ e i) + c (m + L *ᵥ e i) = 2 * c m + 2 * c (L *ᵥ e i) := fun i => by
      rw [add_comm, hq]
    simp only [this, mul_add, sum_add_distrib, ← sum_mul, hone, one_mul, mul_sum]
    congr 1
    exact sum_congr rfl fun i _ => by ring
  have h1 : ∫⁻ e, ENNReal.ofReal (F fun i => -e i) ∂(Measure.pi fun _ : Fin (N + 1) => gaussM d) =
      ∫⁻ e, ENNReal.ofReal (F e) ∂(Measure.pi fun _ : Fin (N + 1) => gaussM d) :=
    gaussM_pi_neg.lintegral_comp hFm.ennreal_ofReal
  have h2 : ∫⁻ e, ENNReal.ofReal (F fun i => -e i) + ENNReal.ofReal (F e) ∂(Measure.pi fun _ : Fin (N + 1) => gaussM d) =
      ∫⁻ e, 2 * (ENNReal.ofReal (c m) + ENNReal.ofReal (G e)) ∂(Measure.pi fun _ : Fin (N + 1) => gaussM d) := by
    refine lintegral_congr fun e => ?_
    rw [← ENNReal.ofReal_add (hF0 _) (hF0 _), hneg, ← ENNReal.ofReal_add (hc m) (hG0 e), ← mul_add,
      ENNReal.ofReal_mul (by norm_num), ENNReal.ofReal_ofNat]
  rw [lintegral_add_right _ hFm.ennreal_ofReal, h1, lintegral_const_mul _ (by fun_prop : Measurable fun e => ENNReal.ofReal (c m) + ENNReal.ofReal (G e)),
    lintegral_add_left measurable_const, lintegral_const, measure_univ, mul_one, ← two_mul] at h2
  exact (ENNReal.mul_right_inj (by norm_num) (by norm_num)).mp h2

end Verif
