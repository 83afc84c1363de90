import Mathlib.Probability.Moments.Variance
import Verif.Spec.Esjd
import Verif.Props.ExpRuns
import Verif.Lemmas.SvMoments

/-!
# Averages of independent squared jumps
-/

open scoped ENNReal
open MeasureTheory ProbabilityTheory

namespace Verif
open Verif.Model Verif.Spec Verif.Props Matrix

variable {n d M : ℕ}

/-- Laws that agree on functions below one. -/
theorem lintegral_eq_of_le_one {X : Type} [MeasurableSpace X] {μ ν : Measure X} [IsFiniteMeasure μ]
    (h : ∀ f, Measurable f → (∀ x, f x ≤ 1) → ∫⁻ x, f x ∂μ = ∫⁻ x, f x ∂ν) : μ = ν := by
  refine Measure.ext fun s hs => ?_
  have e := h (s.indicator 1) (measurable_one.indicator hs) fun x => Set.indicator_le (fun _ _ => le_rfl) x
  rwa [lintegral_indicator_one hs, lintegral_indicator_one hs] at e

theorem sqDist_le {d : ℕ} (x y c : Fin d → ℝ) : ∑ j, (x j - y j) ^ 2 ≤ 2 * ∑ j, (x j - c j) ^ 2 + 2 * ∑ j, (y j - c j) ^ 2 := by
  rw [Finset.mul_sum, Finset.mul_sum, ← Finset.sum_add_distrib]
  exact Finset.sum_le_sum fun j _ => by nlinarith [sq_nonneg (x j - c j + (y j - c j))]

/-- A jump that keeps its law is at most as large as the spread of this law. -/
theorem jump_le {μ : Measure (Traj (n + 1) d × Traj (n + 1) d)} {π : Measure (Traj (n + 1) d)}
    (h1 : ∀ f, Measurable f → ∫⁻ p, f p.1 ∂μ = ∫⁻ x, f x ∂π) (h2 : ∀ f, Measurable f → ∫⁻ p, f p.2 ∂μ = ∫⁻ x, f x ∂π)
    (c : Vec d) (t : Fin (n + 1)) :
    ∫⁻ p, ENNReal.ofReal (sqJump p t) ∂μ ≤ 4 * spread π c t 1 ∧ ∫⁻ p, ENNReal.ofReal (sqJump p t ^ 2) ∂μ ≤ 16 * spread π c t 2 := by
  let g : Traj (n + 1) d → ℝ := fun x => ∑ j, (x t j - c j) ^ 2
  have hg0 : ∀ x, 0 ≤ g x := fun x => Finset.sum_nonneg fun _ _ => sq_nonneg _
  have hg : Measurable g := by unfold g; fun_prop
  have hle : ∀ p : Traj (n + 1) d × Traj (n + 1) d, sqJump p t ≤ 2 * g p.1 + 2 * g p.2 := fun p => sqDist_le (p.1 t) (p.2 t) c
  have main : ∀ (q : ℕ) (K : ℝ), 0 ≤ K → (∀ p : Traj (n + 1) d × Traj (n + 1) d, sqJump p t ^ q ≤ K * g p.1 ^ q + K * g p.2 ^ q) →
      ∫⁻ p, ENNReal.ofReal (sqJump p t ^ q) ∂μ ≤ ENNReal.ofReal (2 * K) * spread π c t q := by
    intro q K hK hq
    have hG : Measurable fun x => ENNReal.ofReal (g x ^ q) := (hg.pow_const q).ennreal_ofReal
    calc ∫⁻ p, ENNReal.ofReal (sqJump p t ^ q) ∂μ
        ≤ ∫⁻ p, (ENNReal.ofReal K * ENNReal.ofReal (g p.1 ^ q) + ENNReal.ofReal K * ENNReal.ofReal (g p.2 ^ q)) ∂μ := by
          refine lintegral_mono fun p => ?_
          rw [← ENNReal.ofReal_mul hK, ← ENNReal.ofReal_mul hK, ← ENNReal.ofReal_add (mul_nonneg hK (pow_nonneg (hg0 _) _))
            (mul_nonneg hK (pow_nonneg (hg0 _) _))]
          exact ENNReal.ofReal_le_ofReal (hq p)
      _ = ENNReal.ofReal K * ∫⁻ x, ENNReal.ofReal (g x ^ q) ∂π + ENNReal.ofReal K * ∫⁻ x, ENNReal.ofReal (g x ^ q) ∂π := by
          rw [lintegral_add_left (by fun_prop), lintegral_const_mul _ (by fun_prop), lintegral_const_mul _ (by fun_prop),
            h1 _ hG, h2 _ hG]
      _ = ENNReal.ofReal (2 * K) * spread π c t q := by
          rw [two_mul, ENNReal.ofReal_add hK hK, add_mul]
          rfl
  constructor
  · have h := main 1 2 (by norm_num) fun p => by simpa only [pow_one] using hle p
    have e4 : ENNReal.ofReal (2 * 2) = 4 := by rw [show (2 * 2 : ℝ) = (4 : ℕ) by norm_num, ENNReal.ofReal_natCast]; rfl
    simpa only [pow_one, e4] using h
  · have h := main 2 8 (by norm_num) fun p => by
      have h0 := hle p
      have h0' := sqJump_nonneg p t
      have ha := hg0 p.1
      have hb := hg0 p.2
      nlinarith [sq_nonneg (g p.1 - g p.2), mul_self_le_mul_self h0' h0]
    have e16 : ENNReal.ofReal (2 * 8) = 16 := by rw [show (2 * 8 : ℝ) = (16 : ℕ) by norm_num, ENNReal.ofReal_natCast]; rfl
    rwa [e16] at h

/-- Chebyshev's inequality for the mean of `M` independent squared jumps. -/
theorem meanSqJump_cheb {μ : Measure (Traj (n + 1) d × Traj (n + 1) d)} [IsProbabilityMeasure μ] (hM : 0 < M) (t : Fin (n + 1))
    {S : ℝ≥0∞} (hS : ∫⁻ p, ENNReal.ofReal (sqJump p t ^ 2) ∂μ ≤ S) (hS' : S ≠ ∞) {η : ℝ} (hη : 0 < η) :
    (Measure.pi fun _ : Fin M => μ) {p | η ≤ |meanSqJump p t - (∫⁻ p, ENNReal.ofReal (sqJump p t) ∂μ).toReal|} ≤
      S / (M * ENNReal.ofReal (η ^ 2)) := by
  have hM' : (0 : ℝ) < M := by exact_mod_cast hM
  let X : Traj (n + 1) d × Traj (n + 1) d → ℝ := fun p => sqJump p t
  have hXm : Measurable X := measurable_sqJump t
  have h2 : Integrable (fun p => X p ^ 2) μ := by
    refine ⟨(hXm.pow_const 2).aestronglyMeasurable, ?_⟩
    have e : ∀ p, ‖X p ^ 2‖ₑ = ENNReal.ofReal (X p ^ 2) := fun p => Real.enorm_eq_ofReal (sq_nonneg _)
    simp only [HasFiniteIntegral, e]
    exact hS.trans_lt hS'.lt_top
  have hX : MemLp X 2 μ := (memLp_two_iff_integrable_sq hXm.aestronglyMeasurable).mpr h2
  have hvar : Var[X; μ] ≤ S.toReal := by
    refine (variance_le_expectation_sq hXm.aestronglyMeasurable).trans ?_
    have e : ∫ p, X p ^ 2 ∂μ = (∫⁻ p, ENNReal.ofReal (X p ^ 2) ∂μ).toReal :=
      integral_eq_lintegral_of_nonneg_ae (Filter.Eventually.of_forall fun p => sq_nonneg _) (hXm.pow_const 2).aestronglyMeasurable
    show ∫ p, X p ^ 2 ∂μ ≤ _
    rw [e]
    exact ENNReal.toReal_mono hS' hS
  have hmean : ∫ p, X p ∂μ = (∫⁻ p, ENNReal.ofReal (sqJump p t) ∂μ).toReal :=
    integral_eq_lintegral_of_nonneg_ae (Filter.Eventually.of_forall fun p => sqJump_nonneg p t) hXm.aestronglyMeasurable
  let P := Measure.pi fun _ : Fin M => μ
  have hco : ∀ i, MemLp (fun p : Fin M → Traj (n + 1) d × Traj (n + 1) d => X (p i)) 2 P := fun i =>
    hX.comp_measurePreserving (measurePreserving_eval (fun _ : Fin M => μ) i)
  let Y : (Fin M → Traj (n + 1) d × Traj (n + 1) d) → ℝ := fun p => ∑ i, X (p i)
  have hY : MemLp Y 2 P := memLp_finsetSum _ fun i _ => hco i
  have hYv : Var[Y; P] ≤ M * S.toReal := by
    have h := variance_sum_pi (ι := Fin M) (μ := fun _ => μ) (X := fun _ => X) fun _ => hX
    have e : (∑ i, fun p : Fin M → Traj (n + 1) d × Traj (n + 1) d => X (p i)) = Y := by
      funext p
      simp [Y]
    rw [e] at h
    rw [h, Finset.sum_const, Finset.card_univ, Fintype.card_fin, nsmul_eq_mul]
    gcongr
  have hYm : ∫ p, Y p ∂P = M * ∫ p, X p ∂μ := by
    have e : ∀ i, ∫ p : Fin M → Traj (n + 1) d × Traj (n + 1) d, X (p i) ∂P = ∫ p, X p ∂μ := fun i => by
      have h := (measurePreserving_eval (fun _ : Fin M => μ) i).map_eq
      rw [← h, integral_map (measurable_pi_apply i).aemeasurable (by rw [h]; exact hXm.aestronglyMeasurable)]
    show ∫ p, ∑ i, X (p i) ∂P = _
    rw [integral_finsetSum _ fun i _ => (hco i).integrable one_le_two]
    simp [e]
  have hch := meas_ge_le_variance_div_sq hY (c := M * η) (by positivity)
  refine le_trans (measure_mono fun p hp => ?_) (hch.trans ?_)
  · rw [Set.mem_ofPred_eq] at hp ⊢
    have e : Y p = M * meanSqJump p t := by
      show ∑ i, sqJump (p i) t = M * ((∑ i, sqJump (p i) t) / M)
      field_simp
    rw [hYm, e, hmean, ← mul_sub, abs_mul, abs_of_pos hM']
    gcongr
  · have e : S / (M * ENNReal.ofReal (η ^ 2)) = ENNReal.ofReal (S.toReal / (M * η ^ 2)) := by
      rw [ENNReal.ofReal_div_of_pos (by positivity), ENNReal.ofReal_toReal hS', ENNReal.ofReal_mul hM'.le, ENNReal.ofReal_natCast]
    rw [e]
    refine ENNReal.ofReal_le_ofReal ?_
    rw [div_le_div_iff₀ (by positivity) (by positivity)]
    have h0 : 0 ≤ η ^ 2 := sq_nonneg _
    calc Var[Y; P] * (M * η ^ 2) ≤ M * S.toReal * (M * η ^ 2) := by gcongr
      _ = S.toReal * (M * η) ^ 2 := by ring

/-! ## The spread of the posterior -/

theorem pow_mul_exp_le (u : ℝ) (hu : 0 ≤ u) (p : ℕ) : u ^ p * Real.exp (-u / 2) ≤ 2 ^ p * p.factorial := by
  have h := Real.pow_div_factorial_le_exp (u / 2) (by positivity) p
  have hf : (0 : ℝ) < p.factorial := by exact_mod_cast Nat.factorial_pos p
  rw [div_le_iff₀ hf, div_pow] at h
  rw [neg_div, Real.exp_neg, ← div_eq_mul_inv, div_le_iff₀ (Real.exp_pos _)]
  have h2 : (0 : ℝ) < 2 ^ p := by positivity
  calc u ^ p = 2 ^ p * (u ^ p / 2 ^ p) := by field_simp
    _ ≤ 2 ^ p * (Real.exp (u / 2) * p.factorial) := by gcongr
    _ = _ := by ring


theorem lgTarget_le (sigma : ℝ) (ys x : Traj (n + 1) d) (t : Fin (n + 1)) : lgTarget sigma ys x ≤
    gaussPathLog 0 (sigma ^ 2 • 1) (fun _ => 1) (fun _ => sigma ^ 2 • 1) (fun _ => 0) x + -(∑ j, (x t j - ys t j) ^ 2) / 2 := by
  unfold lgTarget
  have h0 : ∀ u, normalLogpdf ((1 : Mat d d) *ᵥ x u + 0) 1 (ys u) ≤ -(∑ j, (x u j - ys u j) ^ 2) / 2 := fun u => by
    have hpi : 0 ≤ Real.log (2 * Real.pi) := Real.log_nonneg (by nlinarith [Real.pi_gt_three])
    have e : (ys u - x u) ⬝ᵥ (ys u - x u) = ∑ j, (x u j - ys u j) ^ 2 := by
      unfold dotProduct
      exact Finset.sum_congr rfl fun j _ => by simp only [Pi.sub_apply]; ring
    simp only [normalLogpdf, one_mulVec, add_zero, inv_one, det_one, Real.log_one, zero_div, sub_zero, e]
    have : 0 ≤ (d : ℝ) / 2 * Real.log (2 * Real.pi) := by positivity
    linarith
  have h1 : obsLog (fun _ => (1 : Mat d d)) (fun _ => 1) (fun _ => 0) ys x ≤ -(∑ j, (x t j - ys t j) ^ 2) / 2 := by
    refine le_trans ?_ (h0 t)
    unfold obsLog
    rw [← Finset.add_sum_erase _ _ (Finset.mem_univ t)]
    refine add_le_of_nonpos_right (Finset.sum_nonpos fun u _ => (h0 u).trans ?_)
    have : 0 ≤ ∑ j, (x u j - ys u j) ^ 2 := Finset.sum_nonneg fun _ _ => sq_nonneg _
    linarith
  linarith

/-- All moments of the posterior are finite. -/
theorem lgPosterior_spread {sigma : ℝ} (hs : 0 < sigma) (ys : Traj (n + 1) d) (c : Vec d) (t : Fin (n + 1)) (p : ℕ) :
    spread (lgPosterior sigma ys) c t p ≠ ∞ := by
  have : Fact (0 < sigma) := ⟨hs⟩
  have hP : (sigma ^ 2 • 1 : Mat d d).PosDef := posDef_smul_one (pow_pos hs 2)
  have h0 : spread (lgPosterior sigma ys) (ys t) t p ≠ ∞ := by
    have hm : Measurable fun x : Traj (n + 1) d => ENNReal.ofReal ((∑ j, (x t j - ys t j) ^ 2) ^ p) := by fun_prop
    rw [spread, lgPosterior, lintegral_lawOf (measurable_lgTarget ys hs) hm]
    refine ENNReal.mul_ne_top (ENNReal.inv_ne_top.mpr (lgTarget_mass hs ys).1) ?_
    have hG := gaussPath_exp_moment (0 : Vec d) (Fs := fun _ : Fin n => 1) (Qs := fun _ => sigma ^ 2 • 1) hP (fun _ => hP) (fun _ => 0)
      fun _ => 0
    simp only [zero_dotProduct, Finset.sum_const_zero, add_zero] at hG
    refine ne_top_of_le_ne_top (ENNReal.mul_ne_top (ENNReal.ofReal_ne_top (r := 2 ^ p * p.factorial)) hG) ?_
    rw [← lintegral_const_mul' _ _ ENNReal.ofReal_ne_top]
    refine lintegral_mono fun x => ?_
    rw [← ENNReal.ofReal_mul (Real.exp_pos _).le, ← ENNReal.ofReal_mul (by positivity)]
    refine ENNReal.ofReal_le_ofReal ?_
    have hu : 0 ≤ ∑ j, (x t j - ys t j) ^ 2 := Finset.sum_nonneg fun _ _ => sq_nonneg _
    obtain ⟨u, hu'⟩ : ∃ u, u = ∑ j, (x t j - ys t j) ^ 2 := ⟨_, rfl⟩
    have h1 := lgTarget_le sigma ys x t
    rw [← hu'] at h1 hu ⊢
    calc Real.exp (lgTarget sigma ys x) * u ^ p
        ≤ Real.exp (gaussPathLog 0 (sigma ^ 2 • 1) (fun _ => 1) (fun _ => sigma ^ 2 • 1) (fun _ => 0) x + -u / 2) * u ^ p := by
          gcongr
      _ = (u ^ p * Real.exp (-u / 2)) * Real.exp (gaussPathLog 0 (sigma ^ 2 • 1) (fun _ => 1) (fun _ => sigma ^ 2 • 1) (fun _ => 0) x) := by
          rw [Real.exp_add]; ring
      _ ≤ _ := by
          exact mul_le_mul_of_nonneg_right (pow_mul_exp_le u hu p) (Real.exp_pos _).le
  obtain ⟨K, hK⟩ : ∃ K : ℝ, K = 2 * ∑ j, (ys t j - c j) ^ 2 := ⟨_, rfl⟩
  have hK0 : 0 ≤ K := by rw [hK]; exact mul_nonneg zero_le_two (Finset.sum_nonneg fun _ _ => sq_nonneg _)
  refine ne_top_of_le_ne_top (b := ENNReal.ofReal (2 ^ (p - 1) * 2 ^ p) * spread (lgPosterior sigma ys) (ys t) t p +
    ENNReal.ofReal (2 ^ (p - 1) * K ^ p)) (ENNReal.add_ne_top.mpr ⟨ENNReal.mul_ne_top ENNReal.ofReal_ne_top h0, ENNReal.ofReal_ne_top⟩) ?_
  rw [spread, spread, ← lintegral_const_mul' _ _ ENNReal.ofReal_ne_top]
  have e : ENNReal.ofReal (2 ^ (p - 1) * K ^ p) = ∫⁻ _ : Traj (n + 1) d, ENNReal.ofReal (2 ^ (p - 1) * K ^ p) ∂lgPosterior sigma ys := by
    rw [lintegral_const, measure_univ, mul_one]
  rw [e, ← lintegral_add_right _ measurable_const]
  refine lintegral_mono fun x => ?_
  have hu : 0 ≤ ∑ j, (x t j - ys t j) ^ 2 := Finset.sum_nonneg fun _ _ => sq_nonneg _
  have h1 := sqDist_le (x t) c (ys t)
  have h2 : ∑ j, (c j - ys t j) ^ 2 = ∑ j, (ys t j - c j) ^ 2 := Finset.sum_congr rfl fun j _ => by ring
  rw [h2, ← hK] at h1
  have h3 : 0 ≤ ∑ j, (x t j - c j) ^ 2 := Finset.sum_nonneg fun _ _ => sq_nonneg _
  rw [← ENNReal.ofReal_mul (by positivity), ← ENNReal.ofReal_add (by positivity) (by positivity)]
  refine ENNReal.ofReal_le_ofReal ?_
  calc (∑ j, (x t j - c j) ^ 2) ^ p ≤ (2 * ∑ j, (x t j - ys t j) ^ 2 + K) ^ p := by gcongr
    _ ≤ 2 ^ (p - 1) * ((2 * ∑ j, (x t j - ys t j) ^ 2) ^ p + K ^ p) := add_pow_le (by positivity) hK0 p
    _ = _ := by rw [mul_pow]; ring

/-! ## What the experiment reports -/

/-- A step that keeps the posterior: its jump law. -/
theorem exact_jump {π : Measure (Traj (n + 1) d)} [IsProbabilityMeasure π] {K : KernelPair Ex (n + 1) d} {DELTA : StepSize (n + 1)}
    (hK : PairOK 0 π K DELTA) {μ : Measure (Traj (n + 1) d × Traj (n + 1) d)} [IsProbabilityMeasure μ]
    (hμ : ∀ key, IsJump π (jumpStep K DELTA key) μ) (c : Vec d) (t : Fin (n + 1)) :
    ∫⁻ p, ENNReal.ofReal (sqJump p t) ∂μ ≤ 4 * spread π c t 1 ∧ ∫⁻ p, ENNReal.ofReal (sqJump p t ^ 2) ∂μ ≤ 16 * spread π c t 2 := by
  refine jump_le (fun f hf => ?_) (fun f hf => ?_) c t
  · rw [hμ [] (fun p => f p.1) (by fun_prop)]
    refine lintegral_congr fun x => ?_
    have h := (hK.ker []).const_fun x (f x)
    rw [hK.mass, mul_one] at h
    exact h
  · have e : μ.map Prod.snd = π := by
      have : IsProbabilityMeasure (μ.map Prod.snd) := Measure.isProbabilityMeasure_map measurable_snd.aemeasurable
      refine lintegral_eq_of_le_one fun f hf hf1 => ?_
      rw [lintegral_map hf measurable_snd, hμ [] (fun p => f p.2) (by fun_prop)]
      have h := hK.near [] f hf hf1
      simp only [add_zero] at h
      exact le_antisymm h.1 h.2
    rw [← e, lintegral_map hf measurable_snd]

end Verif
