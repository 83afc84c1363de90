import Verif.Spec.EsjdMany
import Verif.Props.Esjd
import Verif.Props.ManyParticles

/-!
# Squared jumps of a step that is nearly an independent draw
-/

open scoped ENNReal
open MeasureTheory ProbabilityTheory

namespace Verif
open Verif.Model Verif.Spec Verif.Props Matrix

variable {N n d : ℕ}

theorem ofReal_le_trunc {g R : ℝ} (hg : 0 ≤ g) (hR : 0 < R) :
    ENNReal.ofReal g ≤ ENNReal.ofReal R * ENNReal.ofReal (min g R / R) + ENNReal.ofReal (g ^ 2) / ENNReal.ofReal R := by
  rw [← ENNReal.ofReal_mul hR.le, ← ENNReal.ofReal_div_of_pos hR, ← ENNReal.ofReal_add (by positivity) (by positivity)]
  refine ENNReal.ofReal_le_ofReal ?_
  rw [mul_div_cancel₀ _ hR.ne']
  rcases le_total g R with h | h
  · rw [min_eq_left h]
    have : 0 ≤ g ^ 2 / R := by positivity
    linarith
  · rw [min_eq_right h]
    have : g ≤ g ^ 2 / R := by
      rw [le_div_iff₀ hR]
      nlinarith
    linarith

/-- Integrals of a function with a second moment under laws that are close. -/
theorem lintegral_near {Y : Type} [MeasurableSpace Y] {P Q : Measure Y} {E S : ℝ≥0∞} {g : Y → ℝ} (hg : Measurable g) (h0 : ∀ y, 0 ≤ g y)
    (h : ∀ f, Measurable f → (∀ y, f y ≤ 1) → ∫⁻ y, f y ∂P ≤ ∫⁻ y, f y ∂Q + E) (hS : ∫⁻ y, ENNReal.ofReal (g y ^ 2) ∂P ≤ S) {R : ℝ} (hR : 0 < R) :
    ∫⁻ y, ENNReal.ofReal (g y) ∂P ≤ ∫⁻ y, ENNReal.ofReal (g y) ∂Q + (E * ENNReal.ofReal R + S / ENNReal.ofReal R) := by
  have hm : Measurable fun y => ENNReal.ofReal (min (g y) R / R) := by fun_prop
  have hm2 : Measurable fun y => ENNReal.ofReal (g y ^ 2) := by fun_prop
  have h1 : ∀ y, ENNReal.ofReal (min (g y) R / R) ≤ 1 := fun y => by
    rw [ENNReal.ofReal_le_one, div_le_one hR]
    exact min_le_right _ _
  have h2 : ENNReal.ofReal R * ∫⁻ y, ENNReal.ofReal (min (g y) R / R) ∂Q ≤ ∫⁻ y, ENNReal.ofReal (g y) ∂Q := by
    rw [← lintegral_const_mul _ hm]
    refine lintegral_mono fun y => ?_
    rw [← ENNReal.ofReal_mul hR.le, mul_div_cancel₀ _ hR.ne']
    exact ENNReal.ofReal_le_ofReal (min_le_left _ _)
  calc ∫⁻ y, ENNReal.ofReal (g y) ∂P
      ≤ ∫⁻ y, (ENNReal.ofReal R * ENNReal.ofReal (min (g y) R / R) + ENNReal.ofReal (g y ^ 2) / ENNReal.ofReal R) ∂P :=
        lintegral_mono fun y => ofReal_le_trunc (h0 y) hR
    _ = ENNReal.ofReal R * ∫⁻ y, ENNReal.ofReal (min (g y) R / R) ∂P + (∫⁻ y, ENNReal.ofReal (g y ^ 2) ∂P) / ENNReal.ofReal R := by
        rw [lintegral_add_left (hm.const_mul _), lintegral_const_mul _ hm]
        simp only [div_eq_mul_inv]
        rw [lintegral_mul_const _ hm2]
    _ ≤ ENNReal.ofReal R * (∫⁻ y, ENNReal.ofReal (min (g y) R / R) ∂Q + E) + S / ENNReal.ofReal R := by
        gcongr
        exact h _ hm h1
    _ = ENNReal.ofReal R * ∫⁻ y, ENNReal.ofReal (min (g y) R / R) ∂Q + (E * ENNReal.ofReal R + S / ENNReal.ofReal R) := by ring
    _ ≤ _ := by gcongr

/-- The jump of a step that is nearly an independent draw. -/
theorem jump_near {π : Measure (Traj (n + 1) d)} [IsProbabilityMeasure π] {K : KernelPair Ex (n + 1) d} {DELTA : StepSize (n + 1)}
    (hK : PairOK 0 π K DELTA) {μ : Measure (Traj (n + 1) d × Traj (n + 1) d)} [IsProbabilityMeasure μ]
    (hμ : ∀ key, IsJump π (jumpStep K DELTA key) μ) {E : ℝ≥0∞} (hE : ∀ x, TVLe E (jumpStep K DELTA [] x) fun f => ∫⁻ y, f y ∂π)
    (c : Vec d) (t : Fin (n + 1)) {R : ℝ} (hR : 0 < R) :
    NearBy (E * ENNReal.ofReal R + 16 * spread π c t 2 / ENNReal.ofReal R) (expectedJump π (jumpStep K DELTA []) t) (independentJump π t) := by
  have hm : Measurable fun p : Traj (n + 1) d × Traj (n + 1) d => sqJump p t := measurable_sqJump t
  have hsec : ∀ f : Traj (n + 1) d × Traj (n + 1) d → ℝ≥0∞, Measurable f → ∀ x, Measurable fun y => f (x, y) := fun f hf x =>
    hf.comp measurable_prodMk_left
  have e1 : expectedJump π (jumpStep K DELTA []) t = ∫⁻ p, ENNReal.ofReal (sqJump p t) ∂μ := (hμ [] _ hm.ennreal_ofReal).symm
  have e2 : independentJump π t = ∫⁻ p, ENNReal.ofReal (sqJump p t) ∂(π.prod π) := (lintegral_prod _ hm.ennreal_ofReal.aemeasurable).symm
  have hone : ∫⁻ _ : Traj (n + 1) d, E ∂π = E := by rw [lintegral_const, measure_univ, mul_one]
  have hPQ : ∀ f, Measurable f → (∀ p, f p ≤ 1) → ∫⁻ p, f p ∂μ ≤ ∫⁻ p, f p ∂(π.prod π) + E ∧ ∫⁻ p, f p ∂(π.prod π) ≤ ∫⁻ p, f p ∂μ + E := by
    intro f hf hf1
    rw [hμ [] f hf, lintegral_prod _ hf.aemeasurable]
    constructor
    · rw [← hone, ← lintegral_add_right _ measurable_const]
      exact lintegral_mono fun x => (hE x (fun y => f (x, y)) (hsec f hf x) fun _ => hf1 _).1
    · rw [← hone, ← lintegral_add_right _ measurable_const]
      exact lintegral_mono fun x => (hE x (fun y => f (x, y)) (hsec f hf x) fun _ => hf1 _).2
  have hP2 := (exact_jump hK hμ c t).2
  have hQ2 : ∫⁻ p, ENNReal.ofReal (sqJump p t ^ 2) ∂(π.prod π) ≤ 16 * spread π c t 2 := by
    refine (jump_le (μ := π.prod π) (π := π) (fun f hf => ?_) (fun f hf => ?_) c t).2
    · rw [lintegral_prod (fun p => f p.1) (hf.comp measurable_fst).aemeasurable]
      simp
    · rw [lintegral_prod (fun p => f p.2) (hf.comp measurable_snd).aemeasurable]
      simp
  rw [e1, e2]
  exact ⟨lintegral_near hm (fun p => sqJump_nonneg p t) (fun f hf hf1 => (hPQ f hf hf1).1) hP2 hR,
    lintegral_near hm (fun p => sqJump_nonneg p t) (fun f hf hf1 => (hPQ f hf hf1).2) hQ2 hR⟩

/-- Two independent draws are, on average, twice as far apart as a draw is from the mean. -/
theorem independent_eq {π : Measure (Traj (n + 1) d)} [IsProbabilityMeasure π] {t : Fin (n + 1)} {c : Vec d} (h : spread π c t 1 ≠ ∞) :
    independentJump π t = 2 * spread π (meanAt π t) t 1 := by
  have hmj : ∀ j, Measurable fun x : Traj (n + 1) d => x t j := fun j => by fun_prop
  have hL : ∀ j, MemLp (fun x : Traj (n + 1) d => x t j) 2 π := fun j => by
    have h1 : MemLp (fun x : Traj (n + 1) d => x t j - c j) 2 π := by
      rw [memLp_two_iff_integrable_sq ((hmj j).sub_const _).aestronglyMeasurable]
      refine ⟨(((hmj j).sub_const _).pow_const 2).aestronglyMeasurable, ?_⟩
      have e : ∀ x : Traj (n + 1) d, ‖(x t j - c j) ^ 2‖ₑ = ENNReal.ofReal ((x t j - c j) ^ 2) := fun x => Real.enorm_eq_ofReal (sq_nonneg _)
      simp only [HasFiniteIntegral, e]
      refine lt_of_le_of_lt ?_ h.lt_top
      refine lintegral_mono fun x => ENNReal.ofReal_le_ofReal ?_
      rw [pow_one]
      exact Finset.single_le_sum (f := fun j => (x t j - c j) ^ 2) (fun _ _ => sq_nonneg _) (Finset.mem_univ j)
    have h2 := h1.add (memLp_const (c j) : MemLp (fun _ : Traj (n + 1) d => c j) 2 π)
    refine h2.congr_norm (hmj j).aestronglyMeasurable (Filter.Eventually.of_forall fun x => ?_)
    simp
  have hi : ∀ j, Integrable (fun x : Traj (n + 1) d => x t j) π := fun j => (hL j).integrable one_le_two
  have hi2 : ∀ (a : ℝ) j, Integrable (fun x : Traj (n + 1) d => (x t j - a) ^ 2) π := fun a j =>
    ((hL j).sub (memLp_const a)).integrable_sq
  -- the squared distance from a point
  have one : ∀ (a : ℝ) j, ∫ x : Traj (n + 1) d, (x t j - a) ^ 2 ∂π = ∫ x : Traj (n + 1) d, (x t j - meanAt π t j) ^ 2 ∂π + (a - meanAt π t j) ^ 2 := fun a j => by
    have e : ∀ x : Traj (n + 1) d, (x t j - a) ^ 2 =
        (x t j - meanAt π t j) ^ 2 + (2 * (meanAt π t j - a) * (x t j - meanAt π t j) + (a - meanAt π t j) ^ 2) := fun x => by ring
    have hc : Integrable (fun x : Traj (n + 1) d => 2 * (meanAt π t j - a) * (x t j - meanAt π t j)) π :=
      ((hi j).sub (integrable_const _)).const_mul _
    have hcc : Integrable (fun x : Traj (n + 1) d => 2 * (meanAt π t j - a) * (x t j - meanAt π t j) + (a - meanAt π t j) ^ 2) π :=
      hc.add (integrable_const _)
    rw [integral_congr_ae (Filter.Eventually.of_forall e), integral_add (hi2 _ j) hcc,
      integral_add hc (integrable_const _), integral_const_mul, integral_sub (hi j) (integrable_const _)]
    have : ∫ x : Traj (n + 1) d, x t j ∂π = meanAt π t j := rfl
    simp [this]
  have toL : ∀ (a : Vec d), ∫⁻ x : Traj (n + 1) d, ENNReal.ofReal (∑ j, (x t j - a j) ^ 2) ∂π = ENNReal.ofReal (∑ j, ∫ x : Traj (n + 1) d, (x t j - a j) ^ 2 ∂π) := fun a => by
    rw [← integral_finsetSum _ fun j _ => hi2 (a j) j, ofReal_integral_eq_lintegral_ofReal (integrable_finsetSum _ fun j _ => hi2 (a j) j)
      (Filter.Eventually.of_forall fun x => Finset.sum_nonneg fun j _ => sq_nonneg _)]
  have hV : ∀ j, 0 ≤ ∫ x : Traj (n + 1) d, (x t j - meanAt π t j) ^ 2 ∂π := fun j => integral_nonneg fun x => sq_nonneg _
  have inner : ∀ x : Traj (n + 1) d, ∫⁻ x', ENNReal.ofReal (sqJump (x, x') t) ∂π =
      ENNReal.ofReal (∑ j, ∫ x : Traj (n + 1) d, (x t j - meanAt π t j) ^ 2 ∂π) + ENNReal.ofReal (∑ j, (x t j - meanAt π t j) ^ 2) := fun x => by
    have e : ∀ x' : Traj (n + 1) d, sqJump (x, x') t = ∑ j, (x' t j - x t j) ^ 2 := fun x' => Finset.sum_congr rfl fun j _ => by
      show (x t j - x' t j) ^ 2 = _
      ring
    simp only [e]
    rw [toL (x t), ← ENNReal.ofReal_add (Finset.sum_nonneg fun j _ => hV j) (Finset.sum_nonneg fun j _ => sq_nonneg _), ← Finset.sum_add_distrib]
    congr 1
    exact Finset.sum_congr rfl fun j _ => one (x t j) j
  unfold independentJump spread
  simp only [inner, pow_one]
  rw [lintegral_add_left measurable_const, lintegral_const, measure_univ, mul_one, toL (meanAt π t), two_mul]

end Verif
