import Verif.Lemmas.LargeSteps
import Mathlib.Analysis.SpecialFunctions.Exp

/-!
# Potentials that vanish far away: helpers
-/

open scoped ENNReal Topology
open MeasureTheory Finset Filter

namespace Verif
open Verif.Model Verif.Spec

variable {n d : ℕ}

theorem sum_far {X : Type} [TopologicalSpace X] [Nonempty X] {ψ : Fin d → X → ℝ} (hc : ∀ j, Continuous (ψ j)) (h : ∀ j, Tendsto (ψ j) (cocompact X) atBot) :
    Tendsto (fun x : Fin d → X => ∑ j, ψ j (x j)) (cocompact _) atBot := by
  have hb : ∀ j, ∃ C, ∀ x, ψ j x ≤ C := fun j => by
    obtain ⟨x, hx⟩ := (hc j).exists_forall_ge (h j)
    exact ⟨_, hx⟩
  choose C hC using hb
  refine tendsto_atBot.mpr fun B => ?_
  have h1 : ∀ j, ∃ K, IsCompact K ∧ Kᶜ ⊆ {x | ψ j x ≤ B - ∑ k ∈ univ.erase j, C k} := fun j => mem_cocompact.mp ((h j).eventually_le_atBot _)
  choose K hK hle using h1
  refine mem_cocompact.mpr ⟨Set.univ.pi K, isCompact_univ_pi hK, fun x hx => ?_⟩
  have h2 : ∃ j, x j ∉ K j := by
    by_contra hcon
    push Not at hcon
    exact hx fun j _ => hcon j
  obtain ⟨j, hj⟩ := h2
  have h3 : ψ j (x j) ≤ B - ∑ k ∈ univ.erase j, C k := hle j hj
  have h4 : ∑ k ∈ univ.erase j, ψ k (x k) ≤ ∑ k ∈ univ.erase j, C k := sum_le_sum fun k _ => hC k _
  show ∑ j, ψ j (x j) ≤ B
  rw [← add_sum_erase _ _ (mem_univ j)]
  linarith

theorem lg_potential_far (y : Vec d) : Tendsto (fun x => lg_log_potential x y) (cocompact (Vec d)) atBot := by
  unfold lg_log_potential sumNorm
  refine sum_far (ψ := fun j x => norm_logpdf (y j) x 1 true) (fun j => ?_) fun j => ?_
  · simp only [norm_logpdf, if_true]
    fun_prop
  · simp only [norm_logpdf, if_true]
    have h : Tendsto (fun x : ℝ => (y j - x) ^ 2) (cocompact ℝ) atTop := by
      rw [cocompact_eq_atBot_atTop, tendsto_sup]
      constructor
      · exact (tendsto_pow_atTop two_ne_zero).comp (tendsto_atTop_add_const_left _ _ tendsto_neg_atBot_atTop)
      · have e : (fun x : ℝ => (y j - x) ^ 2) = fun x => (x - y j) ^ 2 := by funext x; ring
        rw [e]
        exact (tendsto_pow_atTop two_ne_zero).comp (tendsto_atTop_add_const_right _ _ tendsto_id)
    have h2 := (tendsto_atTop_add_const_left _ (Real.log (2 * Real.pi)) h).const_mul_atTop_of_neg (r := -1 / 2) (by norm_num)
    refine h2.congr fun x => ?_
    norm_num
    ring

theorem sumNorm_le (x x' : Vec d) (sigma : ℝ) : sumNorm x x' sigma ≤ d * (-Real.log (2 * Real.pi * sigma ^ 2) / 2) := by
  unfold sumNorm
  have : ∀ j ∈ univ, norm_logpdf (x j) (x' j) sigma true ≤ -Real.log (2 * Real.pi * sigma ^ 2) / 2 := fun j _ => by
    simp only [norm_logpdf, if_true]
    have : 0 ≤ (x j - x' j) ^ 2 / sigma ^ 2 := by positivity
    linarith
  refine (sum_le_sum this).trans ?_
  rw [sum_const, card_univ, Fintype.card_fin, nsmul_eq_mul]

theorem lg_far0 (ys : Traj (n + 1) d) (sigma : ℝ) : Tendsto (lgGamma_0 ys sigma) (cocompact _) atBot :=
  tendsto_atBot_mono (fun x => add_le_add le_rfl (sumNorm_le x 0 sigma)) (tendsto_atBot_add_const_right _ _ (lg_potential_far (ys 0)))

theorem lg_far (sigma : ℝ) (y : Vec d) : VanishesFar (lgGamma_t (d := d) sigma) y :=
  ⟨_, tendsto_atBot_add_const_right _ _ (lg_potential_far y), fun x' x => add_le_add le_rfl (sumNorm_le x x' sigma)⟩

/-- The volatility potential of one coordinate. -/
theorem sv_coord_far {y : ℝ} (hy : y ≠ 0) : Tendsto (fun x : ℝ => norm_logpdf y 0 (Real.exp (0.5 * x)) true) (cocompact ℝ) atBot := by
  have e : ∀ x : ℝ, norm_logpdf y 0 (Real.exp (0.5 * x)) true = -(Real.log (2 * Real.pi) + (x + y ^ 2 * Real.exp (-x))) / 2 := fun x => by
    have e1 : Real.exp (0.5 * x) ^ 2 = Real.exp x := by rw [← Real.exp_nat_mul]; congr 1; norm_num; ring
    simp only [norm_logpdf, if_true, e1, sub_zero]
    rw [Real.log_mul (by positivity) (Real.exp_pos _).ne', Real.log_exp, Real.exp_neg, div_eq_mul_inv]
    ring
  have h : Tendsto (fun x : ℝ => x + y ^ 2 * Real.exp (-x)) (cocompact ℝ) atTop := by
    rw [cocompact_eq_atBot_atTop, tendsto_sup]
    constructor
    · have h1 : Tendsto (fun z : ℝ => z * (y ^ 2 / 2 * z + (-1))) atTop atTop :=
        tendsto_id.atTop_mul_atTop₀ (tendsto_atTop_add_const_right _ _ (tendsto_id.const_mul_atTop (by positivity)))
      refine tendsto_atTop_mono' atBot ?_ (h1.comp tendsto_neg_atBot_atTop)
      filter_upwards [eventually_le_atBot 0] with x hx
      have h2 := Real.quadratic_le_exp_of_nonneg (x := -x) (by linarith)
      have h3 : (-x) ^ 2 / 2 ≤ Real.exp (-x) := by linarith
      have h4 := mul_le_mul_of_nonneg_left h3 (sq_nonneg y)
      show -x * (y ^ 2 / 2 * -x + -1) ≤ _
      nlinarith
    · exact tendsto_atTop_mono (fun x => le_add_of_nonneg_right (by positivity)) tendsto_id
  have h2 := (tendsto_atTop_add_const_left _ (Real.log (2 * Real.pi)) h).const_mul_atTop_of_neg (r := -1 / 2) (by norm_num)
  refine h2.congr fun x => ?_
  rw [e]
  ring

theorem sv_potential_far {y : Vec d} (hy : ∀ j, y j ≠ 0) : Tendsto (fun x => sv_log_potential x y) (cocompact (Vec d)) atBot := by
  unfold sv_log_potential
  refine sum_far (ψ := fun j x => norm_logpdf (y j) 0 (Real.exp (0.5 * x)) true) (fun j => ?_) fun j => sv_coord_far (hy j)
  simp only [norm_logpdf, if_true]
  have : ∀ x : ℝ, 2 * Real.pi * Real.exp (0.5 * x) ^ 2 ≠ 0 := fun x => by positivity
  have h2 : ∀ x : ℝ, Real.exp (0.5 * x) ^ 2 ≠ 0 := fun x => by positivity
  fun_prop (disch := assumption)

theorem mvn_inv_le (x m : Vec d) (L : Mat d d) : mvn_logpdf x m 0 (some L) false ≤ 0 := by
  show (-0.5 : ℝ) * ∑ j, (L.mulVec (x - m)) j * (L.mulVec (x - m)) j - 0 ≤ 0
  have : 0 ≤ ∑ j, (L.mulVec (x - m)) j * (L.mulVec (x - m)) j := sum_nonneg fun j _ => mul_self_nonneg _
  linarith

theorem sv_far0 {ys : Traj (n + 1) d} (hy : ∀ j, ys 0 j ≠ 0) (D : SvDyn d) : Tendsto (svGamma_0 ys D) (cocompact _) atBot :=
  tendsto_atBot_mono (fun x => add_le_of_nonpos_right (mvn_inv_le x _ _)) (sv_potential_far hy)

theorem sv_far {y : Vec d} (hy : ∀ j, y j ≠ 0) (D : SvDyn d) : VanishesFar (svGamma_t D) y :=
  ⟨_, sv_potential_far hy, fun _ x => add_le_of_nonpos_right (mvn_inv_le x _ _)⟩

end Verif
