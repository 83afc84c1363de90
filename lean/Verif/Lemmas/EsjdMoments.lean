import Verif.Lemmas.Esjd
import Mathlib.Algebra.Order.Chebyshev
import Mathlib.LinearAlgebra.BilinearForm.Properties
import Mathlib.Probability.Moments.MGFAnalytic

/-!
# Moments of the posterior of the linear Gaussian model

Every coordinate of the posterior, minus the posterior mode, has the moment generating function of a normal variable of variance at most
one.
-/

open scoped ENNReal
open MeasureTheory ProbabilityTheory Matrix

namespace Verif
open Verif.Model Verif.Spec Verif.Props

variable {n d : ℕ}

/-! ## The log-density is quadratic -/

/-- Precision of the posterior; `a = 1 / σ²`. -/
noncomputable def lgForm (a : ℝ) (n d : ℕ) : LinearMap.BilinForm ℝ (Traj (n + 1) d) :=
  LinearMap.mk₂ ℝ (fun x z => a * (∑ j, x 0 j * z 0 j) +
      a * (∑ t : Fin n, ∑ j, (x t.succ j - x t.castSucc j) * (z t.succ j - z t.castSucc j)) + ∑ t, ∑ j, x t j * z t j)
    (fun x x' z => by
      simp only [Pi.add_apply, add_sub_add_comm, add_mul, Finset.sum_add_distrib, mul_add]
      ring)
    (fun c x z => by
      simp only [Pi.smul_apply, smul_eq_mul, ← mul_sub, mul_assoc, ← Finset.mul_sum]
      ring)
    (fun x z z' => by
      simp only [Pi.add_apply, add_sub_add_comm, mul_add, Finset.sum_add_distrib]
      ring)
    (fun c x z => by
      simp only [Pi.smul_apply, smul_eq_mul, ← mul_sub, mul_left_comm _ c, ← Finset.mul_sum]
      ring)

theorem lgForm_apply (a : ℝ) (x z : Traj (n + 1) d) : lgForm a n d x z = a * (∑ j, x 0 j * z 0 j) +
      a * (∑ t : Fin n, ∑ j, (x t.succ j - x t.castSucc j) * (z t.succ j - z t.castSucc j)) + ∑ t, ∑ j, x t j * z t j := rfl

theorem lgForm_symm (a : ℝ) (x z : Traj (n + 1) d) : lgForm a n d x z = lgForm a n d z x := by
  simp only [lgForm_apply, mul_comm (x _ _), mul_comm (x _ _ - x _ _)]

theorem lgForm_ge {a : ℝ} (ha : 0 ≤ a) (x : Traj (n + 1) d) (t : Fin (n + 1)) (j : Fin d) : x t j ^ 2 ≤ lgForm a n d x x := by
  rw [lgForm_apply]
  have h1 : 0 ≤ a * (∑ j, x 0 j * x 0 j) := mul_nonneg ha (Finset.sum_nonneg fun _ _ => mul_self_nonneg _)
  have h2 : 0 ≤ a * (∑ t : Fin n, ∑ j, (x t.succ j - x t.castSucc j) * (x t.succ j - x t.castSucc j)) :=
    mul_nonneg ha (Finset.sum_nonneg fun _ _ => Finset.sum_nonneg fun _ _ => mul_self_nonneg _)
  have h3 : x t j * x t j ≤ ∑ j, x t j * x t j :=
    Finset.single_le_sum (f := fun j => x t j * x t j) (fun _ _ => mul_self_nonneg _) (Finset.mem_univ j)
  have h4 : ∑ j, x t j * x t j ≤ ∑ t, ∑ j, x t j * x t j :=
    Finset.single_le_sum (f := fun t => ∑ j, x t j * x t j) (fun _ _ => Finset.sum_nonneg fun _ _ => mul_self_nonneg _) (Finset.mem_univ t)
  nlinarith

theorem lgForm_nondeg {a : ℝ} (ha : 0 ≤ a) : (lgForm a n d).Nondegenerate := by
  have h : ∀ x : Traj (n + 1) d, lgForm a n d x x = 0 → x = 0 := fun x hx => by
    funext t j
    have h1 := lgForm_ge ha x t j
    rw [hx] at h1
    exact pow_eq_zero_iff two_ne_zero |>.mp (le_antisymm h1 (sq_nonneg _))
  exact ⟨fun x hx => h x (hx x), fun x hx => h x (hx x)⟩

theorem normalLogpdf_scaled {s : ℝ} (hs : 0 < s) (m x : Vec d) : normalLogpdf m (s • 1) x =
    -(s⁻¹ * ∑ j, (x j - m j) * (x j - m j)) / 2 - d / 2 * Real.log (2 * Real.pi) - Real.log ((s • 1 : Mat d d)).det / 2 := by
  have hinv : (s • (1 : Mat d d))⁻¹ = s⁻¹ • 1 := by
    apply Matrix.inv_eq_left_inv
    rw [smul_mul_smul_comm, inv_mul_cancel₀ hs.ne', one_smul, one_mul]
  unfold normalLogpdf
  rw [hinv, smul_mulVec, one_mulVec, dotProduct_smul, smul_eq_mul]
  rfl

/-- The log-density of the model. -/
theorem lgTarget_form {sigma : ℝ} (hs : 0 < sigma) (ys : Traj (n + 1) d) : ∃ K : ℝ, ∀ x : Traj (n + 1) d,
    lgTarget sigma ys x = K - lgForm ((sigma ^ 2)⁻¹) n d x x / 2 + ∑ t, ∑ j, ys t j * x t j := by
  have hs2 : 0 < sigma ^ 2 := pow_pos hs 2
  obtain ⟨c, hc⟩ : ∃ c : ℝ, c = d / 2 * Real.log (2 * Real.pi) := ⟨_, rfl⟩
  obtain ⟨e, he⟩ : ∃ e : ℝ, e = Real.log ((sigma ^ 2 • 1 : Mat d d)).det / 2 := ⟨_, rfl⟩
  refine ⟨-c - e - n * (c + e) - (∑ t, ∑ j, ys t j * ys t j) / 2 - (n + 1 : ℕ) * c, fun x => ?_⟩
  unfold lgTarget gaussPathLog pathLogDensity obsLog
  have h1 : ∀ t, normalLogpdf ((1 : Mat d d) *ᵥ x t + 0) 1 (ys t) =
      -(∑ j, ys t j * ys t j) / 2 + (∑ j, ys t j * x t j) - (∑ j, x t j * x t j) / 2 - c := fun t => by
    have h := normalLogpdf_scaled one_pos ((1 : Mat d d) *ᵥ x t + 0) (ys t)
    rw [one_smul, one_mulVec, add_zero, det_one, Real.log_one, zero_div, sub_zero, ← hc, inv_one, one_mul] at h
    rw [one_mulVec, add_zero, h]
    have : ∑ j, (ys t j - x t j) * (ys t j - x t j) = ∑ j, ys t j * ys t j - 2 * ∑ j, ys t j * x t j + ∑ j, x t j * x t j := by
      rw [Finset.mul_sum, ← Finset.sum_sub_distrib, ← Finset.sum_add_distrib]
      exact Finset.sum_congr rfl fun j _ => by ring
    rw [this]
    ring
  rw [Finset.sum_congr rfl fun t _ => h1 t]
  simp only [normalLogpdf_scaled hs2, one_mulVec, add_zero, ← hc, ← he, Pi.zero_apply, sub_zero, lgForm_apply]
  simp only [Finset.sum_sub_distrib, Finset.sum_add_distrib, ← Finset.sum_div, Finset.sum_neg_distrib, Finset.sum_const, Finset.card_univ,
    Fintype.card_fin, nsmul_eq_mul, ← Finset.mul_sum]
  push_cast
  ring

/-- Tilting the density by a coordinate amounts to a shift. -/
theorem lgTarget_tilt {sigma : ℝ} (hs : 0 < sigma) (ys : Traj (n + 1) d) : ∃ m : Traj (n + 1) d, ∀ t j, ∃ (w : Traj (n + 1) d) (v : ℝ),
    0 ≤ v ∧ v ≤ 1 ∧ ∀ (l : ℝ) (x : Traj (n + 1) d),
      lgTarget sigma ys x + l * (x t j - m t j) = lgTarget sigma ys (x - l • w) + v * l ^ 2 / 2 := by
  have ha : 0 ≤ (sigma ^ 2)⁻¹ := by positivity
  have hB := lgForm_nondeg (n := n) (d := d) ha
  have hR := fun (f : Module.Dual ℝ (Traj (n + 1) d)) z => LinearMap.BilinForm.apply_toDual_symm_apply (hB := hB) (f := f) (v := z)
  obtain ⟨K, hK⟩ := lgTarget_form hs ys
  let L : Module.Dual ℝ (Traj (n + 1) d) := ∑ t, ∑ j, ys t j • (LinearMap.proj (R := ℝ) (φ := fun _ : Fin d => ℝ) j ∘ₗ LinearMap.proj (R := ℝ) (φ := fun _ : Fin (n + 1) => Vec d) t)
  have hL : ∀ x, L x = ∑ t, ∑ j, ys t j * x t j := fun x => by simp [L, LinearMap.sum_apply]
  obtain ⟨m, hm⟩ : ∃ m, ∀ z, lgForm ((sigma ^ 2)⁻¹) n d m z = L z := ⟨_, hR L⟩
  refine ⟨m, fun t j => ?_⟩
  let E : Module.Dual ℝ (Traj (n + 1) d) := LinearMap.proj (R := ℝ) (φ := fun _ : Fin d => ℝ) j ∘ₗ LinearMap.proj (R := ℝ) (φ := fun _ : Fin (n + 1) => Vec d) t
  obtain ⟨w, hw⟩ : ∃ w, ∀ z, lgForm ((sigma ^ 2)⁻¹) n d w z = E z := ⟨_, hR E⟩
  have hE : ∀ z, E z = z t j := fun z => rfl
  have hv := lgForm_ge ha w t j
  rw [hw w, hE] at hv
  have hwm : m t j = L w := by rw [← hm w, lgForm_symm, hw m, hE]
  refine ⟨w, w t j, (sq_nonneg _).trans hv, by nlinarith, fun l x => ?_⟩
  have h1 : lgForm ((sigma ^ 2)⁻¹) n d (x - l • w) (x - l • w) = lgForm ((sigma ^ 2)⁻¹) n d x x - 2 * l * x t j + l ^ 2 * w t j := by
    simp only [map_sub, map_smul, LinearMap.sub_apply, LinearMap.smul_apply, lgForm_symm _ x w, hw, hE, smul_eq_mul]
    ring
  have h2 : L (x - l • w) = L x - l * L w := by rw [map_sub, map_smul, smul_eq_mul]
  rw [hK, hK, ← hL, ← hL, h1, h2, hwm]
  ring

/-! ## Moments -/

theorem four_moment {Ω : Type} [MeasurableSpace Ω] {P : Measure Ω} [IsProbabilityMeasure P] {X : Ω → ℝ} {v : ℝ}
    (hi : ∀ l, Integrable (fun ω => Real.exp (l * X ω)) P) (h : ∀ l, mgf X P l = Real.exp (v * l ^ 2 / 2)) :
    ∫ ω, X ω ^ 2 ∂P = v ∧ ∫ ω, X ω ^ 4 ∂P = 3 * v ^ 2 := by
  have hz : (0 : ℝ) ∈ interior (integrableExpSet X P) := by
    have : integrableExpSet X P = Set.univ := Set.eq_univ_of_forall fun l => hi l
    rw [this, interior_univ]
    trivial
  have hm : mgf X P = fun l => Real.exp (v * l ^ 2 / 2) := funext h
  have h0 : ∀ l, HasDerivAt (fun l : ℝ => Real.exp (v * l ^ 2 / 2)) (v * l * Real.exp (v * l ^ 2 / 2)) l := fun l => by
    have h1 : HasDerivAt (fun l : ℝ => v * l ^ 2 / 2) (v * (2 * l) / 2) l := by
      simpa using (((hasDerivAt_pow 2 l).const_mul v).div_const 2)
    convert h1.exp using 1
    ring
  have step : ∀ (p p' : ℝ → ℝ), (∀ l, HasDerivAt p (p' l) l) →
      deriv (fun l => p l * Real.exp (v * l ^ 2 / 2)) = fun l => (p' l + p l * (v * l)) * Real.exp (v * l ^ 2 / 2) := fun p p' hp => by
    funext l
    refine ((hp l).mul (h0 l)).deriv.trans ?_
    ring
  have d1 : deriv (fun l : ℝ => Real.exp (v * l ^ 2 / 2)) = fun l => (v * l) * Real.exp (v * l ^ 2 / 2) := funext fun l => (h0 l).deriv
  have d2 : deriv (fun l : ℝ => (v * l) * Real.exp (v * l ^ 2 / 2)) = fun l => (v + v ^ 2 * l ^ 2) * Real.exp (v * l ^ 2 / 2) := by
    rw [step _ (fun _ => v) fun l => by simpa using (hasDerivAt_id l).const_mul v]
    funext l
    ring
  have d3 : deriv (fun l : ℝ => (v + v ^ 2 * l ^ 2) * Real.exp (v * l ^ 2 / 2)) =
      fun l => (3 * v ^ 2 * l + v ^ 3 * l ^ 3) * Real.exp (v * l ^ 2 / 2) := by
    rw [step _ (fun l => v ^ 2 * (2 * l)) fun l => by simpa using ((hasDerivAt_pow 2 l).const_mul (v ^ 2)).const_add v]
    funext l
    ring
  have d4 : deriv (fun l : ℝ => (3 * v ^ 2 * l + v ^ 3 * l ^ 3) * Real.exp (v * l ^ 2 / 2)) =
      fun l => (3 * v ^ 2 + v ^ 3 * (3 * l ^ 2) + (3 * v ^ 2 * l + v ^ 3 * l ^ 3) * (v * l)) * Real.exp (v * l ^ 2 / 2) := by
    rw [step _ (fun l => 3 * v ^ 2 + v ^ 3 * (3 * l ^ 2)) fun l => by
      have h := ((hasDerivAt_id l).const_mul (3 * v ^ 2)).add ((hasDerivAt_pow 3 l).const_mul (v ^ 3))
      rw [mul_one] at h
      exact_mod_cast h]
  have i2 : iteratedDeriv 2 (mgf X P) = fun l => (v + v ^ 2 * l ^ 2) * Real.exp (v * l ^ 2 / 2) := by
    rw [hm, iteratedDeriv_succ, iteratedDeriv_succ, iteratedDeriv_zero, d1, d2]
  have i4 : iteratedDeriv 4 (mgf X P) =
      fun l => (3 * v ^ 2 + v ^ 3 * (3 * l ^ 2) + (3 * v ^ 2 * l + v ^ 3 * l ^ 3) * (v * l)) * Real.exp (v * l ^ 2 / 2) := by
    rw [iteratedDeriv_succ, iteratedDeriv_succ, i2, d3, d4]
  have m2 := iteratedDeriv_mgf_zero hz 2
  have m4 := iteratedDeriv_mgf_zero hz 4
  rw [i2] at m2
  rw [i4] at m4
  simp at m2 m4
  exact ⟨m2.symm, m4.symm⟩

/-- The posterior has a centre about which every coordinate has second moment at most `1` and fourth moment at most `3`. -/
theorem lgPosterior_moments {sigma : ℝ} (hs : 0 < sigma) (ys : Traj (n + 1) d) : ∃ m : Traj (n + 1) d, ∀ t j,
    ∫⁻ x, ENNReal.ofReal ((x t j - m t j) ^ 2) ∂lgPosterior sigma ys ≤ 1 ∧
    ∫⁻ x, ENNReal.ofReal ((x t j - m t j) ^ 4) ∂lgPosterior sigma ys ≤ 3 := by
  have : Fact (0 < sigma) := ⟨hs⟩
  obtain ⟨m, hm⟩ := lgTarget_tilt hs ys
  refine ⟨m, fun t j => ?_⟩
  obtain ⟨w, v, hv0, hv1, h⟩ := hm t j
  have hZ := lgTarget_mass hs ys
  have hX : Measurable fun x : Traj (n + 1) d => x t j - m t j := by fun_prop
  have hmg : ∀ l : ℝ, ∫⁻ x, ENNReal.ofReal (Real.exp (l * (x t j - m t j))) ∂lgPosterior sigma ys = ENNReal.ofReal (Real.exp (v * l ^ 2 / 2)) := by
    intro l
    rw [lgPosterior, lintegral_lawOf (measurable_lgTarget ys hs) (by fun_prop)]
    have e : ∀ x : Traj (n + 1) d, ENNReal.ofReal (Real.exp (lgTarget sigma ys x)) * ENNReal.ofReal (Real.exp (l * (x t j - m t j))) =
        ENNReal.ofReal (Real.exp (v * l ^ 2 / 2)) * ENNReal.ofReal (Real.exp (lgTarget sigma ys (x - l • w))) := fun x => by
      rw [← ENNReal.ofReal_mul (Real.exp_pos _).le, ← ENNReal.ofReal_mul (Real.exp_pos _).le, ← Real.exp_add, ← Real.exp_add, h, add_comm]
    simp only [e]
    rw [lintegral_const_mul' _ _ ENNReal.ofReal_ne_top,
      lintegral_sub_right_eq_self (fun x => ENNReal.ofReal (Real.exp (lgTarget sigma ys x))) (l • w), mul_left_comm,
      ENNReal.inv_mul_cancel hZ.1 hZ.2, mul_one]
  have hi : ∀ l : ℝ, Integrable (fun x : Traj (n + 1) d => Real.exp (l * (x t j - m t j))) (lgPosterior sigma ys) := fun l => by
    refine ⟨(by fun_prop : Measurable fun x : Traj (n + 1) d => Real.exp (l * (x t j - m t j))).aestronglyMeasurable, ?_⟩
    simp only [HasFiniteIntegral, Real.enorm_eq_ofReal (Real.exp_pos _).le, hmg]
    exact ENNReal.ofReal_lt_top
  have hl : ∀ l, mgf (fun x : Traj (n + 1) d => x t j - m t j) (lgPosterior sigma ys) l = Real.exp (v * l ^ 2 / 2) := fun l => by
    rw [mgf, integral_eq_lintegral_of_nonneg_ae (ae_of_all _ fun _ => (Real.exp_pos _).le) (hi l).1, hmg,
      ENNReal.toReal_ofReal (Real.exp_pos _).le]
  obtain ⟨h2, h4⟩ := four_moment hi hl
  have hint : ∀ p : ℕ, Integrable (fun x : Traj (n + 1) d => (x t j - m t j) ^ p) (lgPosterior sigma ys) := fun p =>
    integrable_pow_of_mem_interior_integrableExpSet (X := fun x : Traj (n + 1) d => x t j - m t j) (by
      have : integrableExpSet (fun x : Traj (n + 1) d => x t j - m t j) (lgPosterior sigma ys) = Set.univ := Set.eq_univ_of_forall fun l => hi l
      rw [this, interior_univ]
      trivial) p
  refine ⟨?_, ?_⟩
  · rw [← ofReal_integral_eq_lintegral_ofReal (hint 2) (ae_of_all _ fun _ => sq_nonneg _), h2]
    exact (ENNReal.ofReal_le_ofReal hv1).trans (by simp)
  · rw [← ofReal_integral_eq_lintegral_ofReal (hint 4) (ae_of_all _ fun _ => by positivity), h4]
    refine (ENNReal.ofReal_le_ofReal (q := 3) (by nlinarith)).trans (by simp)

/-- The spread of the posterior, in numbers. -/
theorem lgPosterior_spread_le {sigma : ℝ} (hs : 0 < sigma) (ys : Traj (n + 1) d) : ∃ m : Traj (n + 1) d, ∀ t,
    spread (lgPosterior sigma ys) (m t) t 1 ≤ d ∧ spread (lgPosterior sigma ys) (m t) t 2 ≤ 3 * d ^ 2 := by
  obtain ⟨m, hm⟩ := lgPosterior_moments hs ys
  refine ⟨m, fun t => ⟨?_, ?_⟩⟩
  · unfold spread
    simp only [pow_one]
    rw [lintegral_congr fun x => ENNReal.ofReal_sum_of_nonneg fun j _ => sq_nonneg (x t j - m t j),
      lintegral_finsetSum _ fun j _ => by fun_prop]
    refine (Finset.sum_le_sum fun j _ => (hm t j).1).trans ?_
    simp
  · unfold spread
    refine (lintegral_mono (g := fun x => (d : ℝ≥0∞) * ∑ j, ENNReal.ofReal ((x t j - m t j) ^ 4)) fun x => ?_).trans ?_
    · show _ ≤ (d : ℝ≥0∞) * ∑ j, ENNReal.ofReal ((x t j - m t j) ^ 4)
      rw [← ENNReal.ofReal_sum_of_nonneg fun j _ => by positivity, ← ENNReal.ofReal_natCast, ← ENNReal.ofReal_mul (Nat.cast_nonneg _)]
      refine ENNReal.ofReal_le_ofReal ?_
      have h := sq_sum_le_card_mul_sum_sq (s := Finset.univ) (f := fun j => (x t j - m t j) ^ 2)
      simpa [← pow_mul] using h
    · rw [lintegral_const_mul' _ _ (ENNReal.natCast_ne_top _), lintegral_finsetSum _ fun j _ => by fun_prop]
      have h1 : ∑ j, ∫⁻ x, ENNReal.ofReal ((x t j - m t j) ^ 4) ∂lgPosterior sigma ys ≤ d * 3 :=
        (Finset.sum_le_sum fun j _ => (hm t j).2).trans (by simp)
      calc (d : ℝ≥0∞) * ∑ j, ∫⁻ x, ENNReal.ofReal ((x t j - m t j) ^ 4) ∂lgPosterior sigma ys ≤ d * (d * 3) := by gcongr
        _ = 3 * d ^ 2 := by ring

end Verif
