import Verif.Lemmas.SvMass
import Verif.Props.SvRuns

/-!
# The stochastic volatility posterior has finite second moments
-/

open scoped ENNReal
open MeasureTheory

namespace Verif
open Verif.Model Verif.Spec Verif.Props Matrix

variable {n d : ℕ}

theorem sq_le_exp (x : ℝ) : x ^ 2 ≤ 2 * (Real.exp x + Real.exp (-x)) := by
  rcases le_total 0 x with h | h
  · have := Real.quadratic_le_exp_of_nonneg h
    have := Real.exp_pos (-x)
    nlinarith
  · have := Real.quadratic_le_exp_of_nonneg (neg_nonneg.mpr h)
    have := Real.exp_pos x
    nlinarith

theorem svTarget_moment (m0 : Vec d) {P0 Q : Mat d d} (F : Mat d d) (hP : P0.PosDef) (hQ : Q.PosDef) (b : Vec d)
    (ys : Traj (n + 1) d) (t : Fin (n + 1)) (j : Fin d) :
    ∫⁻ x, ENNReal.ofReal (Real.exp (svTarget m0 P0 F Q b ys x)) * ENNReal.ofReal (x t j ^ 2) ∂trajVol (n + 1) d ≠ ∞ := by
  let a : ℝ → Fin (n + 1) → Vec d := fun s u i => -1 / 2 + if u = t ∧ i = j then s else 0
  let G : ℝ → Traj (n + 1) d → ℝ := fun s x => gaussPathLog m0 P0 (fun _ : Fin n => F) (fun _ => Q) (fun _ => b) x + ∑ u, a s u ⬝ᵥ x u
  have hG : ∀ s, ∫⁻ x, ENNReal.ofReal (Real.exp (G s x)) ∂trajVol (n + 1) d ≠ ∞ := fun s =>
    gaussPath_exp_moment m0 (Fs := fun _ : Fin n => F) (Qs := fun _ => Q) hP (fun _ => hQ) (fun _ => b) (a s)
  have hGm : ∀ s, Measurable fun x => ENNReal.ofReal (Real.exp (G s x)) := fun s => by
    have h1 : Measurable fun x : Traj (n + 1) d => gaussPathLog m0 P0 (fun _ : Fin n => F) (fun _ => Q) (fun _ => b) x :=
      measurable_gaussPathLog _ _ _ _ measurable_const measurable_id
    have h2 : Measurable fun x : Traj (n + 1) d => ∑ u, a s u ⬝ᵥ x u := by
      unfold dotProduct
      fun_prop
    exact (Real.measurable_exp.comp (h1.add h2)).ennreal_ofReal
  have ha : ∀ s (x : Traj (n + 1) d), ∑ u, a s u ⬝ᵥ x u = ∑ u, (fun _ => -1 / 2 : Vec d) ⬝ᵥ x u + s * x t j := fun s x => by
    have e : ∀ u, a s u = (fun _ => -1 / 2 : Vec d) + if u = t then Pi.single j s else 0 := fun u => by
      funext i
      by_cases hu : u = t
      · by_cases hi : i = j <;> simp [a, hu, hi]
      · simp [a, hu]
    simp only [e, add_dotProduct, Finset.sum_add_distrib]
    congr 1
    rw [Finset.sum_eq_single t (fun u _ hu => by simp [hu]) (by simp)]
    simp
  have key : ∀ x, ENNReal.ofReal (Real.exp (svTarget m0 P0 F Q b ys x)) * ENNReal.ofReal (x t j ^ 2) ≤
      2 * (ENNReal.ofReal (Real.exp (G 1 x)) + ENNReal.ofReal (Real.exp (G (-1) x))) := fun x => by
    rw [← ENNReal.ofReal_mul (Real.exp_pos _).le, ← ENNReal.ofReal_add (Real.exp_pos _).le (Real.exp_pos _).le,
      show (2 : ℝ≥0∞) = ENNReal.ofReal 2 by simp, ← ENNReal.ofReal_mul (by norm_num)]
    refine ENNReal.ofReal_le_ofReal ?_
    obtain ⟨B, hB⟩ : ∃ B, B = gaussPathLog m0 P0 (fun _ : Fin n => F) (fun _ => Q) (fun _ => b) x + ∑ u, (fun _ => -1 / 2 : Vec d) ⬝ᵥ x u := ⟨_, rfl⟩
    have h1 : svTarget m0 P0 F Q b ys x ≤ B := by
      rw [hB]
      have h : svTarget m0 P0 F Q b ys x = gaussPathLog m0 P0 (fun _ => F) (fun _ => Q) (fun _ => b) x + svObs ys x := rfl
      rw [h]
      have := svObs_le ys x
      gcongr
    have h2 : ∀ s, G s x = B + s * x t j := fun s => by
      simp only [G]
      rw [ha, hB, add_assoc]
    rw [h2, h2, Real.exp_add, Real.exp_add]
    have h3 := sq_le_exp (x t j)
    calc Real.exp (svTarget m0 P0 F Q b ys x) * x t j ^ 2 ≤ Real.exp B * (2 * (Real.exp (x t j) + Real.exp (-x t j))) := by
          gcongr
      _ = _ := by rw [one_mul, neg_one_mul]; ring
  refine ne_top_of_le_ne_top ?_ (lintegral_mono key)
  have hadd : Measurable fun x => ENNReal.ofReal (Real.exp (G 1 x)) + ENNReal.ofReal (Real.exp (G (-1) x)) := (hGm 1).add (hGm (-1))
  rw [lintegral_const_mul _ hadd, lintegral_add_left (hGm 1)]
  exact ENNReal.mul_ne_top (by simp) (ENNReal.add_ne_top.mpr ⟨hG 1, hG (-1)⟩)

/-- The second moments of the posterior. -/
theorem svPosterior_sq {tau : ℤ} (k : SvType) (ht : 0 < tau) (ys : Traj (n + 1) d) (t : Fin (n + 1)) (j : Fin d) :
    Integrable (fun x => x t j ^ 2) (svPosterior k tau ys) := by
  have hP := svDynArgs_P0 ht d
  have hQ := svDynArgs_Q ht d
  obtain ⟨hl, hZ⟩ := svSampled_mass k ht ys
  have hm : Measurable fun x : Traj (n + 1) d => x t j ^ 2 := by fun_prop
  refine ⟨hm.aestronglyMeasurable, ?_⟩
  have e : ∀ x : Traj (n + 1) d, ‖x t j ^ 2‖ₑ = ENNReal.ofReal (x t j ^ 2) := fun x => by
    rw [Real.enorm_eq_ofReal (sq_nonneg _)]
  simp only [HasFiniteIntegral, e]
  rw [svPosterior, lintegral_lawOf hl hm.ennreal_ofReal]
  refine (ENNReal.mul_ne_top (ENNReal.inv_ne_top.mpr hZ.1) ?_).lt_top
  unfold svSampled
  split_ifs
  · rw [svIndependent_eq]
    exact svTarget_moment _ 0 hP hQ 0 ys t j
  · exact svTarget_moment _ _ hP hQ _ ys t j

theorem svPosterior_int {tau : ℤ} (k : SvType) (ht : 0 < tau) (ys : Traj (n + 1) d) (t : Fin (n + 1)) (j : Fin d) :
    Integrable (fun x => x t j) (svPosterior k tau ys) := by
  have := C67_proper (n := n) (d := d) k ht ys
  have hm : Measurable fun x : Traj (n + 1) d => x t j := by fun_prop
  refine ((svPosterior_sq k ht ys t j).add (integrable_const (1 : ℝ))).mono' hm.aestronglyMeasurable (Filter.Eventually.of_forall fun x => ?_)
  rw [Real.norm_eq_abs]
  show |x t j| ≤ x t j ^ 2 + 1
  rw [← sq_abs]
  nlinarith [sq_nonneg (|x t j| - 1), abs_nonneg (x t j)]

end Verif
