import Verif.Lemmas.KalmanLaws
import Verif.Lemmas.Experiments
import Verif.Lemmas.ExpRuns

/-!
# The stochastic volatility posterior has finite mass
-/

open scoped ENNReal
open MeasureTheory

namespace Verif
open Verif.Model Verif.Spec Verif.Props Matrix

variable {n d : ℕ}

/-- Exponential tilting of a Gaussian density. -/
theorem normal_tilt {P : Mat d d} (hP : P.PosDef) (m v x : Vec d) :
    normalLogpdf m P x + v ⬝ᵥ x = normalLogpdf (m + P *ᵥ v) P x + (v ⬝ᵥ m + v ⬝ᵥ (P *ᵥ v) / 2) := by
  have hdet : IsUnit P.det := isUnit_iff_ne_zero.mpr hP.det_pos.ne'
  have hPv : P⁻¹ *ᵥ (P *ᵥ v) = v := by rw [mulVec_mulVec, nonsing_inv_mul _ hdet, one_mulVec]
  have hsym : Pᵀ = P := hP.isHermitian.eq
  have hq : ∀ y : Vec d, (P *ᵥ v) ⬝ᵥ (P⁻¹ *ᵥ y) = v ⬝ᵥ y := fun y => by
    rw [dotProduct_comm, dotProduct_mulVec, ← mulVec_transpose, hsym, mulVec_mulVec, mul_nonsing_inv _ hdet, one_mulVec,
      dotProduct_comm]
  have e : x - (m + P *ᵥ v) = (x - m) - P *ᵥ v := by abel
  unfold normalLogpdf
  rw [e]
  generalize hy : x - m = y
  have hx : v ⬝ᵥ x = v ⬝ᵥ y + v ⬝ᵥ m := by rw [← hy, ← dotProduct_add, sub_add_cancel]
  rw [mulVec_sub, hPv, sub_dotProduct, dotProduct_sub, dotProduct_sub, hq, dotProduct_comm y v, dotProduct_comm (P *ᵥ v) v, hx]
  ring

/-- Exponential tilting of the density of a Gaussian path. -/
theorem gaussPath_tilt {P0 : Mat d d} {Fs Qs : Fin n → Mat d d} (hP : P0.PosDef) (hQ : ∀ t, (Qs t).PosDef) (bs : Fin n → Vec d)
    (a : Fin (n + 1) → Vec d) :
    ∃ (v : Vec d) (bs' : Fin n → Vec d) (c : ℝ), ∀ m0 x,
      gaussPathLog m0 P0 Fs Qs bs x + ∑ t, a t ⬝ᵥ x t = gaussPathLog (m0 + P0 *ᵥ v) P0 Fs Qs bs' x + (v ⬝ᵥ m0 + c) := by
  induction n generalizing P0 with
  | zero =>
    refine ⟨a 0, bs, a 0 ⬝ᵥ (P0 *ᵥ a 0) / 2, fun m0 x => ?_⟩
    simp only [gaussPathLog, pathLogDensity, Finset.univ_eq_empty, Finset.sum_empty, add_zero]
    rw [show ∑ t : Fin (0 + 1), a t ⬝ᵥ x t = a 0 ⬝ᵥ x 0 from Fin.sum_univ_one fun t : Fin 1 => a t ⬝ᵥ x t]
    exact normal_tilt hP m0 (a 0) (x 0)
  | succ n ih =>
    obtain ⟨v', bs', c', h⟩ := ih (P0 := Qs 0) (Fs := tailA Fs) (Qs := tailA Qs) (hQ 0) (fun t => hQ t.succ) (tailA bs) (tailA a)
    let v := a 0 + (Fs 0)ᵀ *ᵥ v'
    refine ⟨v, insert0 (bs 0 + Qs 0 *ᵥ v') bs', v ⬝ᵥ (P0 *ᵥ v) / 2 + (v' ⬝ᵥ bs 0 + c'), fun m0 x => ?_⟩
    obtain ⟨x0, x', rfl⟩ : ∃ x0 x', x = insert0 x0 x' := ⟨x 0, tailA x, by
      funext i; refine Fin.cases rfl (fun j => rfl) i⟩
    rw [gaussPathLog_succ, gaussPathLog_succ, Fin.sum_univ_succ]
    have h1 := h (Fs 0 *ᵥ x0 + bs 0) x'
    have h2 := normal_tilt hP m0 v x0
    have h3 : v' ⬝ᵥ (Fs 0 *ᵥ x0) = ((Fs 0)ᵀ *ᵥ v') ⬝ᵥ x0 := by rw [dotProduct_mulVec, mulVec_transpose]
    have h4 : v ⬝ᵥ x0 = a 0 ⬝ᵥ x0 + ((Fs 0)ᵀ *ᵥ v') ⬝ᵥ x0 := add_dotProduct _ _ _
    have e : Fs 0 *ᵥ x0 + bs 0 + Qs 0 *ᵥ v' = Fs 0 *ᵥ x0 + (bs 0 + Qs 0 *ᵥ v') := add_assoc _ _ _
    rw [e, dotProduct_add] at h1
    show normalLogpdf m0 P0 x0 + gaussPathLog (Fs 0 *ᵥ x0 + bs 0) (Qs 0) (tailA Fs) (tailA Qs) (tailA bs) x' +
      (a 0 ⬝ᵥ x0 + ∑ t, tailA a t ⬝ᵥ x' t) = normalLogpdf (m0 + P0 *ᵥ v) P0 x0 +
        gaussPathLog (Fs 0 *ᵥ x0 + (bs 0 + Qs 0 *ᵥ v')) (Qs 0) (tailA Fs) (tailA Qs) bs' x' + _
    linarith

/-- A Gaussian path has finite exponential moments. -/
theorem gaussPath_exp_moment (m0 : Vec d) {P0 : Mat d d} {Fs Qs : Fin n → Mat d d} (hP : P0.PosDef) (hQ : ∀ t, (Qs t).PosDef)
    (bs : Fin n → Vec d) (a : Fin (n + 1) → Vec d) :
    ∫⁻ x, ENNReal.ofReal (Real.exp (gaussPathLog m0 P0 Fs Qs bs x + ∑ t, a t ⬝ᵥ x t)) ∂trajVol (n + 1) d ≠ ∞ := by
  obtain ⟨v, bs', c, h⟩ := gaussPath_tilt (Fs := Fs) hP hQ bs a
  have h1 := priorPath_law (m0 + P0 *ᵥ v) (Fs := Fs) hP hQ bs' (fun _ => 1) measurable_const
  rw [lintegral_one, measure_univ] at h1
  have hm : Measurable fun x : Fin (n + 1) → Vec d => ENNReal.ofReal (Real.exp (gaussPathLog (m0 + P0 *ᵥ v) P0 Fs Qs bs' x)) :=
    (Real.measurable_exp.comp (measurable_gaussPathLog _ _ _ _ measurable_const measurable_id)).ennreal_ofReal
  simp only [h m0, Real.exp_add _ (v ⬝ᵥ m0 + c), ENNReal.ofReal_mul (Real.exp_pos _).le]
  rw [lintegral_mul_const _ hm]
  simp only [mul_one] at h1
  show (∫⁻ x, ENNReal.ofReal (Real.exp (gaussPathLog (m0 + P0 *ᵥ v) P0 Fs Qs bs' x)) ∂Measure.pi fun _ : Fin (n + 1) => volume) *
    _ ≠ ∞
  rw [← h1, one_mul]
  exact ENNReal.ofReal_ne_top

theorem svObs_le (ys x : Fin (n + 1) → Vec d) : svObs ys x ≤ ∑ t, (fun _ => -1 / 2 : Vec d) ⬝ᵥ x t := by
  unfold svObs
  refine Finset.sum_le_sum fun t _ => ?_
  rw [normalLogpdf_diagonal (fun j => Real.exp_pos _)]
  refine Finset.sum_le_sum fun j _ => ?_
  have hpi : 1 ≤ 2 * Real.pi := by nlinarith [Real.pi_gt_three]
  rw [Real.log_mul (by positivity) (Real.exp_pos _).ne', Real.log_exp]
  have h1 : 0 ≤ Real.log (2 * Real.pi) := Real.log_nonneg hpi
  have h2 : 0 ≤ (ys t j - (0 : Vec d) j) ^ 2 / Real.exp (x t j) := div_nonneg (sq_nonneg _) (Real.exp_pos _).le
  linarith

theorem exp_mass_ne_zero {T : ℕ} {l : Traj T d → ℝ} (hl : Measurable l) :
    ∫⁻ x, ENNReal.ofReal (Real.exp (l x)) ∂trajVol T d ≠ 0 := by
  have hm : Measurable fun x => ENNReal.ofReal (Real.exp (l x)) := (Real.measurable_exp.comp hl).ennreal_ofReal
  intro h
  rw [lintegral_eq_zero_iff hm] at h
  have hne : (trajVol T d) ≠ 0 := by
    intro h0
    have h1 : trajVol T d Set.univ = 0 := by rw [h0]; rfl
    have h2 : trajVol T d Set.univ ≠ 0 := by
      rw [trajVol, Measure.pi_univ]
      refine Finset.prod_ne_zero_iff.mpr fun t _ => ?_
      exact (Measure.measure_univ_ne_zero.mpr (NeZero.ne _))
    exact h2 h1
  have : (ae (trajVol T d)).NeBot := ae_neBot.mpr hne
  obtain ⟨x, hx⟩ := h.exists
  exact (ENNReal.ofReal_pos.mpr (Real.exp_pos _)).ne' hx

theorem svTarget_mass (m0 : Vec d) {P0 Q : Mat d d} (F : Mat d d) (hP : P0.PosDef) (hQ : Q.PosDef) (b : Vec d)
    (ys : Traj (n + 1) d) (hl : Measurable (svTarget m0 P0 F Q b ys)) :
    ∫⁻ x, ENNReal.ofReal (Real.exp (svTarget m0 P0 F Q b ys x)) ∂trajVol (n + 1) d ≠ 0 ∧
      ∫⁻ x, ENNReal.ofReal (Real.exp (svTarget m0 P0 F Q b ys x)) ∂trajVol (n + 1) d ≠ ∞ := by
  refine ⟨exp_mass_ne_zero hl, ne_top_of_le_ne_top (gaussPath_exp_moment m0 (Fs := fun _ : Fin n => F) (Qs := fun _ => Q) hP
    (fun _ => hQ) (fun _ => b) fun _ _ => -1 / 2) (lintegral_mono fun x => ENNReal.ofReal_le_ofReal (Real.exp_le_exp.mpr ?_))⟩
  have h : svTarget m0 P0 F Q b ys x = gaussPathLog m0 P0 (fun _ => F) (fun _ => Q) (fun _ => b) x + svObs ys x := rfl
  rw [h]
  have := svObs_le ys x
  gcongr

end Verif
