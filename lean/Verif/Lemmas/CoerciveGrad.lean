import Verif.Lemmas.LargeTrajSteps
import Mathlib.Analysis.Convex.Deriv
import Mathlib.Analysis.Convex.Mul
import Mathlib.Analysis.Convex.SpecificFunctions.Basic
import Mathlib.Analysis.Normed.Module.FiniteDimension

/-!
# Log-densities that are strongly concave along lines: helpers
-/

open scoped ENNReal Topology Matrix
open MeasureTheory Finset Filter

namespace Verif
open Verif.Model Verif.Spec

variable {n T d : ℕ}

/-- `φ s + q s²` is concave. -/
def SConc (φ : ℝ → ℝ) (q : ℝ) : Prop := ConcaveOn ℝ Set.univ fun s => φ s + q * s ^ 2

theorem sconc_affine (a b : ℝ) : SConc (fun s => a + b * s) 0 := by
  refine ⟨convex_univ, fun x _ y _ u v _ _ huv => le_of_eq ?_⟩
  simp only [smul_eq_mul]
  linear_combination a * huv

theorem SConc.mono {φ : ℝ → ℝ} {q q' : ℝ} (h : SConc φ q) (hq : q' ≤ q) : SConc φ q' := by
  have h2 : ConcaveOn ℝ Set.univ (-fun s : ℝ => (q - q') • s ^ 2) := ((even_two.convexOn_pow (𝕜 := ℝ)).smul (sub_nonneg.mpr hq)).neg
  refine (ConcaveOn.add h h2).congr fun s _ => ?_
  simp only [Pi.add_apply, Pi.neg_apply, smul_eq_mul]
  ring

theorem SConc.add {φ ψ : ℝ → ℝ} {q r : ℝ} (h : SConc φ q) (h' : SConc ψ r) : SConc (fun s => φ s + ψ s) (q + r) := by
  refine (ConcaveOn.add h h').congr fun s _ => ?_
  simp only [Pi.add_apply]
  ring

theorem SConc.sum {k : ℕ} {φ : Fin k → ℝ → ℝ} {q : Fin k → ℝ} (h : ∀ i, SConc (φ i) (q i)) : SConc (fun s => ∑ i, φ i s) (∑ i, q i) := by
  induction k with
  | zero => simpa using sconc_affine 0 0
  | succ k ih =>
    simp only [Fin.sum_univ_succ]
    exact (h 0).add (ih fun i => h i.succ)

theorem SConc.congr {φ ψ : ℝ → ℝ} {q : ℝ} (h : SConc φ q) (e : ∀ s, φ s = ψ s) : SConc ψ q := by
  have : φ = ψ := funext e
  rwa [← this]

theorem sconc_sq (k a c : ℝ) : SConc (fun s => k - (s * a - c) ^ 2 / 2) (a ^ 2 / 2) := by
  refine (sconc_affine (k - c ^ 2 / 2) (a * c)).congr (q := 0) (fun _ => rfl) |> fun h => ?_
  unfold SConc at h ⊢
  refine h.congr fun s _ => ?_
  ring

theorem fderiv_eq_dot2 {f : Traj T d → ℝ} (x v : Traj T d) : fderiv ℝ f x v = dot2 (jaxGrad2 f x) v := by
  have e : v = ∑ t, ∑ j, v t j • (Pi.single t (Pi.single j 1) : Traj T d) := by
    funext t j
    simp only [Finset.sum_apply, Pi.smul_apply, smul_eq_mul]
    rw [sum_eq_single t (fun t' _ h => ?_) (by simp)]
    · rw [sum_eq_single j (fun j' _ h => ?_) (by simp)]
      · simp
      · simp [Pi.single_eq_of_ne h.symm]
    · simp [Pi.single_eq_of_ne h.symm]
  conv_lhs => rw [e]
  simp only [map_sum, map_smul, smul_eq_mul, dot2, jaxGrad2]
  refine sum_congr rfl fun t _ => sum_congr rfl fun j _ => mul_comm _ _

section lines
variable {f : Traj T d → ℝ} (hf : Differentiable ℝ f) {lam : ℝ} (h : ∀ x, SConc (fun s => f (s • x)) (lam / 2 * ‖x‖ ^ 2))
include hf

theorem line_deriv (x : Traj T d) (q s : ℝ) : HasDerivAt (fun s : ℝ => f (s • x) + q * s ^ 2) (dot2 (jaxGrad2 f (s • x)) x + q * (2 * s)) s := by
  have h1 : HasDerivAt (fun s : ℝ => s • x) x s := by simpa using (hasDerivAt_id s).smul_const x
  have h2 := (hf (s • x)).hasFDerivAt.comp_hasDerivAt s h1
  rw [fderiv_eq_dot2] at h2
  have h3 := ((hasDerivAt_pow 2 s).const_mul q)
  refine (h2.add h3).congr_deriv ?_
  simp

include h

theorem grad_line (x : Traj T d) : dot2 (jaxGrad2 f x) x + lam * ‖x‖ ^ 2 ≤ dot2 (jaxGrad2 f 0) x := by
  have h0 := line_deriv hf x (lam / 2 * ‖x‖ ^ 2) 0
  have h1 := line_deriv hf x (lam / 2 * ‖x‖ ^ 2) 1
  have e := ((h x).le_slope_of_hasDerivAt (Set.mem_univ 0) (Set.mem_univ 1) one_pos h1).trans
    ((h x).slope_le_of_hasDerivAt (Set.mem_univ 0) (Set.mem_univ 1) one_pos h0)
  simp only [zero_smul, one_smul] at e
  linarith

theorem val_line (x : Traj T d) : f x + lam / 2 * ‖x‖ ^ 2 ≤ f 0 + dot2 (jaxGrad2 f 0) x := by
  have h0 := line_deriv hf x (lam / 2 * ‖x‖ ^ 2) 0
  have e := (h x).slope_le_of_hasDerivAt (Set.mem_univ 0) (Set.mem_univ 1) one_pos h0
  simp only [slope_def_field, zero_smul, one_smul] at e
  norm_num at e
  linarith

theorem bounded_above (hlam : 0 < lam) : ∃ C, ∀ x, f x ≤ C := by
  refine ⟨f 0 + (T * d * ‖jaxGrad2 f 0‖) ^ 2 / (2 * lam), fun x => ?_⟩
  have h1 := val_line hf h x
  have h2 := (le_abs_self _).trans (abs_dot2_le (jaxGrad2 f 0) x)
  set B : ℝ := T * d * ‖jaxGrad2 f 0‖
  have h3 : T * d * (‖jaxGrad2 f 0‖ * ‖x‖) = B * ‖x‖ := by simp only [B]; ring
  have h4 : B * ‖x‖ - lam / 2 * ‖x‖ ^ 2 ≤ B ^ 2 / (2 * lam) := by
    rw [le_div_iff₀ (by positivity)]
    nlinarith [sq_nonneg (B - lam * ‖x‖)]
  linarith

theorem far_atBot (hlam : 0 < lam) : Tendsto f (cocompact _) atBot := by
  set B : ℝ := T * d * ‖jaxGrad2 f 0‖ with hB
  have hn : Tendsto (fun x : Traj T d => ‖x‖) (cocompact _) atTop := tendsto_norm_cocompact_atTop
  have h1 : Tendsto (fun x : Traj T d => ‖x‖ * (lam / 2 * ‖x‖ + -B)) (cocompact _) atTop :=
    hn.atTop_mul_atTop₀ (tendsto_atTop_add_const_right _ _ (hn.const_mul_atTop (by positivity)))
  refine tendsto_atBot_mono (fun x => ?_) (tendsto_atBot_add_const_left _ (f 0) (tendsto_neg_atTop_atBot.comp h1))
  have h2 := val_line hf h x
  have h3 := (le_abs_self _).trans (abs_dot2_le (jaxGrad2 f 0) x)
  have h4 : T * d * (‖jaxGrad2 f 0‖ * ‖x‖) = B * ‖x‖ := by simp only [hB]; ring
  show f x ≤ f 0 + -(‖x‖ * (lam / 2 * ‖x‖ + -B))
  linarith

theorem grad_coercive (hlam : 0 < lam) : Tendsto (fun x => ‖jaxGrad2 f x‖) (cocompact _) atTop := by
  have hn : Tendsto (fun x : Traj T d => ‖x‖) (cocompact _) atTop := tendsto_norm_cocompact_atTop
  rcases Nat.eq_zero_or_pos (T * d) with h0 | h0
  · refine tendsto_atTop_mono' _ ?_ hn
    filter_upwards [hn.eventually_gt_atTop 0] with x hx
    have h1 := grad_line hf h x
    have h2 := abs_dot2_le (jaxGrad2 f 0) x
    have h3 := abs_dot2_le (jaxGrad2 f x) x
    have h4 : (T : ℝ) * d = 0 := by exact_mod_cast h0
    rw [h4, zero_mul] at h2 h3
    have h5 := le_abs_self (dot2 (jaxGrad2 f 0) x)
    have h6 := neg_abs_le (dot2 (jaxGrad2 f x) x)
    have : 0 < lam * ‖x‖ ^ 2 := by positivity
    linarith
  · have hc : (0 : ℝ) < T * d := by exact_mod_cast h0
    have h1 : Tendsto (fun x : Traj T d => lam / (T * d) * ‖x‖ - ‖jaxGrad2 f 0‖) (cocompact _) atTop :=
      tendsto_atTop_add_const_right _ _ (hn.const_mul_atTop (by positivity))
    refine tendsto_atTop_mono' _ ?_ h1
    filter_upwards [hn.eventually_gt_atTop 0] with x hx
    have h2 := grad_line hf h x
    have h3 := (le_abs_self _).trans (abs_dot2_le (jaxGrad2 f 0) x)
    have h4 := (neg_abs_le _).trans' (neg_le_neg (abs_dot2_le (jaxGrad2 f x) x))
    have h5 : T * d * ‖jaxGrad2 f x‖ * ‖x‖ ≥ (lam * ‖x‖ - T * d * ‖jaxGrad2 f 0‖) * ‖x‖ := by nlinarith
    have h6 := le_of_mul_le_mul_right h5 hx
    rw [sub_le_iff_le_add, div_mul_eq_mul_div, div_le_iff₀ hc]
    nlinarith

end lines

/-! ## The linear Gaussian experiment -/

theorem lg_line (ys : Traj (n + 1) d) (sigma : ℝ) (x : Traj (n + 1) d) : SConc (fun s => lg_log_pdf (s • x) ys sigma) (1 / 2 * ‖x‖ ^ 2) := by
  have hn : ∀ a b a' b' : ℝ, SConc (fun s => norm_logpdf (s * a - a') (s * b - b') sigma true) 0 := fun a b a' b' => by
    refine ((sconc_sq (-Real.log (2 * Real.pi * sigma ^ 2) / 2) ((a - b) / sigma) ((a' - b') / sigma)).congr fun s => ?_).mono (by positivity)
    simp only [norm_logpdf, if_true]
    rw [show s * ((a - b) / sigma) - (a' - b') / sigma = (s * a - a' - (s * b - b')) / sigma by ring, div_pow]
    ring
  have hs : ∀ (u v : ℝ → Vec d) (a b : Vec d), (∀ s j, u s j = s * a j) → (∀ s j, v s j = s * b j) → SConc (fun s => sumNorm (u s) (v s) sigma) 0 := fun u v a b hu hv => by
    have := SConc.sum fun j => hn (a j) (b j) 0 0
    rw [sum_const_zero] at this
    refine this.congr fun s => sum_congr rfl fun j _ => ?_
    rw [hu, hv, sub_zero, sub_zero]
  have ho : SConc (fun s => ∑ t, sumNorm ((s • x) t) (ys t) 1) (∑ t, ∑ j, x t j ^ 2 / 2) := by
    refine SConc.sum fun t => SConc.sum fun j => (sconc_sq (-Real.log (2 * Real.pi * 1 ^ 2) / 2) (x t j) (ys t j)).congr fun s => ?_
    simp only [norm_logpdf, if_true, Pi.smul_apply, smul_eq_mul]
    ring
  have h0 := hs (fun s => (s • x) 0) (fun _ => 0) (x 0) 0 (fun s j => rfl) (fun s j => by simp)
  have h1 : SConc (fun s => ∑ t, sumNorm (tailA (s • x) t) (initA (s • x) t) sigma) 0 := by
    have := SConc.sum fun t : Fin n => hs (fun s => tailA (s • x) t) (fun s => initA (s • x) t) (tailA x t) (initA x t) (fun s j => rfl) (fun s j => rfl)
    rwa [sum_const_zero] at this
  refine (((h0.add h1).add ho).congr fun s => rfl).mono ?_
  have h2 := sq_norm_le_dot2 x
  have h3 : dot2 x x = 2 * ∑ t, ∑ j, x t j ^ 2 / 2 := by
    simp only [dot2, mul_sum]
    refine sum_congr rfl fun t _ => sum_congr rfl fun j _ => ?_
    ring
  linarith

/-! ## Stochastic volatility -/

theorem sv_coord_line (y a : ℝ) : SConc (fun s => norm_logpdf y 0 (Real.exp (0.5 * (s * a))) true) 0 := by
  have e : ∀ x : ℝ, norm_logpdf y 0 (Real.exp (0.5 * x)) true = -Real.log (2 * Real.pi) / 2 + -x / 2 + -(y ^ 2 / 2 * Real.exp (-x)) := fun x => by
    have e1 : Real.exp (0.5 * x) ^ 2 = Real.exp x := by rw [← Real.exp_nat_mul]; congr 1; norm_num; ring
    simp only [norm_logpdf, if_true, e1, sub_zero]
    rw [Real.log_mul (by positivity) (Real.exp_pos _).ne', Real.log_exp, Real.exp_neg, div_eq_mul_inv]
    ring
  have h1 : SConc (fun s => -(y ^ 2 / 2 * Real.exp (-(s * a)))) 0 := by
    have h2 : ConvexOn ℝ Set.univ fun s : ℝ => Real.exp (-a * s) := by
      have := convexOn_exp.comp_linearMap (LinearMap.mulLeft ℝ (-a))
      refine this.congr fun s _ => ?_
      simp
    have h3 : ConcaveOn ℝ Set.univ (-fun s : ℝ => (y ^ 2 / 2) • Real.exp (-a * s)) := (h2.smul (by positivity)).neg
    refine h3.congr fun s _ => ?_
    simp only [Pi.neg_apply, smul_eq_mul]
    rw [show -(s * a) = -a * s by ring]
    ring
  have h2 := ((sconc_affine (-Real.log (2 * Real.pi) / 2) (-a / 2)).add h1)
  rw [add_zero] at h2
  refine h2.congr fun s => ?_
  rw [e]
  ring

/-- The standardised innovations of a trajectory. -/
noncomputable def svInnov (D : SvDyn d) : Traj (n + 1) d →ₗ[ℝ] Traj (n + 1) d where
  toFun x := insert0 (invChol D.P0 *ᵥ x 0) fun t => invChol D.Q *ᵥ (tailA x t - fun i => ∑ j, initA x t j * D.F i j * D.b i)
  map_add' x y := by
    funext t
    refine Fin.cases ?_ (fun t => ?_) t
    · exact Matrix.mulVec_add (invChol D.P0) (x 0) (y 0)
    · show invChol D.Q *ᵥ _ = invChol D.Q *ᵥ _ + invChol D.Q *ᵥ _
      rw [← Matrix.mulVec_add]
      congr 1
      funext i
      simp only [Pi.sub_apply, Pi.add_apply, tailA, initA, add_mul, sum_add_distrib]
      ring
  map_smul' c x := by
    funext t
    refine Fin.cases ?_ (fun t => ?_) t
    · exact Matrix.mulVec_smul (invChol D.P0) c (x 0)
    · show invChol D.Q *ᵥ _ = c • (invChol D.Q *ᵥ _)
      rw [← Matrix.mulVec_smul]
      congr 1
      funext i
      simp only [Pi.sub_apply, Pi.smul_apply, smul_eq_mul, tailA, initA, mul_sub, mul_sum, mul_assoc]

theorem svInnov_injective {D : SvDyn d} (hP : IsUnit (invChol D.P0)) (hQ : IsUnit (invChol D.Q)) : Function.Injective (svInnov (n := n) D) := by
  rw [injective_iff_map_eq_zero]
  intro x hx
  funext t
  induction t using Fin.induction with
  | zero =>
    have h : invChol D.P0 *ᵥ x 0 = 0 := congrFun hx 0
    exact (Matrix.mulVec_injective_iff_isUnit.mpr hP) (h.trans (Matrix.mulVec_zero _).symm)
  | succ t ih =>
    have h : invChol D.Q *ᵥ (tailA x t - fun i => ∑ j, initA x t j * D.F i j * D.b i) = 0 := congrFun hx t.succ
    have h2 := (Matrix.mulVec_injective_iff_isUnit.mpr hQ) (h.trans (Matrix.mulVec_zero _).symm)
    have h3 : initA x t = 0 := ih
    have h4 : tailA x t = fun i => ∑ j, initA x t j * D.F i j * D.b i := sub_eq_zero.mp h2
    rw [h3] at h4
    show tailA x t = 0
    rw [h4]
    funext i
    simp

theorem mvn_inv_line (L : Mat d d) (u m : ℝ → Vec d) (a c : Vec d) (hu : ∀ s, L *ᵥ (u s - m s) = s • a - c) :
    SConc (fun s => mvn_logpdf (u s) (m s) 0 (some L) false) (∑ j, a j ^ 2 / 2) := by
  refine (SConc.sum fun j => sconc_sq 0 (a j) (c j)).congr fun s => ?_
  show _ = (-0.5 : ℝ) * ∑ j, (L *ᵥ (u s - m s)) j * (L *ᵥ (u s - m s)) j - 0
  rw [hu, mul_sum, sub_zero]
  refine sum_congr rfl fun j _ => ?_
  simp only [Pi.sub_apply, Pi.smul_apply, smul_eq_mul]
  ring

theorem sv_line (ys : Traj (n + 1) d) {D : SvDyn d} (hP : IsUnit (invChol D.P0)) (hQ : IsUnit (invChol D.Q)) :
    ∃ lam > 0, ∀ x, SConc (fun s => svFullLogPdf ys D (s • x)) (lam / 2 * ‖x‖ ^ 2) := by
  obtain ⟨K, hK, hA⟩ := (LinearMap.injective_iff_antilipschitz (svInnov (n := n) D)).mp (svInnov_injective hP hQ)
  have hK' : (0 : ℝ) < K := hK
  refine ⟨((K : ℝ) ^ 2)⁻¹, by positivity, fun x => ?_⟩
  have h0 := mvn_inv_line (invChol D.P0) (fun s => (s • x) 0) (fun _ => D.m0) (svInnov D x 0) (invChol D.P0 *ᵥ D.m0) fun s => by
    rw [Matrix.mulVec_sub]
    congr 1
    exact Matrix.mulVec_smul (invChol D.P0) s (x 0)
  have h1 : SConc (fun s => ∑ t, mvn_logpdf (tailA (s • x) t) (fun i => ∑ j, initA (s • x) t j * D.F i j * D.b i) 0 (some (invChol D.Q)) false)
      (∑ t : Fin n, ∑ j, svInnov D x t.succ j ^ 2 / 2) :=
    SConc.sum fun t => mvn_inv_line (invChol D.Q) (fun s => tailA (s • x) t) (fun s i => ∑ j, initA (s • x) t j * D.F i j * D.b i) (svInnov D x t.succ) 0 fun s => by
      have := congrFun ((svInnov D).map_smul s x) t.succ
      rw [sub_zero]
      exact this
  have h2 : SConc (fun s => sv_log_likelihood (s • x) ys) 0 := by
    have := SConc.sum fun t : Fin (n + 1) => SConc.sum fun j => sv_coord_line (ys t j) (x t j)
    simp only [sum_const_zero] at this
    exact this.congr fun s => rfl
  refine (((h0.add h1).add h2).congr fun s => rfl).mono ?_
  have h3 := sq_norm_le_dot2 (svInnov D x)
  have h4 : dot2 (svInnov D x) (svInnov D x) = 2 * (∑ j, svInnov D x 0 j ^ 2 / 2 + ∑ t : Fin n, ∑ j, svInnov D x t.succ j ^ 2 / 2) := by
    rw [← Fin.sum_univ_succ (fun t => ∑ j, svInnov D x t j ^ 2 / 2)]
    simp only [dot2, mul_sum]
    refine sum_congr rfl fun t _ => sum_congr rfl fun j _ => ?_
    ring
  have h5 : ‖x‖ ≤ K * ‖svInnov D x‖ := by
    have := hA.le_mul_dist x 0
    simpa using this
  have h6 : ((K : ℝ) ^ 2)⁻¹ * ‖x‖ ^ 2 ≤ ‖svInnov D x‖ ^ 2 := by
    rw [inv_mul_le_iff₀ (by positivity), ← mul_pow]
    exact pow_le_pow_left₀ (norm_nonneg _) h5 2
  rw [add_zero]
  linarith

end Verif
