import Verif.Lemmas.SmallSteps
import Verif.Lemmas.FarPotentials
import Verif.Spec.SmallSteps

/-!
# Large steps of `mala.py`: helpers
-/

open scoped ENNReal Topology
open MeasureTheory Finset Filter Asymptotics

namespace Verif
open Verif.Model Verif.Spec Verif.Props

variable {N n T d : ℕ}

/-! ## Vectors -/

theorem dot2_add_left (a b c : Traj T d) : dot2 (a + b) c = dot2 a c + dot2 b c := by
  simp only [dot2, ← sum_add_distrib, Pi.add_apply, add_mul]

theorem dot2_sub_smul (a g : Traj T d) (k : ℝ) : dot2 (a - k • g) g = dot2 a g - k * dot2 g g := by
  simp only [dot2, mul_sum, ← sum_sub_distrib, Pi.sub_apply, Pi.smul_apply, smul_eq_mul]
  refine sum_congr rfl fun t _ => sum_congr rfl fun j _ => ?_
  ring

theorem abs_dot2_le (a b : Traj T d) : |dot2 a b| ≤ T * d * (‖a‖ * ‖b‖) := by
  have hc : ∀ (x : Traj T d) t j, |x t j| ≤ ‖x‖ := fun x t j => (norm_le_pi_norm (x t) j).trans (norm_le_pi_norm x t)
  unfold dot2
  refine (abs_sum_le_sum_abs _ _).trans ((sum_le_sum fun t _ => (abs_sum_le_sum_abs _ _).trans (sum_le_sum (g := fun _ => ‖a‖ * ‖b‖) fun j _ => ?_)).trans ?_)
  · rw [abs_mul]
    exact mul_le_mul (hc a t j) (hc b t j) (abs_nonneg _) (norm_nonneg _)
  · simp only [sum_const, card_univ, Fintype.card_fin, nsmul_eq_mul]
    rw [mul_assoc]

theorem sq_norm_le_dot2 (g : Traj T d) : ‖g‖ ^ 2 ≤ dot2 g g := by
  have h0 : 0 ≤ dot2 g g := sum_nonneg fun t _ => sum_nonneg fun j _ => mul_self_nonneg _
  rw [← Real.le_sqrt (norm_nonneg _) h0]
  refine (pi_norm_le_iff_of_nonneg (Real.sqrt_nonneg _)).mpr fun t => (pi_norm_le_iff_of_nonneg (Real.sqrt_nonneg _)).mpr fun j => ?_
  refine Real.le_sqrt_of_sq_le ?_
  rw [Real.norm_eq_abs, sq_abs, pow_two]
  exact (single_le_sum (f := fun j => g t j * g t j) (fun j _ => mul_self_nonneg _) (mem_univ j)).trans
    (single_le_sum (f := fun t => ∑ j, g t j * g t j) (fun t _ => sum_nonneg fun j _ => mul_self_nonneg _) (mem_univ t))

/-! ## Gaps between log-weights -/

theorem lin_isBigO (x g z : ℝ) : (fun δ : ℝ => x + 0.5 * δ * g + Real.sqrt (0.5 * δ) * z) =O[atTop] fun δ => δ := by
  refine IsBigO.of_bound (|x| + |g| + |z|) ?_
  filter_upwards [eventually_ge_atTop 1] with δ hδ
  have h1 : Real.sqrt (0.5 * δ) ≤ δ := Real.sqrt_le_iff.mpr ⟨by linarith, by nlinarith⟩
  have h2 := Real.sqrt_nonneg (0.5 * δ)
  rw [Real.norm_eq_abs, Real.norm_eq_abs, abs_of_nonneg (by linarith : 0 ≤ δ)]
  have h3 : |0.5 * δ * g| ≤ |g| * δ := by
    rw [abs_mul, abs_of_nonneg (by linarith : 0 ≤ 0.5 * δ)]
    have := abs_nonneg g
    nlinarith
  have h4 : |Real.sqrt (0.5 * δ) * z| ≤ |z| * δ := by
    rw [abs_mul, abs_of_nonneg h2, mul_comm]
    exact mul_le_mul_of_nonneg_left h1 (abs_nonneg z)
  have h5 : |x| ≤ |x| * δ := le_mul_of_one_le_right (abs_nonneg x) hδ
  have := abs_add_le (x + 0.5 * δ * g) (Real.sqrt (0.5 * δ) * z)
  have := abs_add_le x (0.5 * δ * g)
  linarith

theorem mala_gap {κ : ℝ} (hκ : 0 < κ) {c xi gi : ℝ → Traj T d} {x0 g0 : Traj T d} (hK : (fun δ => c δ - xi δ) =O[atTop] fun δ : ℝ => δ)
    (hK0 : (fun δ => c δ - x0) =O[atTop] fun δ : ℝ => δ) (hg : Tendsto (fun δ => ‖gi δ‖) atTop atTop) {v : ℝ → ℝ} {C : ℝ} (hv : ∀ δ, v δ ≤ C) (v0 : ℝ) :
    Tendsto (fun δ => v δ + dot2 (c δ - xi δ - (κ * δ) • gi δ) (gi δ) - (v0 + dot2 (c δ - x0 - (κ * δ) • g0) g0)) atTop atBot := by
  obtain ⟨K, hK1⟩ := hK.bound
  obtain ⟨K0, hK01⟩ := hK0.bound
  have hg2 : Tendsto (fun δ => ‖gi δ‖ * (κ * ‖gi δ‖ + -(T * d * K))) atTop atTop :=
    hg.atTop_mul_atTop₀ (tendsto_atTop_add_const_right _ _ (hg.const_mul_atTop hκ))
  refine tendsto_atBot_mono' _ ?_ (tendsto_atBot_add_const_left atTop (C - v0) tendsto_neg_atTop_atBot)
  filter_upwards [hK1, hK01, hg2.eventually_ge_atTop (T * d * K0 * ‖g0‖ + κ * dot2 g0 g0 + 1), eventually_ge_atTop 0] with δ h1 h2 h3 hδ
  rw [Real.norm_eq_abs, abs_of_nonneg hδ] at h1 h2
  have hTd : (0 : ℝ) ≤ T * d := by positivity
  have e1 := (le_abs_self _).trans (abs_dot2_le (c δ - xi δ) (gi δ))
  have e2 := (neg_le_abs _).trans (abs_dot2_le (c δ - x0) g0)
  have e3 : T * d * (‖c δ - xi δ‖ * ‖gi δ‖) ≤ T * d * (K * δ * ‖gi δ‖) :=
    mul_le_mul_of_nonneg_left (mul_le_mul_of_nonneg_right h1 (norm_nonneg _)) hTd
  have e4 : T * d * (‖c δ - x0‖ * ‖g0‖) ≤ T * d * (K0 * δ * ‖g0‖) :=
    mul_le_mul_of_nonneg_left (mul_le_mul_of_nonneg_right h2 (norm_nonneg _)) hTd
  have e5 : κ * δ * ‖gi δ‖ ^ 2 ≤ κ * δ * dot2 (gi δ) (gi δ) := mul_le_mul_of_nonneg_left (sq_norm_le_dot2 _) (by positivity)
  have e6 := mul_le_mul_of_nonneg_left h3 hδ
  rw [dot2_sub_smul, dot2_sub_smul]
  have := hv δ
  have e7 : δ * (‖gi δ‖ * (κ * ‖gi δ‖ + -(T * d * K))) = κ * δ * ‖gi δ‖ ^ 2 - T * d * (K * δ * ‖gi δ‖) := by ring
  have e8 : δ * (T * d * K0 * ‖g0‖ + κ * dot2 g0 g0 + 1) = T * d * (K0 * δ * ‖g0‖) + κ * δ * dot2 g0 g0 + δ := by ring
  linarith

/-! ## Proposals -/

theorem malaProp_eq (δ : ℝ) (s : VGState T d) (e : Traj T d × (Fin N → Traj T d)) (k : Fin N) :
    malaProp δ s e k = fun t j => s.1 t j + 0.5 * δ * s.2.2 t j + Real.sqrt (0.5 * δ) * (e.1 t j + e.2 k t j) := by
  funext t j
  simp only [malaProp, malaU, auxTraj]
  ring

theorem malaSample_isBigO (s : VGState T d) (e : Traj T d × (Fin N → Traj T d)) (i : Fin (N + 1)) (t : Fin T) (j : Fin d) :
    (fun δ => insert0 s.1 (malaProp δ s e) i t j) =O[atTop] fun δ : ℝ => δ := by
  induction i using Fin.cases with
  | zero => simpa using lin_isBigO (s.1 t j) 0 0
  | succ k =>
    have : (fun δ => insert0 s.1 (malaProp δ s e) k.succ t j) = fun δ => s.1 t j + 0.5 * δ * s.2.2 t j + Real.sqrt (0.5 * δ) * (e.1 t j + e.2 k t j) := by
      funext δ
      show malaProp δ s e k t j = _
      rw [malaProp_eq]
    rw [this]
    exact lin_isBigO _ _ _

theorem traj_isBigO {f : ℝ → Traj T d} (h : ∀ t j, (fun δ => f δ t j) =O[atTop] fun δ : ℝ => δ) : f =O[atTop] fun δ : ℝ => δ :=
  isBigO_pi.mpr fun t => isBigO_pi.mpr fun j => h t j

/-- Proposals leave every bounded set unless the gradient and the noise vanish. -/
theorem malaProp_far (s : VGState T d) (e : Traj T d × (Fin N → Traj T d)) (k : Fin N) (hz : e.1 + e.2 k ≠ 0) :
    Tendsto (fun δ => malaProp δ s e k) atTop (cocompact (Traj T d)) := by
  have hs : Tendsto (fun δ : ℝ => Real.sqrt (0.5 * δ)) atTop atTop := Real.tendsto_sqrt_atTop.comp (tendsto_id.const_mul_atTop (by norm_num))
  rw [← Metric.cobounded_eq_cocompact, ← tendsto_norm_atTop_iff_cobounded]
  by_cases hg : s.2.2 = 0
  · have h1 : Tendsto (fun δ : ℝ => Real.sqrt (0.5 * δ) * ‖e.1 + e.2 k‖ - ‖s.1‖) atTop atTop :=
      tendsto_atTop_add_const_right _ _ (hs.atTop_mul_const (norm_pos_iff.mpr hz))
    refine tendsto_atTop_mono (fun δ => ?_) h1
    have e1 : malaProp δ s e k = Real.sqrt (0.5 * δ) • (e.1 + e.2 k) - -s.1 := by
      rw [malaProp_eq, hg]
      funext t j
      simp only [Pi.zero_apply, Pi.sub_apply, Pi.smul_apply, Pi.add_apply, Pi.neg_apply, smul_eq_mul]
      ring
    rw [e1]
    refine le_trans (le_of_eq ?_) (norm_sub_norm_le _ _)
    rw [norm_smul, norm_neg, Real.norm_eq_abs, abs_of_nonneg (Real.sqrt_nonneg _)]
  · have h1 : Tendsto (fun δ : ℝ => Real.sqrt (0.5 * δ) * (Real.sqrt (0.5 * δ) * ‖s.2.2‖ + -‖e.1 + e.2 k‖) - ‖s.1‖) atTop atTop :=
      tendsto_atTop_add_const_right _ _ (hs.atTop_mul_atTop₀ (tendsto_atTop_add_const_right _ _ (hs.atTop_mul_const (norm_pos_iff.mpr hg))))
    refine tendsto_atTop_mono' _ ?_ h1
    filter_upwards [eventually_ge_atTop 0] with δ hδ
    have e0 : Real.sqrt (0.5 * δ) * Real.sqrt (0.5 * δ) = 0.5 * δ := Real.mul_self_sqrt (by positivity)
    have e1 : malaProp δ s e k = ((0.5 * δ) • s.2.2 - -(Real.sqrt (0.5 * δ) • (e.1 + e.2 k))) - -s.1 := by
      rw [malaProp_eq]
      funext t j
      simp only [Pi.sub_apply, Pi.smul_apply, Pi.add_apply, Pi.neg_apply, smul_eq_mul]
      ring
    rw [e1]
    refine le_trans (le_of_eq ?_) ((sub_le_sub_right (norm_sub_norm_le _ _) _).trans (norm_sub_norm_le _ _))
    rw [norm_smul, norm_neg, norm_neg, norm_smul, Real.norm_eq_abs, Real.norm_eq_abs, abs_of_nonneg (Real.sqrt_nonneg _), abs_of_nonneg (by positivity : 0 ≤ 0.5 * δ)]
    linear_combination ‖s.2.2‖ * e0

theorem mala_noise_ne (hT : 1 ≤ T) (hd : 1 ≤ d) : ∀ᵐ e : Traj T d × (Fin N → Traj T d) ∂((Measure.pi fun _ => gaussM d).prod (Measure.pi fun _ => Measure.pi fun _ => gaussM d)),
    ∀ k, e.1 + e.2 k ≠ 0 := by
  refine ae_all_iff.mpr fun k => ?_
  have hs : MeasurableSet {e : Traj T d × (Fin N → Traj T d) | e.1 + e.2 k = 0} := (isClosed_eq (by fun_prop) continuous_const).measurableSet
  have h0 := (Measure.measure_prod_null (μ := Measure.pi fun _ : Fin T => gaussM d)
    (ν := Measure.pi fun _ : Fin N => Measure.pi fun _ : Fin T => gaussM d) hs).mpr (.of_forall fun a => by
      have hp := (measurePreserving_eval (fun _ : Fin T => gaussM d) ⟨0, hT⟩).comp
        (measurePreserving_eval (fun _ : Fin N => Measure.pi fun _ : Fin T => gaussM d) k)
      have h1 := hp.measure_preimage (s := {-a ⟨0, hT⟩}) (measurableSet_singleton _).nullMeasurableSet
      rw [gaussM_singleton hd] at h1
      refine measure_mono_null (fun e he => ?_) h1
      exact eq_neg_of_add_eq_zero_right (congrFun he ⟨0, hT⟩))
  rw [ae_iff]
  simpa using h0

/-! ## The step -/

/-- The log-weights of `mala.kernel`, as functions of the noise. -/
noncomputable def malaLw (delta : ℝ) (log_pdf : Traj T d → ℝ) (grad : Traj T d → Traj T d) (auxiliary : Bool) (s : VGState T d)
    (e : Traj T d × (Fin N → Traj T d)) : Fin (N + 1) → ℝ :=
  malaLogWeights auxiliary delta (Real.sqrt (0.5 * delta)) (malaU delta s e) (insert0 s.1 (malaProp delta s e))
    (insert0 s.2.1 fun i => log_pdf (malaProp delta s e i)) (insert0 s.2.2 fun i => grad (malaProp delta s e i))

theorem measurable_malaLw {log_pdf : Traj T d → ℝ} {grad : Traj T d → Traj T d} (hl : Measurable log_pdf) (hg : Measurable grad) (delta : ℝ) (auxiliary : Bool) :
    Measurable fun p : VGState T d × (Traj T d × (Fin N → Traj T d)) => malaLw delta log_pdf grad auxiliary p.1 p.2 := by
  have h1 := measurable_malaU (N := N) (T := T) (d := d) delta
  have h2 := measurable_malaProp (N := N) (T := T) (d := d) delta
  refine measurable_malaLogWeights _ _ _ h1 ?_ ?_ ?_
  · exact measurable_insert0 (by fun_prop) h2
  · exact measurable_insert0 (by fun_prop) (measurable_pi_lambda _ fun i => hl.comp ((measurable_pi_apply i).comp h2))
  · exact measurable_insert0 (by fun_prop) (measurable_pi_lambda _ fun i => hg.comp ((measurable_pi_apply i).comp h2))

theorem mala_large {log_pdf : Traj T d → ℝ} {grad : Traj T d → Traj T d} (hl : Measurable log_pdf) (hg : Measurable grad) (hN : 1 ≤ N) (key : Key)
    (s : VGState T d) (auxiliary : Bool)
    (hlim : ∀ᵐ e ∂((Measure.pi fun _ : Fin T => gaussM d).prod (Measure.pi fun _ : Fin N => Measure.pi fun _ : Fin T => gaussM d)),
      ∀ i ≠ 0, Tendsto (fun δ => malaLw δ log_pdf grad auxiliary s e i - malaLw δ log_pdf grad auxiliary s e 0) atTop atBot) :
    Tendsto (fun δ => flagProb (mala_kernel key s δ log_pdf grad N auxiliary)) atTop (𝓝 0) := by
  have hm : ∀ δ, Measurable fun e : Traj T d × (Fin N → Traj T d) => odds (malaLw δ log_pdf grad auxiliary s e) 0 := fun δ => by
    have h1 : Measurable fun e : Traj T d × (Fin N → Traj T d) => malaLw δ log_pdf grad auxiliary s e :=
      (measurable_malaLw hl hg δ auxiliary).comp (measurable_prodMk_left (x := s))
    unfold odds
    refine Finset.measurable_sum _ fun i _ => Real.measurable_exp.comp ?_
    exact ((measurable_pi_apply i).comp h1).sub ((measurable_pi_apply 0).comp h1)
  have h := noise_far (l := atTop) (S := fun (δ : ℝ) e => odds (malaLw δ log_pdf grad auxiliary s e) 0) hm (hlim.mono fun e he => ?_)
    (P := fun δ a b => forcedIdx (splitKey key 3 1) (malaW δ log_pdf grad auxiliary s (a, b)) 0 fun i => if i ≠ 0 then 1 else 0)
    (fun δ a b => (force_odds hN).odds (splitKey key 3 1) (malaLw δ log_pdf grad auxiliary s (a, b)) 0)
    (fun δ a b => forced_le_one (normalize_isProb _) _ _ fun i => ind_le_one _)
  · refine h.congr fun δ => ?_
    rw [flagProb, mala_flag_eq]
    refine lintegral_congr fun a => lintegral_congr fun b => ?_
    show _ = forcedIdx _ _ _ _
    congr 1
    funext i
    by_cases hi : i = 0 <;> simp [hi]
  · have h1 : Tendsto (fun δ => ∑ i ∈ univ.erase (0 : Fin (N + 1)), Real.exp (malaLw δ log_pdf grad auxiliary s e i - malaLw δ log_pdf grad auxiliary s e 0)) atTop
        (𝓝 (∑ i ∈ univ.erase (0 : Fin (N + 1)), 0)) :=
      tendsto_finsetSum _ fun i hi => Real.tendsto_exp_atBot.comp (he i (ne_of_mem_erase hi))
    simpa [odds] using h1

/-- With a gradient that is large far away. -/
theorem malaLw_far {log_pdf : Traj T d → ℝ} {grad : Traj T d → Traj T d} {C : ℝ} (hb : ∀ x, log_pdf x ≤ C)
    (hc : Tendsto (fun x => ‖grad x‖) (cocompact _) atTop) (hN : 1 ≤ N) (s : VGState T d) (auxiliary : Bool) {e : Traj T d × (Fin N → Traj T d)}
    (he : ∀ k, e.1 + e.2 k ≠ 0) {i : Fin (N + 1)} (hi : i ≠ 0) :
    Tendsto (fun δ => malaLw δ log_pdf grad auxiliary s e i - malaLw δ log_pdf grad auxiliary s e 0) atTop atBot := by
  obtain ⟨k, rfl⟩ := Fin.exists_succ_eq.mpr hi
  have hg : Tendsto (fun δ => ‖grad (malaProp δ s e k)‖) atTop atTop := hc.comp (malaProp_far s e k (he k))
  have hx : ∀ i t j, (fun δ => insert0 s.1 (malaProp δ s e) i t j) =O[atTop] fun δ : ℝ => δ := malaSample_isBigO s e
  have hN' : (0 : ℝ) < N := by exact_mod_cast hN
  cases auxiliary
  · have h := mala_gap (κ := N / (N + 1) * 0.25) (by positivity) (c := fun δ t j => (∑ i, insert0 s.1 (malaProp δ s e) i t j) / ((N : ℝ) + 1))
      (xi := fun δ => malaProp δ s e k) (gi := fun δ => grad (malaProp δ s e k)) (x0 := s.1) (g0 := s.2.2)
      (traj_isBigO fun t j => ?_) (traj_isBigO fun t j => ?_) hg (v := fun δ => log_pdf (malaProp δ s e k)) (fun δ => hb _) s.2.1
    · refine h.congr' ?_
      filter_upwards [eventually_gt_atTop 0] with δ hδ
      simp only [malaLw, malaLogWeights_eq hδ, Bool.false_eq_true, if_false, mul_assoc]
      rfl
    · refine IsBigO.sub ?_ (hx k.succ t j)
      simp only [div_eq_mul_inv, mul_comm _ ((N : ℝ) + 1)⁻¹]
      exact (IsBigO.fun_sum fun i _ => hx i t j).const_mul_left _
    · refine IsBigO.sub ?_ (hx 0 t j)
      simp only [div_eq_mul_inv, mul_comm _ ((N : ℝ) + 1)⁻¹]
      exact (IsBigO.fun_sum fun i _ => hx i t j).const_mul_left _
  · have h := mala_gap (κ := 0.25) (by norm_num) (c := fun δ => malaU δ s e)
      (xi := fun δ => malaProp δ s e k) (gi := fun δ => grad (malaProp δ s e k)) (x0 := s.1) (g0 := s.2.2)
      (traj_isBigO fun t j => ?_) (traj_isBigO fun t j => ?_) hg (v := fun δ => log_pdf (malaProp δ s e k)) (fun δ => hb _) s.2.1
    · refine h.congr' ?_
      filter_upwards [eventually_gt_atTop 0] with δ hδ
      simp only [malaLw, malaLogWeights_eq hδ, if_true]
      rfl
    · exact IsBigO.sub (lin_isBigO (s.1 t j) (s.2.2 t j) (e.1 t j)) (hx k.succ t j)
    · exact IsBigO.sub (lin_isBigO (s.1 t j) (s.2.2 t j) (e.1 t j)) (hx 0 t j)

/-- Without a gradient. -/
theorem rwLw_far {log_pdf : Traj T d → ℝ} (hl : Tendsto log_pdf (cocompact _) atBot) (x : Traj T d) (auxiliary : Bool)
    {e : Traj T d × (Fin N → Traj T d)} (he : ∀ k, e.1 + e.2 k ≠ 0) {i : Fin (N + 1)} (hi : i ≠ 0) :
    Tendsto (fun δ => malaLw δ log_pdf (fun _ => 0) auxiliary (tp_init log_pdf (fun _ => 0) x) e i -
      malaLw δ log_pdf (fun _ => 0) auxiliary (tp_init log_pdf (fun _ => 0) x) e 0) atTop atBot := by
  obtain ⟨k, rfl⟩ := Fin.exists_succ_eq.mpr hi
  have h1 := tendsto_atBot_add_const_right _ (-log_pdf x) (hl.comp (malaProp_far (tp_init log_pdf (fun _ => 0) x) e k (he k)))
  refine h1.congr' ?_
  filter_upwards [eventually_gt_atTop 0] with δ hδ
  have h0 : ∀ i : Fin (N + 1), insert0 (0 : Traj T d) (fun _ : Fin N => 0) i = 0 := Fin.cases rfl fun _ => rfl
  have hd : ∀ a : Traj T d, dot2 a 0 = 0 := fun a => by simp [dot2]
  have hlw : ∀ i, malaLw δ log_pdf (fun _ => 0) auxiliary (tp_init log_pdf (fun _ => 0) x) e i =
      insert0 (log_pdf x) (fun i => log_pdf (malaProp δ (tp_init log_pdf (fun _ => 0) x) e i)) i := fun i => by
    unfold malaLw
    rw [malaLogWeights_eq hδ]
    simp only [tp_init, h0, hd, ite_self, add_zero]
  rw [hlw, hlw]
  show log_pdf _ + -log_pdf x = log_pdf _ - log_pdf x
  ring

end Verif
