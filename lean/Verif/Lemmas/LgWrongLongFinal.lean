import Verif.Lemmas.LgWrongLongKernel

/-!
# Particle-aMALA+ with backward sampling on the linear Gaussian model, four times or more: the law after one step is not
bounded by the target
-/

open scoped ENNReal
open MeasureTheory ProbabilityTheory Finset

namespace Verif
open Verif.Spec Verif.Model Verif.Props

variable {N n d : ℕ}

theorem llNew_lin (a δ : ℝ) (k : Fin (N + 1)) (r : ℝ) (z z' : LgL n N) :
    llNew a δ k (r • z + z') = r • llNew a δ k z + llNew a δ k z' := funext fun t => llP_lin a δ r z z' t _

section
variable {k : Fin (N + 1)} {sigma δ z0 z1 : ℝ} {xv uv : Fin (n + 4) → ℝ} (ys : Fin (n + 4) → Vec d)

theorem lgCoordL_near (s : ℝ) (x e : Fin (n + 4) → Vec d) (η : Fin (n + 4) → Fin (N + 1) → Vec d) (v : LgL n N) (hv : v.1 = 0)
    (hx : x ∈ Metric.closedBall (fun t _ => s * v.2.1 t) 1) (he : e ∈ Metric.closedBall (fun t _ => s * v.2.2.1 t) 1)
    (hη : η ∈ Metric.closedBall (fun t i _ => s * v.2.2.2 t i) 1) (j : Fin d) :
    ‖lgCoordL ys x e η j - s • v‖ ≤ max 1 ‖ys‖ := by
  have h1 : (0 : ℝ) ≤ max 1 ‖ys‖ := le_max_of_le_left zero_le_one
  have hle : (1 : ℝ) ≤ max 1 ‖ys‖ := le_max_left _ _
  rw [mem_closedBall_iff_norm, pi_norm_le_iff_of_nonneg zero_le_one] at hx he hη
  rw [Prod.norm_def, Prod.norm_def, Prod.norm_def]
  refine max_le ?_ (max_le ?_ (max_le ?_ ?_))
  · rw [pi_norm_le_iff_of_nonneg h1]
    intro t
    show ‖ys t j - s * v.1 t‖ ≤ _
    rw [hv, Pi.zero_apply, mul_zero, sub_zero]
    exact ((norm_le_pi_norm (ys t) j).trans (norm_le_pi_norm ys t)).trans (le_max_right _ _)
  · rw [pi_norm_le_iff_of_nonneg h1]
    exact fun t => ((norm_le_pi_norm _ j).trans (hx t)).trans hle
  · rw [pi_norm_le_iff_of_nonneg h1]
    exact fun t => ((norm_le_pi_norm _ j).trans (he t)).trans hle
  · rw [pi_norm_le_iff_of_nonneg h1]
    intro t
    rw [pi_norm_le_iff_of_nonneg h1]
    intro i
    have h2 := hη t
    rw [pi_norm_le_iff_of_nonneg zero_le_one] at h2
    exact ((norm_le_pi_norm _ j).trans (h2 i)).trans hle

/-- The law after one step from the target is not bounded by any multiple of the target. -/
theorem lg_unboundedL (hd : 0 < d) (hs : 0 < sigma) (hδ : 0 < δ) (hw : LgWitnessL (1 / sigma ^ 2) δ xv uv z0 z1) (hk : k ≠ 0)
    (key : Key) {resampling : Resampling Ex N}
    (hR : ∀ key, CondResampling fun w i j => resampling key w i j true)
    (hG : ∀ key, GivesToHeavy fun w i j => resampling key w i j true) {mv : AncestorMove Ex N}
    (hm : ∀ key, MoveKer (moveIndex mv key)) (hH : ∀ key, KeepsHeavy (moveIndex mv key)) (C : ℝ≥0∞) (hC : C ≠ ∞) :
    ∃ f : (Fin (n + 4) → Vec d) → ℝ≥0∞, Measurable f ∧
      ∫⁻ x, ENNReal.ofReal (Real.exp (lgTarget sigma ys x)) * f x ∂(Measure.pi fun _ : Fin (n + 4) => (volume : Measure (Vec d))) = 1 ∧
      C < ∫⁻ x, ENNReal.ofReal (Real.exp (lgTarget sigma ys x)) *
        als_kernelF (N := N) (n := n + 1) id key x (fun _ => 0) (lgGamma_0 ys sigma) (jaxGrad (lgGamma_0 ys sigma)) (lgGamma_t sigma)
          (fun x' x y => jaxGrad (fun x' => lgGamma_t sigma x' x y) x') (fun x' x y => jaxGrad (fun x => lgGamma_t sigma x' x y) x)
          (tailA ys) (fun _ => δ) (fun _ => δ) resampling mv true (fun r => f r.1)
        ∂(Measure.pi fun _ : Fin (n + 4) => (volume : Measure (Vec d))) := by
  obtain ⟨c, hc, hge⟩ := lg_long_ge (k := k) (sigma := sigma) (δ := δ) ys hd key hR hG hm hH
  set a := 1 / sigma ^ 2 with ha
  set v : LgL n N := llV a δ xv uv z0 z1 k with hv
  set μ := (Measure.pi fun _ : Fin (n + 4) => (volume : Measure (Vec d))) with hμ
  set ν := (Measure.pi fun _ : Fin (n + 4) => Measure.pi fun _ : Fin (N + 1) => (volume : Measure (Vec d))) with hν
  have hi1 : (Measure.pi fun _ : Fin (N + 1) => (volume : Measure (Vec d))).IsAddHaarMeasure := Measure.pi.isAddHaarMeasure _
  have hi2 : ν.IsAddHaarMeasure := Measure.pi.isAddHaarMeasure _
  -- bound on the new trajectory
  obtain ⟨M, hM1, hM⟩ : ∃ M : ℝ, 1 ≤ M ∧ ∀ w : LgL n N, ‖w‖ ≤ max 1 ‖ys‖ → ‖llNew a δ k w‖ ≤ M := by
    obtain ⟨M, hM⟩ := (isCompact_closedBall (0 : LgL n N) (max 1 ‖ys‖)).exists_bound_of_continuousOn
      (continuous_pi fun t => (isL_llP (n := n) a δ t (longIdx k t)).cont : Continuous (llNew a δ k)).continuousOn
    exact ⟨max 1 M, le_max_left _ _, fun w hw => (hM w (mem_closedBall_zero_iff.mpr hw)).trans (le_max_right _ _)⟩
  set V := μ (Metric.closedBall 0 M) with hV
  have hV0 : V ≠ 0 := (Metric.measure_closedBall_pos μ 0 (by linarith)).ne'
  have hVt : V ≠ ∞ := measure_closedBall_lt_top.ne
  have hVs : ∀ z, μ (Metric.closedBall z M) = V := fun z => Measure.addHaar_closedBall_center μ z M
  set b := μ (Metric.closedBall 0 1) with hb
  set b' := ν (Metric.closedBall 0 1) with hb'
  have hb0 : b ≠ 0 := (Metric.measure_closedBall_pos μ 0 one_pos).ne'
  have hb'0 : b' ≠ 0 := (Metric.measure_closedBall_pos ν 0 one_pos).ne'
  have hbs : ∀ z, μ (Metric.closedBall z 1) = b := fun z => Measure.addHaar_closedBall_center μ z 1
  have hbs' : ∀ z, ν (Metric.closedBall z 1) = b' := fun z => Measure.addHaar_closedBall_center ν z 1
  -- how large the gaps have to be
  have hκ : c * V⁻¹ * ENNReal.ofReal (Real.exp (lgKnL n N d)) * b' * b * b ≠ 0 := by
    refine mul_ne_zero (mul_ne_zero (mul_ne_zero (mul_ne_zero (mul_ne_zero hc (ENNReal.inv_ne_zero.mpr hVt)) ?_) hb'0) hb0) hb0
    simpa using Real.exp_pos _
  obtain ⟨m, hm'⟩ := ENNReal.exists_nat_mul_gt hκ hC
  set K := Real.log (m + 4 * (N + 1)) with hKdef
  have hpos : (0 : ℝ) < m + 4 * (N + 1) := by positivity
  have hKe : Real.exp K = m + 4 * (N + 1) := Real.exp_log hpos
  have hK4 : 4 * (N + 1) ≤ Real.exp K := by
    rw [hKe]
    have : (0 : ℝ) ≤ m := Nat.cast_nonneg m
    linarith
  have hK0 : 0 ≤ K := Real.log_nonneg (by
    have h1 : (0 : ℝ) ≤ m := Nat.cast_nonneg m
    have h2 : (0 : ℝ) ≤ N := Nat.cast_nonneg N
    linarith)
  have hKm : (m : ℝ≥0∞) ≤ ENNReal.ofReal (Real.exp K) := by
    rw [hKe, ← ENNReal.ofReal_natCast]
    refine ENNReal.ofReal_le_ofReal ?_
    have h2 : (0 : ℝ) ≤ N := Nat.cast_nonneg N
    linarith
  obtain ⟨s, hs'⟩ := (ll_eventually (N := N) (k := k) hw hδ hk K (max 1 ‖ys‖)).exists
  -- the test function
  set ξ : Fin (n + 4) → Vec d := fun t _ => s * llNew a δ k v t with hξ
  have hT : Measurable fun x' : Fin (n + 4) → Vec d => ENNReal.ofReal (Real.exp (-lgTarget sigma ys x')) := by
    refine measurable_expR (Measurable.neg ?_)
    rw [funext fun x => lg_target_eqL ys sigma x hs]
    unfold lgLogL
    fun_prop
  have hTm : Measurable fun x' : Fin (n + 4) → Vec d => ENNReal.ofReal (Real.exp (lgTarget sigma ys x')) := by
    refine measurable_expR ?_
    rw [funext fun x => lg_target_eqL ys sigma x hs]
    unfold lgLogL
    fun_prop
  have hexp : ∀ t : ℝ, ENNReal.ofReal (Real.exp t) * ENNReal.ofReal (Real.exp (-t)) = 1 := fun t => by
    rw [← ofReal_exp_add, add_neg_cancel, Real.exp_zero, ENNReal.ofReal_one]
  set f : (Fin (n + 4) → Vec d) → ℝ≥0∞ := fun x' =>
    (Metric.closedBall ξ M).indicator (fun x' => ENNReal.ofReal (Real.exp (-lgTarget sigma ys x')) * V⁻¹) x' with hf
  have hfm : Measurable f := (hT.mul_const _).indicator measurableSet_closedBall
  refine ⟨f, hfm, ?_, ?_⟩
  · have h1 : ∀ x, ENNReal.ofReal (Real.exp (lgTarget sigma ys x)) * f x =
        (Metric.closedBall ξ M).indicator (fun _ => V⁻¹) x := fun x => by
      rw [hf]
      by_cases hx : x ∈ Metric.closedBall ξ M
      · simp only [Set.indicator_of_mem hx]
        rw [← mul_assoc, hexp, one_mul]
      · simp only [Set.indicator_of_notMem hx, mul_zero]
    simp only [h1]
    rw [lintegral_indicator measurableSet_closedBall, setLIntegral_const, hVs, ENNReal.inv_mul_cancel hV0 hVt]
  -- the bound
  have hpt : ∀ x e (η : Fin (n + 4) → Fin (N + 1) → Vec d), x ∈ Metric.closedBall (fun t (_ : Fin d) => s * v.2.1 t) 1 →
      e ∈ Metric.closedBall (fun t (_ : Fin d) => s * v.2.2.1 t) 1 → η ∈ Metric.closedBall (fun t i (_ : Fin d) => s * v.2.2.2 t i) 1 →
      c * V⁻¹ * ENNReal.ofReal (Real.exp (lgKnL n N d)) * m ≤
      ENNReal.ofReal (Real.exp (lgTarget sigma ys x)) * (ENNReal.ofReal (Real.exp (∑ t, stdLogpdf (e t))) *
        (ENNReal.ofReal (Real.exp (∑ t, ∑ i, stdLogpdf (η t i))) *
        (alsForward (n := n + 1) key (fun _ => 0) (lgGamma_0 ys sigma) (jaxGrad (lgGamma_0 ys sigma)) (lgGamma_t sigma)
          (fun x' x y => jaxGrad (fun x' => lgGamma_t sigma x' x y) x') (fun x' x y => jaxGrad (fun x => lgGamma_t sigma x' x y) x)
          (tailA ys) (fun _ => δ) (fun _ => δ) resampling (lgAuxL ys sigma δ x e) (lgPartL ys sigma δ x e η) >>= fun F =>
          alsPass (n := n + 1) key (fun _ => 0) (jaxGrad (lgGamma_0 ys sigma)) (lgGamma_t sigma)
            (fun x' x y => jaxGrad (fun x' => lgGamma_t sigma x' x y) x') (fun x' x y => jaxGrad (fun x => lgGamma_t sigma x' x y) x)
            (tailA ys) (fun _ => δ) (fun _ => δ) (lgAuxL ys sigma δ x e) mv true F : Ex _) (fun r => f r.1))) := by
    intro x e η hx he hη
    have hnear := lgCoordL_near ys s x e η v rfl hx he hη
    have hgaps := fun j => hs' _ (hnear j)
    refine le_trans ?_ (mul_le_mul_right (mul_le_mul_right (mul_le_mul_right
      (hge K x e η hK0 hK4 hgaps fun r => f r.1) _) _) _)
    set x' : Fin (n + 4) → Vec d := longNew (lgPartL ys sigma δ x e η) k with hx'
    have hxj : ∀ j, (fun t => x' t j) = llNew a δ k (lgCoordL ys x e η j) := fun j =>
      funext fun t => lgPartL_eq ys sigma δ x e η t (longIdx k t) j
    have hmem : x' ∈ Metric.closedBall ξ M := by
      rw [mem_closedBall_iff_norm, pi_norm_le_iff_of_nonneg (by linarith)]
      intro t
      rw [pi_norm_le_iff_of_nonneg (by linarith)]
      intro j
      have h1 : llNew a δ k (lgCoordL ys x e η j - s • v) = llNew a δ k (lgCoordL ys x e η j) - s • llNew a δ k v := by
        have e5 : lgCoordL ys x e η j - s • v = (-s) • v + lgCoordL ys x e η j := by rw [neg_smul]; abel
        rw [e5, llNew_lin, neg_smul]
        abel
      have h2 : (x' - ξ) t j = llNew a δ k (lgCoordL ys x e η j - s • v) t := by
        rw [h1, ← hxj]
        rfl
      rw [h2]
      exact (norm_le_pi_norm _ t).trans (hM _ (hnear j))
    have hfx : f x' = ENNReal.ofReal (Real.exp (-lgTarget sigma ys x')) * V⁻¹ := Set.indicator_of_mem hmem _
    rw [hfx]
    have hden := lg_density_eqL ys sigma δ x e η hs k x' hxj
    have hQ : K ≤ ∑ j, llQ a δ k (lgCoordL ys x e η j) := le_sum_of_forall hK0 hd fun j => (hgaps j).q
    have h3 : ENNReal.ofReal (Real.exp (lgTarget sigma ys x)) * (ENNReal.ofReal (Real.exp (∑ t, stdLogpdf (e t))) *
        ENNReal.ofReal (Real.exp (∑ t, ∑ i, stdLogpdf (η t i)))) * ENNReal.ofReal (Real.exp (-lgTarget sigma ys x')) =
        ENNReal.ofReal (Real.exp (∑ j, llQ a δ k (lgCoordL ys x e η j))) * ENNReal.ofReal (Real.exp (lgKnL n N d)) := by
      rw [← ofReal_exp_add, ← ofReal_exp_add, ← ofReal_exp_add, ← ofReal_exp_add]
      congr 2
      linarith
    have h4 : (m : ℝ≥0∞) ≤ ENNReal.ofReal (Real.exp (∑ j, llQ a δ k (lgCoordL ys x e η j))) :=
      hKm.trans (ENNReal.ofReal_le_ofReal (Real.exp_le_exp.mpr hQ))
    calc c * V⁻¹ * ENNReal.ofReal (Real.exp (lgKnL n N d)) * m
        ≤ c * V⁻¹ * ENNReal.ofReal (Real.exp (lgKnL n N d)) * ENNReal.ofReal (Real.exp (∑ j, llQ a δ k (lgCoordL ys x e η j))) :=
          mul_le_mul_right h4 _
      _ = c * V⁻¹ * (ENNReal.ofReal (Real.exp (lgTarget sigma ys x)) * (ENNReal.ofReal (Real.exp (∑ t, stdLogpdf (e t))) *
        ENNReal.ofReal (Real.exp (∑ t, ∑ i, stdLogpdf (η t i)))) * ENNReal.ofReal (Real.exp (-lgTarget sigma ys x'))) := by
          rw [h3]; ring
      _ = _ := by ring
  set Bx := Metric.closedBall (fun t (_ : Fin d) => s * v.2.1 t : Fin (n + 4) → Vec d) 1 with hBx
  set Be := Metric.closedBall (fun t (_ : Fin d) => s * v.2.2.1 t : Fin (n + 4) → Vec d) 1 with hBe
  set Bη := Metric.closedBall (fun t i (_ : Fin d) => s * v.2.2.2 t i : Fin (n + 4) → Fin (N + 1) → Vec d) 1 with hBη
  calc C < m * (c * V⁻¹ * ENNReal.ofReal (Real.exp (lgKnL n N d)) * b' * b * b) := hm'
    _ = ∫⁻ x in Bx, ∫⁻ e in Be, ∫⁻ η in Bη, c * V⁻¹ * ENNReal.ofReal (Real.exp (lgKnL n N d)) * m ∂ν ∂μ ∂μ := by
      simp only [setLIntegral_const, hBx, hBe, hBη, hbs, hbs']
      ring
    _ ≤ _ := by
      refine le_trans (setLIntegral_mono' measurableSet_closedBall fun x hx => ?_) (setLIntegral_le_lintegral _ _)
      have e1 : als_kernelF (N := N) (n := n + 1) id key x (fun _ => 0) (lgGamma_0 ys sigma) (jaxGrad (lgGamma_0 ys sigma)) (lgGamma_t sigma)
          (fun x' x y => jaxGrad (fun x' => lgGamma_t sigma x' x y) x') (fun x' x y => jaxGrad (fun x => lgGamma_t sigma x' x y) x)
          (tailA ys) (fun _ => δ) (fun _ => δ) resampling mv true (fun r => f r.1) =
          ∫⁻ e, ∫⁻ η, (alsForward (n := n + 1) key (fun _ => 0) (lgGamma_0 ys sigma) (jaxGrad (lgGamma_0 ys sigma)) (lgGamma_t sigma)
          (fun x' x y => jaxGrad (fun x' => lgGamma_t sigma x' x y) x') (fun x' x y => jaxGrad (fun x => lgGamma_t sigma x' x y) x)
          (tailA ys) (fun _ => δ) (fun _ => δ) resampling (lgAuxL ys sigma δ x e) (lgPartL ys sigma δ x e η) >>= fun F =>
          alsPass (n := n + 1) key (fun _ => 0) (jaxGrad (lgGamma_0 ys sigma)) (lgGamma_t sigma)
            (fun x' x y => jaxGrad (fun x' => lgGamma_t sigma x' x y) x') (fun x' x y => jaxGrad (fun x => lgGamma_t sigma x' x y) x)
            (tailA ys) (fun _ => δ) (fun _ => δ) (lgAuxL ys sigma δ x e) mv true F : Ex _) (fun r => f r.1)
            ∂(Measure.pi fun _ : Fin (n + 4) => Measure.pi fun _ : Fin (N + 1) => gaussM d) ∂(Measure.pi fun _ : Fin (n + 4) => gaussM d) := rfl
      rw [e1, lintegral_gauss_pi, ← lintegral_const_mul' _ _ ENNReal.ofReal_ne_top]
      refine le_trans (setLIntegral_mono' measurableSet_closedBall fun e he => ?_) (setLIntegral_le_lintegral _ _)
      rw [lintegral_gauss_pi2, ← lintegral_const_mul' _ _ ENNReal.ofReal_ne_top, ← lintegral_const_mul' _ _ ENNReal.ofReal_ne_top]
      refine le_trans (setLIntegral_mono' measurableSet_closedBall fun η hη => ?_) (setLIntegral_le_lintegral _ _)
      exact hpt x e η hx he hη


end
end Verif
