import Verif.Lemmas.LgWrongKernel

/-!
# Particle-aMALA+ with backward sampling on the linear Gaussian model: the law after one step is not bounded by the target
-/

open scoped ENNReal
open MeasureTheory ProbabilityTheory Finset

namespace Verif
open Verif.Spec Verif.Model Verif.Props

variable {N d : ℕ}

theorem le_sum_of_forall {K : ℝ} (hK : 0 ≤ K) (hd : 0 < d) {g : Fin d → ℝ} (h : ∀ j, K ≤ g j) : K ≤ ∑ j, g j :=
  (h ⟨0, hd⟩).trans (single_le_sum (fun j _ => hK.trans (h j)) (mem_univ _))

theorem lintegral_gauss_pi (k : ℕ) (F : (Fin k → Vec d) → ℝ≥0∞) :
    ∫⁻ e, F e ∂(Measure.pi fun _ : Fin k => gaussM d) =
      ∫⁻ e, ENNReal.ofReal (Real.exp (∑ t, stdLogpdf (e t))) * F e ∂(Measure.pi fun _ : Fin k => (volume : Measure (Vec d))) := by
  rw [gaussM_eq, pi_withDensity (fun _ : Fin k => (volume : Measure (Vec d))) (fun _ => stdLogpdf) fun _ => measurable_stdLogpdf]
  exact lintegral_withDensity_eq_lintegral_mul_non_measurable _ (measurable_expR (measurable_sum_apply fun _ => measurable_stdLogpdf))
    (ae_of_all _ fun _ => ENNReal.ofReal_lt_top) _

theorem lintegral_gauss_pi2 (l k : ℕ) (F : (Fin l → Fin k → Vec d) → ℝ≥0∞) :
    ∫⁻ e, F e ∂(Measure.pi fun _ : Fin l => Measure.pi fun _ : Fin k => gaussM d) =
      ∫⁻ e, ENNReal.ofReal (Real.exp (∑ t, ∑ i, stdLogpdf (e t i))) * F e
        ∂(Measure.pi fun _ : Fin l => Measure.pi fun _ : Fin k => (volume : Measure (Vec d))) := by
  have hm : Measurable fun e : Fin k → Vec d => ∑ i, stdLogpdf (e i) := measurable_sum_apply fun _ => measurable_stdLogpdf
  rw [gaussM_eq, pi_withDensity (fun _ : Fin k => (volume : Measure (Vec d))) (fun _ => stdLogpdf) fun _ => measurable_stdLogpdf,
    pi_withDensity (fun _ : Fin l => Measure.pi fun _ : Fin k => (volume : Measure (Vec d))) (fun _ e => ∑ i, stdLogpdf (e i))
      fun _ => hm]
  exact lintegral_withDensity_eq_lintegral_mul_non_measurable _ (measurable_expR (measurable_sum_apply fun _ => hm))
    (ae_of_all _ fun _ => ENNReal.ofReal_lt_top) _

section
variable (ys : Fin 3 → Vec d) {sigma δ : ℝ} {xv uv zv : Fin 3 → ℝ} {k : Fin (N + 1)}

/-- The log-weights of the kernel near the direction of the witness. -/
theorem lg_three_ge (hd : 0 < d) (key : Key) {resampling : Resampling Ex N}
    (hR : ∀ key, CondResampling fun w i j => resampling key w i j true)
    (hG : ∀ key, GivesToHeavy fun w i j => resampling key w i j true) {mv : AncestorMove Ex N}
    (hm : ∀ key, MoveKer (moveIndex mv key)) (hH : ∀ key, KeepsHeavy (moveIndex mv key)) :
    ∃ c : ℝ≥0∞, c ≠ 0 ∧ ∀ (f : (Fin 3 → Vec d) → ℝ≥0∞) (K : ℝ) x e (η : Fin 3 → Fin (N + 1) → Vec d),
      0 ≤ K → 4 * (N + 1) ≤ Real.exp K →
      (∀ j i,
        (i ≠ k → K ≤ ls0 (1 / sigma ^ 2) δ k (lgCoord ys x e η j) - ls0 (1 / sigma ^ 2) δ i (lgCoord ys x e η j)) ∧
        (i ≠ 0 → K ≤ ls1 (1 / sigma ^ 2) δ k 0 (lgCoord ys x e η j) - ls1 (1 / sigma ^ 2) δ k i (lgCoord ys x e η j)) ∧
        (i ≠ 0 → K ≤ ls2 (1 / sigma ^ 2) δ 0 (lgCoord ys x e η j) - ls2 (1 / sigma ^ 2) δ i (lgCoord ys x e η j)) ∧
        (i ≠ k → K ≤ lsB1 (1 / sigma ^ 2) δ k k (lgCoord ys x e η j) - lsB1 (1 / sigma ^ 2) δ k i (lgCoord ys x e η j)) ∧
        (i ≠ k → K ≤ lsB0 (1 / sigma ^ 2) δ k k (lgCoord ys x e η j) - lsB0 (1 / sigma ^ 2) δ k i (lgCoord ys x e η j))) →
      c * f ![lgPart ys sigma δ x e η 0 k, lgPart ys sigma δ x e η 1 k, lgPart ys sigma δ x e η 2 0] ≤
        (alsForward (n := 0) key (fun _ => 0) (lgGamma_0 ys sigma) (jaxGrad (lgGamma_0 ys sigma)) (lgGamma_t sigma)
          (fun x' x y => jaxGrad (fun x' => lgGamma_t sigma x' x y) x') (fun x' x y => jaxGrad (fun x => lgGamma_t sigma x' x y) x)
          (tailA ys) (fun _ => δ) (fun _ => δ) resampling (lgAux ys sigma δ x e) (lgPart ys sigma δ x e η) >>= fun F =>
          alsPass (n := 0) key (fun _ => 0) (jaxGrad (lgGamma_0 ys sigma)) (lgGamma_t sigma)
            (fun x' x y => jaxGrad (fun x' => lgGamma_t sigma x' x y) x') (fun x' x y => jaxGrad (fun x => lgGamma_t sigma x' x y) x)
            (tailA ys) (fun _ => δ) (fun _ => δ) (lgAux ys sigma δ x e) mv true F : Ex _) (fun r => f r.1) := by
  obtain ⟨c, hc, h⟩ := als_three_ge (lgGamma_0 ys sigma) (jaxGrad (lgGamma_0 ys sigma)) (lgGamma_t sigma)
    (fun x' x y => jaxGrad (fun x' => lgGamma_t sigma x' x y) x') (fun x' x y => jaxGrad (fun x => lgGamma_t sigma x' x y) x)
    (tailA ys) (fun _ => δ) (fun _ => δ) key (k := k) hR hG hm hH
  refine ⟨c, hc, fun f K x e η hK0 hK hg => ?_⟩
  refine h (lgAux ys sigma δ x e) (lgPart ys sigma δ x e η) f (lsA k) K rfl hK (fun i hi => ?_) (fun i hi => ?_) (fun i hi => ?_)
    (fun i hi => ?_) (fun i hi => ?_)
  · simp only [lg_threeW0, lgPart_eq, lgAux_eq ys sigma δ x e η, ← sum_sub_distrib]
    refine le_sum_of_forall hK0 hd fun j => ?_
    show K ≤ ls0 (1 / sigma ^ 2) δ k (lgCoord ys x e η j) + lgK0 sigma - (ls0 (1 / sigma ^ 2) δ i (lgCoord ys x e η j) + lgK0 sigma)
    linarith [(hg j i).1 hi]
  · simp only [lg_threeW1, lgPart_eq, lgAux_eq ys sigma δ x e η, ← sum_sub_distrib]
    refine le_sum_of_forall hK0 hd fun j => ?_
    show K ≤ ls1 (1 / sigma ^ 2) δ k 0 (lgCoord ys x e η j) + lgK0 sigma -
      (ls1 (1 / sigma ^ 2) δ k i (lgCoord ys x e η j) + lgK0 sigma)
    linarith [(hg j i).2.1 hi]
  · have hA : lsA k 0 = 0 := Function.update_self _ _ _
    simp only [lg_threeW2, lgPart_eq, lgAux_eq ys sigma δ x e η, ← sum_sub_distrib, hA]
    refine le_sum_of_forall hK0 hd fun j => ?_
    show K ≤ ls2 (1 / sigma ^ 2) δ 0 (lgCoord ys x e η j) + lgK0 sigma -
      (ls2 (1 / sigma ^ 2) δ i (lgCoord ys x e η j) + lgK0 sigma)
    linarith [(hg j i).2.2.1 hi]
  · simp only [lg_threeW1, lg_threeGt, lgPart_eq, lgAux_eq ys sigma δ x e η, ← sum_add_distrib, ← sum_sub_distrib]
    refine le_sum_of_forall hK0 hd fun j => ?_
    have h1 := (hg j i).2.2.2.1 hi
    unfold lsB1 at h1
    refine h1.trans (le_of_eq ?_)
    simp only [ls1]
    show _ = lgG2 _ _ (lgCoord ys x e η j).1 _ _ _ _ + lgK0 sigma + (lgW1 _ _ (lgCoord ys x e η j).1 _ _ _ + lgK0 sigma) -
      (lgG2 _ _ (lgCoord ys x e η j).1 _ _ _ _ + lgK0 sigma + (lgW1 _ _ (lgCoord ys x e η j).1 _ _ _ + lgK0 sigma))
    ring
  · simp only [lg_threeW0, lg_threeG1, lg_threeGt, lgPart_eq, lgAux_eq ys sigma δ x e η, ← sum_add_distrib, ← sum_sub_distrib]
    refine le_sum_of_forall hK0 hd fun j => ?_
    have h1 := (hg j i).2.2.2.2 hi
    unfold lsB0 at h1
    refine h1.trans (le_of_eq ?_)
    simp only [ls0]
    show _ = lgG1 _ _ (lgCoord ys x e η j).1 _ _ _ + lgK0 sigma + (lgG2 _ _ (lgCoord ys x e η j).1 _ _ _ _ + lgK0 sigma) +
      (lgW0 _ _ (lgCoord ys x e η j).1 _ _ + lgK0 sigma) -
      (lgG1 _ _ (lgCoord ys x e η j).1 _ _ _ + lgK0 sigma + (lgG2 _ _ (lgCoord ys x e η j).1 _ _ _ _ + lgK0 sigma) +
        (lgW0 _ _ (lgCoord ys x e η j).1 _ _ + lgK0 sigma))
    ring

theorem lgCoord_near (s : ℝ) (x e : Fin 3 → Vec d) (η : Fin 3 → Fin (N + 1) → Vec d) (v : LgS N) (hv : v.1 = 0)
    (hx : x ∈ Metric.closedBall (fun t _ => s * v.2.1 t) 1) (he : e ∈ Metric.closedBall (fun t _ => s * v.2.2.1 t) 1)
    (hη : η ∈ Metric.closedBall (fun t i _ => s * v.2.2.2 t i) 1) (j : Fin d) :
    ‖lgCoord ys x e η j - s • v‖ ≤ max 1 ‖ys‖ := by
  have h1 : (0 : ℝ) ≤ max 1 ‖ys‖ := le_max_of_le_left zero_le_one
  have hle : (1 : ℝ) ≤ max 1 ‖ys‖ := le_max_left _ _
  rw [mem_closedBall_iff_norm, pi_norm_le_iff_of_nonneg zero_le_one] at hx he hη
  rw [Prod.norm_def, Prod.norm_def, Prod.norm_def]
  refine max_le ?_ (max_le ?_ (max_le ?_ ?_))
  · rw [pi_norm_le_iff_of_nonneg h1]
    intro t
    show ‖ys t j - s * v.1 t‖ ≤ _
    rw [hv, Pi.zero_apply, mul_zero, sub_zero]
    exact ((norm_le_pi_norm (ys t) j).trans (norm_le_pi_norm ys t)).trans (le_max_right _ _)
  · rw [pi_norm_le_iff_of_nonneg h1]
    exact fun t => ((norm_le_pi_norm _ j).trans (hx t)).trans hle
  · rw [pi_norm_le_iff_of_nonneg h1]
    exact fun t => ((norm_le_pi_norm _ j).trans (he t)).trans hle
  · rw [pi_norm_le_iff_of_nonneg h1]
    intro t
    rw [pi_norm_le_iff_of_nonneg h1]
    intro i
    have h2 := hη t
    rw [pi_norm_le_iff_of_nonneg zero_le_one] at h2
    exact ((norm_le_pi_norm _ j).trans (h2 i)).trans hle

/-- The law after one step from the target is not bounded by any multiple of the target. -/
theorem lg_unbounded (hd : 0 < d) (hs : 0 < sigma) (hδ : 0 < δ) (hw : LgWitness (1 / sigma ^ 2) δ xv uv zv) (hk : k ≠ 0)
    (key : Key) {resampling : Resampling Ex N}
    (hR : ∀ key, CondResampling fun w i j => resampling key w i j true)
    (hG : ∀ key, GivesToHeavy fun w i j => resampling key w i j true) {mv : AncestorMove Ex N}
    (hm : ∀ key, MoveKer (moveIndex mv key)) (hH : ∀ key, KeepsHeavy (moveIndex mv key)) (C : ℝ≥0∞) (hC : C ≠ ∞) :
    ∃ f : (Fin 3 → Vec d) → ℝ≥0∞, Measurable f ∧
      ∫⁻ x, ENNReal.ofReal (Real.exp (lgTarget sigma ys x)) * f x ∂(Measure.pi fun _ : Fin 3 => (volume : Measure (Vec d))) = 1 ∧
      C < ∫⁻ x, ENNReal.ofReal (Real.exp (lgTarget sigma ys x)) *
        als_kernelF (N := N) (n := 0) id key x (fun _ => 0) (lgGamma_0 ys sigma) (jaxGrad (lgGamma_0 ys sigma)) (lgGamma_t sigma)
          (fun x' x y => jaxGrad (fun x' => lgGamma_t sigma x' x y) x') (fun x' x y => jaxGrad (fun x => lgGamma_t sigma x' x y) x)
          (tailA ys) (fun _ => δ) (fun _ => δ) resampling mv true (fun r => f r.1)
        ∂(Measure.pi fun _ : Fin 3 => (volume : Measure (Vec d))) := by
  obtain ⟨c, hc, hge⟩ := lg_three_ge (k := k) (sigma := sigma) (δ := δ) ys hd key hR hG hm hH
  set a := 1 / sigma ^ 2 with ha
  set v : LgS N := lsV a δ xv uv zv k with hv
  set μ := (Measure.pi fun _ : Fin 3 => (volume : Measure (Vec d))) with hμ
  set ν := (Measure.pi fun _ : Fin 3 => Measure.pi fun _ : Fin (N + 1) => (volume : Measure (Vec d))) with hν
  have hi1 : (Measure.pi fun _ : Fin (N + 1) => (volume : Measure (Vec d))).IsAddHaarMeasure := Measure.pi.isAddHaarMeasure _
  have hi2 : ν.IsAddHaarMeasure := Measure.pi.isAddHaarMeasure _
  -- bound on the new trajectory
  obtain ⟨M, hM1, hM⟩ : ∃ M : ℝ, 1 ≤ M ∧ ∀ w : LgS N, ‖w‖ ≤ max 1 ‖ys‖ → ‖lsNew a δ k w‖ ≤ M := by
    obtain ⟨M, hM⟩ := (isCompact_closedBall (0 : LgS N) (max 1 ‖ys‖)).exists_bound_of_continuousOn
      (continuous_lsNew a δ k).continuousOn
    exact ⟨max 1 M, le_max_left _ _, fun w hw => (hM w (mem_closedBall_zero_iff.mpr hw)).trans (le_max_right _ _)⟩
  set V := μ (Metric.closedBall 0 M) with hV
  have hV0 : V ≠ 0 := (Metric.measure_closedBall_pos μ 0 (by linarith)).ne'
  have hVt : V ≠ ∞ := measure_closedBall_lt_top.ne
  have hVs : ∀ z, μ (Metric.closedBall z M) = V := fun z => Measure.addHaar_closedBall_center μ z M
  set b := μ (Metric.closedBall 0 1) with hb
  set b' := ν (Metric.closedBall 0 1) with hb'
  have hb0 : b ≠ 0 := (Metric.measure_closedBall_pos μ 0 one_pos).ne'
  have hb'0 : b' ≠ 0 := (Metric.measure_closedBall_pos ν 0 one_pos).ne'
  have hbs : ∀ z, μ (Metric.closedBall z 1) = b := fun z => Measure.addHaar_closedBall_center μ z 1
  have hbs' : ∀ z, ν (Metric.closedBall z 1) = b' := fun z => Measure.addHaar_closedBall_center ν z 1
  -- how large the gaps have to be
  have hκ : c * V⁻¹ * ENNReal.ofReal (Real.exp (lgKn N d)) * b' * b * b ≠ 0 := by
    refine mul_ne_zero (mul_ne_zero (mul_ne_zero (mul_ne_zero (mul_ne_zero hc (ENNReal.inv_ne_zero.mpr hVt)) ?_) hb'0) hb0) hb0
    simpa using Real.exp_pos _
  obtain ⟨m, hm'⟩ := ENNReal.exists_nat_mul_gt hκ hC
  set K := Real.log (m + 4 * (N + 1)) with hKdef
  have hpos : (0 : ℝ) < m + 4 * (N + 1) := by positivity
  have hKe : Real.exp K = m + 4 * (N + 1) := Real.exp_log hpos
  have hK4 : 4 * (N + 1) ≤ Real.exp K := by
    rw [hKe]
    have : (0 : ℝ) ≤ m := Nat.cast_nonneg m
    linarith
  have hK0 : 0 ≤ K := Real.log_nonneg (by
    have h1 : (0 : ℝ) ≤ m := Nat.cast_nonneg m
    have h2 : (0 : ℝ) ≤ N := Nat.cast_nonneg N
    linarith)
  have hKm : (m : ℝ≥0∞) ≤ ENNReal.ofReal (Real.exp K) := by
    rw [hKe, ← ENNReal.ofReal_natCast]
    refine ENNReal.ofReal_le_ofReal ?_
    have h2 : (0 : ℝ) ≤ N := Nat.cast_nonneg N
    linarith
  obtain ⟨s, hs'⟩ := (ls_eventually (N := N) (k := k) hw hδ hk K (max 1 ‖ys‖)).exists
  -- the test function
  set ξ : Fin 3 → Vec d := fun t _ => s * lsNew a δ k v t with hξ
  have hT : Measurable fun x' : Fin 3 → Vec d => ENNReal.ofReal (Real.exp (-lgTarget sigma ys x')) := by
    refine measurable_expR (Measurable.neg ?_)
    rw [funext fun x => lg_target_eq ys sigma x hs]
    unfold lgLog
    fun_prop
  have hTm : Measurable fun x' : Fin 3 → Vec d => ENNReal.ofReal (Real.exp (lgTarget sigma ys x')) := by
    refine measurable_expR ?_
    rw [funext fun x => lg_target_eq ys sigma x hs]
    unfold lgLog
    fun_prop
  have hexp : ∀ t : ℝ, ENNReal.ofReal (Real.exp t) * ENNReal.ofReal (Real.exp (-t)) = 1 := fun t => by
    rw [← ofReal_exp_add, add_neg_cancel, Real.exp_zero, ENNReal.ofReal_one]
  set f : (Fin 3 → Vec d) → ℝ≥0∞ := fun x' =>
    (Metric.closedBall ξ M).indicator (fun x' => ENNReal.ofReal (Real.exp (-lgTarget sigma ys x')) * V⁻¹) x' with hf
  have hfm : Measurable f := (hT.mul_const _).indicator measurableSet_closedBall
  refine ⟨f, hfm, ?_, ?_⟩
  · have h1 : ∀ x, ENNReal.ofReal (Real.exp (lgTarget sigma ys x)) * f x =
        (Metric.closedBall ξ M).indicator (fun _ => V⁻¹) x := fun x => by
      rw [hf]
      by_cases hx : x ∈ Metric.closedBall ξ M
      · simp only [Set.indicator_of_mem hx]
        rw [← mul_assoc, hexp, one_mul]
      · simp only [Set.indicator_of_notMem hx, mul_zero]
    simp only [h1]
    rw [lintegral_indicator measurableSet_closedBall, setLIntegral_const, hVs, ENNReal.inv_mul_cancel hV0 hVt]
  -- the bound
  have hpt : ∀ x e (η : Fin 3 → Fin (N + 1) → Vec d), x ∈ Metric.closedBall (fun t (_ : Fin d) => s * v.2.1 t) 1 →
      e ∈ Metric.closedBall (fun t (_ : Fin d) => s * v.2.2.1 t) 1 → η ∈ Metric.closedBall (fun t i (_ : Fin d) => s * v.2.2.2 t i) 1 →
      c * V⁻¹ * ENNReal.ofReal (Real.exp (lgKn N d)) * m ≤
      ENNReal.ofReal (Real.exp (lgTarget sigma ys x)) * (ENNReal.ofReal (Real.exp (∑ t, stdLogpdf (e t))) *
        (ENNReal.ofReal (Real.exp (∑ t, ∑ i, stdLogpdf (η t i))) *
        (alsForward (n := 0) key (fun _ => 0) (lgGamma_0 ys sigma) (jaxGrad (lgGamma_0 ys sigma)) (lgGamma_t sigma)
          (fun x' x y => jaxGrad (fun x' => lgGamma_t sigma x' x y) x') (fun x' x y => jaxGrad (fun x => lgGamma_t sigma x' x y) x)
          (tailA ys) (fun _ => δ) (fun _ => δ) resampling (lgAux ys sigma δ x e) (lgPart ys sigma δ x e η) >>= fun F =>
          alsPass (n := 0) key (fun _ => 0) (jaxGrad (lgGamma_0 ys sigma)) (lgGamma_t sigma)
            (fun x' x y => jaxGrad (fun x' => lgGamma_t sigma x' x y) x') (fun x' x y => jaxGrad (fun x => lgGamma_t sigma x' x y) x)
            (tailA ys) (fun _ => δ) (fun _ => δ) (lgAux ys sigma δ x e) mv true F : Ex _) (fun r => f r.1))) := by
    intro x e η hx he hη
    have hnear := lgCoord_near ys s x e η v rfl hx he hη
    have hgaps := fun j => hs' _ (hnear j)
    refine le_trans ?_ (mul_le_mul_right (mul_le_mul_right (mul_le_mul_right
      (hge f K x e η hK0 hK4 fun j i => (hgaps j).2 i) _) _) _)
    set x' : Fin 3 → Vec d := ![lgPart ys sigma δ x e η 0 k, lgPart ys sigma δ x e η 1 k, lgPart ys sigma δ x e η 2 0] with hx'
    have hxj : ∀ j, (fun t => x' t j) = lsNew a δ k (lgCoord ys x e η j) := fun j => by
      funext t
      fin_cases t
      · exact lgPart_eq ys sigma δ x e η 0 k j
      · exact lgPart_eq ys sigma δ x e η 1 k j
      · exact lgPart_eq ys sigma δ x e η 2 0 j
    have hmem : x' ∈ Metric.closedBall ξ M := by
      rw [mem_closedBall_iff_norm, pi_norm_le_iff_of_nonneg (by linarith)]
      intro t
      rw [pi_norm_le_iff_of_nonneg (by linarith)]
      intro j
      have h1 : lsNew a δ k (lgCoord ys x e η j - s • v) = lsNew a δ k (lgCoord ys x e η j) - s • lsNew a δ k v := by
        rw [sub_eq_add_neg, ← neg_smul, lsNew_add, lsNew_smul, neg_smul, ← sub_eq_add_neg]
      have h2 : (x' - ξ) t j = lsNew a δ k (lgCoord ys x e η j - s • v) t := by
        rw [h1, ← hxj]
        rfl
      rw [h2]
      exact (norm_le_pi_norm _ t).trans (hM _ (hnear j))
    have hfx : f x' = ENNReal.ofReal (Real.exp (-lgTarget sigma ys x')) * V⁻¹ := Set.indicator_of_mem hmem _
    rw [hfx]
    have hden := lg_density_eq ys sigma δ x e η hs k x' hxj
    have hQ : K ≤ ∑ j, lsQ a δ k (lgCoord ys x e η j) := le_sum_of_forall hK0 hd fun j => (hgaps j).1
    have h3 : ENNReal.ofReal (Real.exp (lgTarget sigma ys x)) * (ENNReal.ofReal (Real.exp (∑ t, stdLogpdf (e t))) *
        ENNReal.ofReal (Real.exp (∑ t, ∑ i, stdLogpdf (η t i)))) * ENNReal.ofReal (Real.exp (-lgTarget sigma ys x')) =
        ENNReal.ofReal (Real.exp (∑ j, lsQ a δ k (lgCoord ys x e η j))) * ENNReal.ofReal (Real.exp (lgKn N d)) := by
      rw [← ofReal_exp_add, ← ofReal_exp_add, ← ofReal_exp_add, ← ofReal_exp_add]
      congr 2
      linarith
    have h4 : (m : ℝ≥0∞) ≤ ENNReal.ofReal (Real.exp (∑ j, lsQ a δ k (lgCoord ys x e η j))) :=
      hKm.trans (ENNReal.ofReal_le_ofReal (Real.exp_le_exp.mpr hQ))
    calc c * V⁻¹ * ENNReal.ofReal (Real.exp (lgKn N d)) * m
        ≤ c * V⁻¹ * ENNReal.ofReal (Real.exp (lgKn N d)) * ENNReal.ofReal (Real.exp (∑ j, lsQ a δ k (lgCoord ys x e η j))) :=
          mul_le_mul_right h4 _
      _ = c * V⁻¹ * (ENNReal.ofReal (Real.exp (lgTarget sigma ys x)) * (ENNReal.ofReal (Real.exp (∑ t, stdLogpdf (e t))) *
        ENNReal.ofReal (Real.exp (∑ t, ∑ i, stdLogpdf (η t i)))) * ENNReal.ofReal (Real.exp (-lgTarget sigma ys x'))) := by
          rw [h3]; ring
      _ = _ := by ring
  set Bx := Metric.closedBall (fun t (_ : Fin d) => s * v.2.1 t : Fin 3 → Vec d) 1 with hBx
  set Be := Metric.closedBall (fun t (_ : Fin d) => s * v.2.2.1 t : Fin 3 → Vec d) 1 with hBe
  set Bη := Metric.closedBall (fun t i (_ : Fin d) => s * v.2.2.2 t i : Fin 3 → Fin (N + 1) → Vec d) 1 with hBη
  calc C < m * (c * V⁻¹ * ENNReal.ofReal (Real.exp (lgKn N d)) * b' * b * b) := hm'
    _ = ∫⁻ x in Bx, ∫⁻ e in Be, ∫⁻ η in Bη, c * V⁻¹ * ENNReal.ofReal (Real.exp (lgKn N d)) * m ∂ν ∂μ ∂μ := by
      simp only [setLIntegral_const, hBx, hBe, hBη, hbs, hbs']
      ring
    _ ≤ _ := by
      refine le_trans (setLIntegral_mono' measurableSet_closedBall fun x hx => ?_) (setLIntegral_le_lintegral _ _)
      have e1 : als_kernelF (N := N) (n := 0) id key x (fun _ => 0) (lgGamma_0 ys sigma) (jaxGrad (lgGamma_0 ys sigma)) (lgGamma_t sigma)
          (fun x' x y => jaxGrad (fun x' => lgGamma_t sigma x' x y) x') (fun x' x y => jaxGrad (fun x => lgGamma_t sigma x' x y) x)
          (tailA ys) (fun _ => δ) (fun _ => δ) resampling mv true (fun r => f r.1) =
          ∫⁻ e, ∫⁻ η, (alsForward (n := 0) key (fun _ => 0) (lgGamma_0 ys sigma) (jaxGrad (lgGamma_0 ys sigma)) (lgGamma_t sigma)
          (fun x' x y => jaxGrad (fun x' => lgGamma_t sigma x' x y) x') (fun x' x y => jaxGrad (fun x => lgGamma_t sigma x' x y) x)
          (tailA ys) (fun _ => δ) (fun _ => δ) resampling (lgAux ys sigma δ x e) (lgPart ys sigma δ x e η) >>= fun F =>
          alsPass (n := 0) key (fun _ => 0) (jaxGrad (lgGamma_0 ys sigma)) (lgGamma_t sigma)
            (fun x' x y => jaxGrad (fun x' => lgGamma_t sigma x' x y) x') (fun x' x y => jaxGrad (fun x => lgGamma_t sigma x' x y) x)
            (tailA ys) (fun _ => δ) (fun _ => δ) (lgAux ys sigma δ x e) mv true F : Ex _) (fun r => f r.1)
            ∂(Measure.pi fun _ : Fin 3 => Measure.pi fun _ : Fin (N + 1) => gaussM d) ∂(Measure.pi fun _ : Fin 3 => gaussM d) := rfl
      rw [e1, lintegral_gauss_pi, ← lintegral_const_mul' _ _ ENNReal.ofReal_ne_top]
      refine le_trans (setLIntegral_mono' measurableSet_closedBall fun e he => ?_) (setLIntegral_le_lintegral _ _)
      rw [lintegral_gauss_pi2, ← lintegral_const_mul' _ _ ENNReal.ofReal_ne_top, ← lintegral_const_mul' _ _ ENNReal.ofReal_ne_top]
      refine le_trans (setLIntegral_mono' measurableSet_closedBall fun η hη => ?_) (setLIntegral_le_lintegral _ _)
      exact hpt x e η hx he hη

end
end Verif
