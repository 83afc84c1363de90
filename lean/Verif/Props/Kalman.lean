import Verif.Lemmas.KalmanLaws

/-!
# C38-C41: Gaussian densities, Kalman filter, backward sampler, smoother
-/

namespace Verif.Props
open Verif Verif.Model Verif.Spec Matrix MeasureTheory ProbabilityTheory
open scoped ENNReal

variable {d k n N : ℕ}

/-! ## C41 -/

/-- **C41**: giving the inverse of the factor does not change the value. -/
theorem C41_chol_inv (x m : Vec d) (chol : Mat d d) (constant : Bool) :
    mvn_logpdf x m chol (some chol⁻¹) constant = mvn_logpdf x m chol none constant := rfl

/-- **C41**: with its constant, `mvn_logpdf` is the log-density of `N(m, chol cholᵀ)`. -/
theorem C41_value {chol : Mat d d} (hlow : ∀ i j, i < j → chol i j = 0) (hdiag : ∀ i, chol i i ≠ 0) (x m : Vec d) :
    mvn_logpdf x m chol none true = normalLogpdf m (chol * cholᵀ) x := by
  have hdet : chol.det = ∏ i, chol i i := det_of_isLowerTriangular chol fun i j hij =>
    hlow i j (OrderDual.toDual_lt_toDual.mp hij)
  have hne : chol.det ≠ 0 := by rw [hdet]; exact Finset.prod_ne_zero_iff.mpr fun i _ => hdiag i
  have h1 : tril_log_det chol = Real.log |chol.det| := by
    rw [hdet, Finset.abs_prod, Real.log_prod fun i _ => (abs_pos.mpr (hdiag i)).ne']
    rfl
  rw [← normalLogpdf_factor hne, stdLogpdf]
  simp only [mvn_logpdf, logpdf_chol, get_constant, if_true, h1, solveTri, dotProduct]
  ring

/-- **C41**: without the constant, `mvn_logpdf` is minus half the Mahalanobis distance, whatever the invertible
factor. -/
theorem C41_unnormalised (x m : Vec d) (chol : Mat d d) :
    mvn_logpdf x m chol none false = -((x - m) ⬝ᵥ ((chol * cholᵀ)⁻¹ *ᵥ (x - m))) / 2 := by
  have h : ∀ v : Vec d, ∑ j, v j * v j = v ⬝ᵥ v := fun v => rfl
  simp only [mvn_logpdf, logpdf_chol, solveTri, h]
  rw [dot_mulVec_left, mulVec_mulVec, Matrix.mul_inv_rev, transpose_nonsing_inv]
  norm_num
  ring

/-- **C41**: the density integrates to one. -/
theorem C41_normalised {chol : Mat d d} (hlow : ∀ i j, i < j → chol i j = 0) (hdiag : ∀ i, chol i i ≠ 0) (m : Vec d) :
    ∫⁻ x, ENNReal.ofReal (Real.exp (mvn_logpdf x m chol none true)) = 1 := by
  have hdet : chol.det = ∏ i, chol i i := det_of_isLowerTriangular chol fun i j hij =>
    hlow i j (OrderDual.toDual_lt_toDual.mp hij)
  have hne : chol.det ≠ 0 := by rw [hdet]; exact Finset.prod_ne_zero_iff.mpr fun i _ => hdiag i
  simp only [C41_value hlow hdiag]
  exact normalLogpdf_norm (mul_transpose_posDef hne) m

/-- **C41**: `rvs` draws from the density computed by `mvn_logpdf`. -/
theorem C41_rvs {chol : Mat d d} (hlow : ∀ i j, i < j → chol i j = 0) (hdiag : ∀ i, chol i i ≠ 0) (key : Key)
    (mean : Fin k → Vec d) :
    SamplesFrom volume (fun i x => mvn_logpdf x (mean i) chol none true) (rvs key mean chol : Ex (Fin k → Vec d)) := by
  have hdet : chol.det = ∏ i, chol i i := det_of_isLowerTriangular chol fun i j hij =>
    hlow i j (OrderDual.toDual_lt_toDual.mp hij)
  have hne : chol.det ≠ 0 := by rw [hdet]; exact Finset.prod_ne_zero_iff.mpr fun i _ => hdiag i
  have h := gauss_samplesFrom hne mean key
  simp only [normalLogpdf_factor hne] at h
  simp only [C41_value hlow hdiag]
  exact h

/-- **C41** (`norm_logpdf`): the scalar density, and the version without constant. -/
theorem C41_norm_logpdf (x loc : ℝ) {scale : ℝ} (hs : 0 < scale) :
    Real.exp (norm_logpdf x loc scale true) = gaussianPDFReal loc (Real.toNNReal scale ^ 2) x ∧
      norm_logpdf x loc scale true = norm_logpdf x loc scale false - Real.log (2 * Real.pi * scale ^ 2) / 2 := by
  constructor
  · simp only [norm_logpdf, if_true, gaussianPDFReal, NNReal.coe_pow, Real.coe_toNNReal _ hs.le]
    have : -(Real.log (2 * Real.pi * scale ^ 2) + (x - loc) ^ 2 / scale ^ 2) / 2 =
        -(Real.log (2 * Real.pi * scale ^ 2) * (1 / 2)) + -(x - loc) ^ 2 / (2 * scale ^ 2) := by
      field_simp
      ring
    rw [this, Real.exp_add, Real.exp_neg, Real.sqrt_eq_rpow, Real.rpow_def_of_pos (by positivity)]
  · simp only [norm_logpdf, if_true]
    norm_num
    field_simp
    ring

/-- A factor that is not diagonal and has a negative diagonal entry. -/
example (x m : Vec 2) : mvn_logpdf x m !![2, 0; 1, -3] none true =
    normalLogpdf m (!![2, 0; 1, -3] * !![2, 0; 1, -3]ᵀ) x :=
  C41_value (by intro i j h; fin_cases i <;> fin_cases j <;> simp_all) (by intro i; fin_cases i <;> simp) x m

/-! ## C38 -/

/-- **C38**: the Kalman update is Bayes' rule. -/
theorem C38_update {P : Mat d d} {R : Mat k k} (hP : P.PosDef) (hR : R.PosDef) (H : Mat k d) (m : Vec d) (c y : Vec k) :
    (sequential_update y m P H c R).2.1.PosDef ∧ ∀ x,
      normalLogpdf m P x + normalLogpdf (H *ᵥ x + c) R y = (sequential_update y m P H c R).2.2 +
        normalLogpdf (sequential_update y m P H c R).1 (sequential_update y m P H c R).2.1 x := by
  rw [sequential_update_eq hP hR]
  exact ⟨kCov_posDef hP hR H, fun x => update_bayes hP hR H m x c y⟩

/-- **C38**: the third output is the log of the marginal likelihood. -/
theorem C38_evidence {P : Mat d d} {R : Mat k k} (hP : P.PosDef) (hR : R.PosDef) (H : Mat k d) (m : Vec d) (c y : Vec k) :
    ENNReal.ofReal (Real.exp (sequential_update y m P H c R).2.2) =
      ∫⁻ x, ENNReal.ofReal (Real.exp (normalLogpdf m P x)) *
        ENNReal.ofReal (Real.exp (normalLogpdf (H *ᵥ x + c) R y)) := by
  rw [sequential_update_eq hP hR, normal_marginal hP hR]

/-- **C38**: the prediction step is the marginal of the transition. -/
theorem C38_predict {P Q : Mat d d} (hP : P.PosDef) (hQ : Q.PosDef) (F : Mat d d) (m b : Vec d) :
    (sequential_predict m P F b Q).2.PosDef ∧ ∀ z, ENNReal.ofReal (Real.exp (normalLogpdf
        (sequential_predict m P F b Q).1 (sequential_predict m P F b Q).2 z)) =
      ∫⁻ x, ENNReal.ofReal (Real.exp (normalLogpdf m P x)) *
        ENNReal.ofReal (Real.exp (normalLogpdf (F *ᵥ x + b) Q z)) := by
  rw [sequential_predict_eq hP hQ]
  exact ⟨innov_posDef hP hQ F, fun z => (normal_marginal hP hQ F m b z).symm⟩

/-- A singular, non-symmetric transition matrix is allowed. -/
example (m b z : Vec 2) := (C38_predict (posDef_smul_one (d := 2) (r := 3) (by norm_num)) PosDef.one
  !![1, 1; 0, 0] m b).2 z

/-- Scalar observation of a two-dimensional state. -/
example (m : Vec 2) (y : Vec 1) := C38_update (posDef_smul_one (d := 2) (r := 2) (by norm_num))
  (posDef_smul_one (d := 1) (r := 0.5) (by norm_num)) !![1, -1] m 0 y

/-! ## C39 -/

/-- **C39** (one observation per transition): the backward samples are independent draws from the posterior law of
the trajectory, whose log-density is the sum of the log-prior and the log-likelihood, minus the returned `ell`. -/
theorem C39_filtering {dy : ℕ} (ys : Fin n → Vec dy) (m0 : Vec d) {P0 : Mat d d} {Fs Qs : Fin n → Mat d d}
    (bs : Fin n → Vec d) (Hs : Fin n → Mat dy d) {Rs : Fin n → Mat dy dy} (cs : Fin n → Vec dy) (hP : P0.PosDef)
    (hQ : ∀ t, (Qs t).PosDef) (hR : ∀ t, (Rs t).PosDef) (key : Key) :
    SamplesFrom (Measure.pi fun _ : Fin (n + 1) => (volume : Measure (Vec d)))
      (fun _ x => gaussPathLog m0 P0 Fs Qs bs x + obsLog Hs Rs cs ys (tailA x) -
        (filtering ys m0 P0 Fs Qs bs Hs Rs cs).2.2)
      (kalman_sampling key (filtering ys m0 P0 Fs Qs bs Hs Rs cs).1 (filtering ys m0 P0 Fs Qs bs Hs Rs cs).2.1 Fs Qs bs N :
        Ex (Fin N → Fin (n + 1) → Vec d)) := by
  have h := kalman_samplesFrom (N := N) (ms := (filtering ys m0 P0 Fs Qs bs Hs Rs cs).1)
    (Ps := (filtering ys m0 P0 Fs Qs bs Hs Rs cs).2.1) (Fs := Fs)
    (fun t => filteringFrom_posDef ys m0 0 bs Hs cs hP hQ hR t) hQ bs key
  have he : (fun (_ : Fin N) x => gaussPathLog m0 P0 Fs Qs bs x + obsLog Hs Rs cs ys (tailA x) -
      (filtering ys m0 P0 Fs Qs bs Hs Rs cs).2.2) = fun _ => backLog (filtering ys m0 P0 Fs Qs bs Hs Rs cs).1
        (filtering ys m0 P0 Fs Qs bs Hs Rs cs).2.1 Fs Qs bs := by
    funext _ x
    have := filteringFrom_factor (Fs := Fs) ys m0 0 bs Hs cs hP hQ hR x
    rw [filtering]
    linarith
  rw [he]
  exact h

/-- **C39** (as many observations as states). -/
theorem C39_filtering0 {dy : ℕ} (ys : Fin (n + 1) → Vec dy) (m0 : Vec d) {P0 : Mat d d} {Fs Qs : Fin n → Mat d d}
    (bs : Fin n → Vec d) (Hs : Fin (n + 1) → Mat dy d) {Rs : Fin (n + 1) → Mat dy dy} (cs : Fin (n + 1) → Vec dy)
    (hP : P0.PosDef) (hQ : ∀ t, (Qs t).PosDef) (hR : ∀ t, (Rs t).PosDef) (key : Key) :
    SamplesFrom (Measure.pi fun _ : Fin (n + 1) => (volume : Measure (Vec d)))
      (fun _ x => gaussPathLog m0 P0 Fs Qs bs x + obsLog Hs Rs cs ys x -
        (filtering0 ys m0 P0 Fs Qs bs Hs Rs cs).2.2)
      (kalman_sampling key (filtering0 ys m0 P0 Fs Qs bs Hs Rs cs).1 (filtering0 ys m0 P0 Fs Qs bs Hs Rs cs).2.1 Fs Qs
        bs N : Ex (Fin N → Fin (n + 1) → Vec d)) := by
  have hf : filtering0 ys m0 P0 Fs Qs bs Hs Rs cs = filteringFrom (tailA ys) (kMean m0 P0 (Hs 0) (cs 0) (Rs 0) (ys 0))
      (kCov P0 (Hs 0) (Rs 0)) (normalLogpdf (Hs 0 *ᵥ m0 + cs 0) (Rs 0 + Hs 0 * P0 * (Hs 0)ᵀ) (ys 0)) Fs Qs bs (tailA Hs)
      (tailA Rs) (tailA cs) := by
    simp only [filtering0]
    rw [sequential_update_eq hP (hR 0)]
  have hP1 := kCov_posDef hP (hR 0) (Hs 0)
  have hRt : ∀ t, (tailA Rs t).PosDef := fun t => hR t.succ
  rw [hf]
  have h := kalman_samplesFrom (N := N) (Fs := Fs) (fun t => filteringFrom_posDef (tailA ys)
    (kMean m0 P0 (Hs 0) (cs 0) (Rs 0) (ys 0)) (Fs := Fs)
    (normalLogpdf (Hs 0 *ᵥ m0 + cs 0) (Rs 0 + Hs 0 * P0 * (Hs 0)ᵀ) (ys 0)) bs (tailA Hs) (tailA cs) hP1 hQ hRt t) hQ bs key
    (ms := (filteringFrom (tailA ys) (kMean m0 P0 (Hs 0) (cs 0) (Rs 0) (ys 0)) (kCov P0 (Hs 0) (Rs 0))
      (normalLogpdf (Hs 0 *ᵥ m0 + cs 0) (Rs 0 + Hs 0 * P0 * (Hs 0)ᵀ) (ys 0)) Fs Qs bs (tailA Hs) (tailA Rs) (tailA cs)).1)
  have hfac := filteringFrom_factor (tailA ys) (kMean m0 P0 (Hs 0) (cs 0) (Rs 0) (ys 0)) (Fs := Fs)
    (normalLogpdf (Hs 0 *ᵥ m0 + cs 0) (Rs 0 + Hs 0 * P0 * (Hs 0)ᵀ) (ys 0)) bs (tailA Hs) (tailA cs) hP1 hQ hRt
  refine Eq.mp ?_ h
  congr 1
  funext _ x
  have hb := update_bayes hP (hR 0) (Hs 0) m0 (x 0) (cs 0) (ys 0)
  have hx := hfac x
  simp only [gaussPathLog, pathLogDensity, obsLog] at hx ⊢
  rw [Fin.sum_univ_succ (f := fun t => normalLogpdf (Hs t *ᵥ x t + cs t) (Rs t) (ys t))]
  simp only [tailA_apply] at hx
  linarith

/-- **C39**: `ell` is the log of the marginal likelihood. -/
theorem C39_evidence {dy : ℕ} (ys : Fin (n + 1) → Vec dy) (m0 : Vec d) {P0 : Mat d d} {Fs Qs : Fin n → Mat d d}
    (bs : Fin n → Vec d) (Hs : Fin (n + 1) → Mat dy d) {Rs : Fin (n + 1) → Mat dy dy} (cs : Fin (n + 1) → Vec dy)
    (hP : P0.PosDef) (hQ : ∀ t, (Qs t).PosDef) (hR : ∀ t, (Rs t).PosDef) :
    ∫⁻ x, ENNReal.ofReal (Real.exp (gaussPathLog m0 P0 Fs Qs bs x + obsLog Hs Rs cs ys x))
        ∂(Measure.pi fun _ : Fin (n + 1) => (volume : Measure (Vec d))) =
      ENNReal.ofReal (Real.exp (filtering0 ys m0 P0 Fs Qs bs Hs Rs cs).2.2) := by
  have h := C39_filtering0 (N := 1) ys m0 bs Hs cs hP hQ hR (Fs := Fs) []
  have h1 := h.norm 0
  simp only [sub_eq_add_neg, ofReal_exp_add _ (-_)] at h1
  have hm : Measurable fun x => gaussPathLog m0 P0 Fs Qs bs x + obsLog Hs Rs cs ys x := by
    have h0 : Measurable fun x => gaussPathLog m0 P0 Fs Qs bs x + obsLog Hs Rs cs ys x -
        (filtering0 ys m0 P0 Fs Qs bs Hs Rs cs).2.2 + (filtering0 ys m0 P0 Fs Qs bs Hs Rs cs).2.2 :=
      (h.meas 0).add measurable_const
    simpa only [sub_add_cancel] using h0
  rw [lintegral_mul_const _ (measurable_expR hm)] at h1
  have h2 := congrArg (· * ENNReal.ofReal (Real.exp (filtering0 ys m0 P0 Fs Qs bs Hs Rs cs).2.2)) h1
  simp only [mul_assoc, ← ofReal_exp_add, neg_add_cancel, Real.exp_zero, ENNReal.ofReal_one, mul_one, one_mul] at h2
  exact h2

/-- **C39** (`prior_sampling`): independent draws from the prior law of the trajectory. -/
theorem C39_prior (m0 : Vec d) {P0 : Mat d d} {Fs Qs : Fin n → Mat d d} (hP : P0.PosDef) (hQ : ∀ t, (Qs t).PosDef)
    (bs : Fin n → Vec d) (key : Key) :
    SamplesFrom (Measure.pi fun _ : Fin (n + 1) => (volume : Measure (Vec d))) (fun _ => gaussPathLog m0 P0 Fs Qs bs)
      (prior_sampling key m0 P0 Fs Qs bs N : Ex (Fin N → Fin (n + 1) → Vec d)) := prior_samplesFrom m0 hP hQ bs key

/-- A local linear trend model observed through its level. -/
example (ys : Fin 11 → Vec 1) := C39_filtering0 (N := 4) ys (0 : Vec 2) (P0 := 1) (Fs := fun _ => !![1, 1; 0, 1])
  (Qs := fun _ => (0.1 : ℝ) • 1) (fun _ => 0) (fun _ => !![1, 0]) (Rs := fun _ => 1) (fun _ => 0) PosDef.one
  (fun _ => posDef_smul_one (by norm_num)) (fun _ => PosDef.one) []

/-! ## C40 -/

/-- **C40**: the marginals of the backward samples are the Gaussian laws with the means and covariances returned by
`smoothing`, and these covariances are symmetric positive definite. -/
theorem C40_smoothing {ms : Fin (n + 1) → Vec d} {Ps : Fin (n + 1) → Mat d d} {Fs Qs : Fin n → Mat d d}
    (hP : ∀ t, (Ps t).PosDef) (hQ : ∀ t, (Qs t).PosDef) (bs : Fin n → Vec d) (t : Fin (n + 1)) (key : Key)
    (i : Fin N) (F : Vec d → ℝ≥0∞) (hF : Measurable F) :
    ((smoothing ms Ps Fs Qs bs).2 t).PosDef ∧
      (kalman_sampling key ms Ps Fs Qs bs N : Ex (Fin N → Fin (n + 1) → Vec d)) (fun xs => F (xs i t)) =
        ∫⁻ x, ENNReal.ofReal (Real.exp (normalLogpdf ((smoothing ms Ps Fs Qs bs).1 t) ((smoothing ms Ps Fs Qs bs).2 t) x)) *
          F x := by
  obtain ⟨h1, h2⟩ := smoothing_marginal (ms := ms) (Fs := Fs) hP hQ bs t
  refine ⟨h1, ?_⟩
  rw [← h2 F hF]
  have hs := kalman_samplesFrom (N := N) (ms := ms) (Fs := Fs) hP hQ bs key
  have hm : Measurable fun xs : Fin N → Fin (n + 1) → Vec d => F (xs i t) :=
    hF.comp ((measurable_pi_apply t).comp (measurable_pi_apply i))
  rw [hs.law _ hm, samplingPath_law hP hQ bs (fun x => F (x t)) (hF.comp (measurable_pi_apply t))]
  refine Eq.trans ?_ (lintegral_withDensity_exp (measurable_backLog _ _ _ _ _) (hF.comp (measurable_pi_apply t)))
  have key (ν : Measure (Fin (n + 1) → Vec d)) (_ : IsProbabilityMeasure ν) (G : (Fin (n + 1) → Vec d) → ℝ≥0∞)
      (hG : Measurable G) : ∫⁻ xs : Fin N → Fin (n + 1) → Vec d, G (xs i) ∂(Measure.pi fun _ => ν) = ∫⁻ x, G x ∂ν :=
    (measurePreserving_eval (fun _ : Fin N => ν) i).lintegral_comp hG
  exact key _ ⟨by rw [withDensity_apply _ MeasurableSet.univ, setLIntegral_univ]; exact hs.norm i⟩ _
    (hF.comp (measurable_pi_apply t))

/-- Filter followed by the smoother: the posterior marginals of a random walk plus noise. -/
example (ys : Fin 21 → Vec 1) (F : Vec 1 → ℝ≥0∞) (hF : Measurable F) :=
  C40_smoothing (N := 1) (fun t => filteringFrom_posDef (d := 1) (tailA ys) 0 (P0 := 1) 0 (Fs := fun _ => 1)
    (Qs := fun _ => 1) (fun _ => 0) (fun _ => 1) (Rs := fun _ => (0.5 : ℝ) • 1) (fun _ => 0) PosDef.one (fun _ => PosDef.one)
    (fun _ => posDef_smul_one (by norm_num)) t) (Fs := fun _ => 1) (Qs := fun _ => 1) (fun _ => PosDef.one) (fun _ => 0) 7 [] 0 F hF
    (ms := (filtering (tailA ys) 0 1 (fun _ => 1) (fun _ => 1) (fun _ => 0) (fun _ => 1) (fun _ => (0.5 : ℝ) • 1)
      (fun _ => 0)).1)

end Verif.Props
