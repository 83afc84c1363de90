import Verif.Model.Kalman
import Verif.Lemmas.MatGauss
import Verif.Lemmas.PiMeasure
import Verif.Spec.Lgssm

/-!
# Kalman filtering and backward sampling
-/

namespace Verif
open Verif.Model Verif.Spec Matrix MeasureTheory
open scoped ENNReal

theorem map_insert0' {α β : Type} {n : ℕ} (g : α → β) (v : α) (a : Fin n → α) :
    (fun t => g (insert0 v a t)) = insert0 (g v) (fun t => g (a t)) := by
  funext t
  refine Fin.cases rfl (fun _ => rfl) t

variable {d k n : ℕ}

/-! ## One step -/

theorem mvn_logpdf_eq {L : Mat d d} (hL : IsCholFactor L) (x m : Vec d) :
    mvn_logpdf x m L none true = normalLogpdf m (L * Lᵀ) x := by
  have hdet := IsCholFactor.det_pos hL
  have h1 : tril_log_det L = Real.log |L.det| := by
    rw [IsCholFactor.det hL, Finset.abs_prod, Real.log_prod fun i _ => (abs_pos.mpr (hL.2 i).ne').ne']
    rfl
  rw [← normalLogpdf_factor hdet.ne', stdLogpdf]
  simp only [mvn_logpdf, logpdf_chol, get_constant, if_true, h1, solveTri, dotProduct]
  ring

/-- Gain of the Kalman update. -/
noncomputable def kGain (P : Mat d d) (H : Mat k d) (R : Mat k k) : Mat d k := P * Hᵀ * (R + H * P * Hᵀ)⁻¹

/-- Posterior mean. -/
noncomputable def kMean (m : Vec d) (P : Mat d d) (H : Mat k d) (c : Vec k) (R : Mat k k) (y : Vec k) : Vec d :=
  m + kGain P H R *ᵥ (y - (H *ᵥ m + c))

/-- Posterior covariance. -/
noncomputable def kCov (P : Mat d d) (H : Mat k d) (R : Mat k k) : Mat d d := P - kGain P H R * (H * P)

theorem kCov_posDef {P : Mat d d} {R : Mat k k} (hP : P.PosDef) (hR : R.PosDef) (H : Mat k d) :
    (kCov P H R).PosDef := post_cov_posDef hP hR H

theorem half_symm {P : Mat d d} (h : Pᵀ = P) : (0.5 : ℝ) • (P + Pᵀ) = P := by
  rw [h, ← two_smul ℝ P, smul_smul]
  norm_num

theorem kGain_conj {P : Mat d d} {R : Mat k k} (hP : P.PosDef) (hR : R.PosDef) (H : Mat k d) :
    kGain P H R * (R + H * P * Hᵀ) * (kGain P H R)ᵀ = kGain P H R * (H * P) := by
  have hS := innov_posDef hP hR H
  rw [kGain, Matrix.mul_assoc (P * Hᵀ) _ (R + H * P * Hᵀ), nonsing_inv_mul _ (PosDef.isUnit_det hS), Matrix.mul_one,
    transpose_mul, transpose_mul, transpose_transpose, PosDef.inv_transpose hS, PosDef.transpose_eq hP]
  simp only [Matrix.mul_assoc]

theorem sequential_update_eq {P : Mat d d} {R : Mat k k} (hP : P.PosDef) (hR : R.PosDef) (H : Mat k d)
    (y : Vec k) (m : Vec d) (c : Vec k) :
    sequential_update y m P H c R =
      (kMean m P H c R y, kCov P H R, normalLogpdf (H *ᵥ m + c) (R + H * P * Hᵀ) y) := by
  have hS := innov_posDef hP hR H
  have hc := cholesky_spec hS
  have hG : (choSolve (cholesky (R + H * P * Hᵀ)) (H * P))ᵀ = kGain P H R := by
    rw [choSolve, hc.2, transpose_mul, transpose_mul, PosDef.inv_transpose hS, PosDef.transpose_eq hP]
    rfl
  simp only [sequential_update, hG]
  rw [mvn_logpdf_eq hc.1, hc.2, kGain_conj hP hR]
  have : P - kGain P H R * (H * P) = kCov P H R := rfl
  rw [this, half_symm (PosDef.transpose_eq (kCov_posDef hP hR H))]
  rfl

theorem sequential_predict_eq {P Q F : Mat d d} (hP : P.PosDef) (hQ : Q.PosDef) (m b : Vec d) :
    sequential_predict m P F b Q = (F *ᵥ m + b, Q + F * P * Fᵀ) := by
  simp only [sequential_predict]
  rw [half_symm (PosDef.transpose_eq (innov_posDef hP hQ F))]

/-- Bayes' rule in the notation of the update. -/
theorem update_bayes {P : Mat d d} {R : Mat k k} (hP : P.PosDef) (hR : R.PosDef) (H : Mat k d) (m x : Vec d)
    (c y : Vec k) :
    normalLogpdf m P x + normalLogpdf (H *ᵥ x + c) R y =
      normalLogpdf (H *ᵥ m + c) (R + H * P * Hᵀ) y + normalLogpdf (kMean m P H c R y) (kCov P H R) x :=
  normal_bayes hP hR H m x c y

/-- Marginal of a linear Gaussian observation. -/
theorem normal_marginal {P : Mat d d} {R : Mat k k} (hP : P.PosDef) (hR : R.PosDef) (H : Mat k d) (m : Vec d)
    (c y : Vec k) :
    ∫⁻ x, ENNReal.ofReal (Real.exp (normalLogpdf m P x)) * ENNReal.ofReal (Real.exp (normalLogpdf (H *ᵥ x + c) R y)) =
      ENNReal.ofReal (Real.exp (normalLogpdf (H *ᵥ m + c) (R + H * P * Hᵀ) y)) := by
  simp only [← ofReal_exp_add, update_bayes hP hR]
  simp only [ofReal_exp_add]
  rw [lintegral_const_mul _ (measurable_expR (measurable_normalLogpdf' _ _)),
    normalLogpdf_norm (kCov_posDef hP hR H), mul_one]

/-! ## Backward sampling -/

section back

/-- Log-density of the backward factorisation of a trajectory. -/
noncomputable def backLog (ms : Fin (n + 1) → Vec d) (Ps : Fin (n + 1) → Mat d d) (Fs Qs : Fin n → Mat d d)
    (bs : Fin n → Vec d) (x : Fin (n + 1) → Vec d) : ℝ :=
  normalLogpdf (lastA ms) (lastA Ps) (lastA x) +
    ∑ t, normalLogpdf (kMean (initA ms t) (initA Ps t) (Fs t) (bs t) (Qs t) (tailA x t))
      (kCov (initA Ps t) (Fs t) (Qs t)) (initA x t)

theorem backLog_succ (ms : Fin (n + 2) → Vec d) (Ps : Fin (n + 2) → Mat d d) (Fs Qs : Fin (n + 1) → Mat d d)
    (bs : Fin (n + 1) → Vec d) (x0 : Vec d) (x : Fin (n + 1) → Vec d) :
    backLog ms Ps Fs Qs bs (insert0 x0 x) =
      normalLogpdf (kMean (ms 0) (Ps 0) (Fs 0) (bs 0) (Qs 0) (x 0)) (kCov (Ps 0) (Fs 0) (Qs 0)) x0 +
      backLog (tailA ms) (tailA Ps) (tailA Fs) (tailA Qs) (tailA bs) x := by
  rw [backLog, Fin.sum_univ_succ, backLog, add_left_comm]
  rfl

theorem scan_same_last {I C : Type} {body : C → I → C × C} (hb : ∀ c i, (body c i).2 = (body c i).1) {n : ℕ} (c : C)
    (inp : Fin n → I) : (scan body c inp).1 = lastA (insert0 c (scan body c inp).2) := by
  cases n with
  | zero => rfl
  | succ n =>
    rw [scan_snoc, insert0_snocA, lastA_snocA, hb]

/-- One backward draw. -/
noncomputable def backDraw (m : Vec d) (P F Q : Mat d d) (b x1 e : Vec d) : Vec d :=
  kMean m P F b Q x1 + cholesky (kCov P F Q) *ᵥ e

theorem samplingPath_succ {ms : Fin (n + 2) → Vec d} {Ps : Fin (n + 2) → Mat d d} {Fs Qs : Fin (n + 1) → Mat d d}
    (hP : (Ps 0).PosDef) (hQ : (Qs 0).PosDef) (bs : Fin (n + 1) → Vec d) (eps : Fin (n + 1) → Vec d) (e1 : Vec d) :
    samplingPath (Fin.insertNth (α := fun _ => Vec d) 1 e1 eps) ms Ps Fs Qs bs =
      insert0 (backDraw (ms 0) (Ps 0) (Fs 0) (Qs 0) (bs 0)
        (samplingPath eps (tailA ms) (tailA Ps) (tailA Fs) (tailA Qs) (tailA bs) 0) e1)
        (samplingPath eps (tailA ms) (tailA Ps) (tailA Fs) (tailA Qs) (tailA bs)) := by
  obtain ⟨E, hE⟩ : ∃ E, E = (Fin.insertNth (α := fun _ => Vec d) 1 e1 eps : Fin (n + 2) → Vec d) := ⟨_, rfl⟩
  have hE1 : E 1 = e1 := by rw [hE]; simp
  have hEs : ∀ i, E ((1 : Fin (n + 2)).succAbove i) = eps i := by intro i; rw [hE]; simp
  have hE0 : E 0 = eps 0 := by rw [← hEs 0]; rfl
  have hEt : ∀ t : Fin n, E t.succ.succ = eps t.succ := by
    intro t
    rw [← hEs t.succ, Fin.succAbove_of_le_castSucc]
    rw [Fin.le_def]
    simp
  rw [← hE]
  let inps : Fin (n + 1) → Vec d × BwdInp d := fun t =>
    (tailA E t, (⟨initA ms t, initA Ps t, Fs t, Qs t, bs t⟩ : BwdInp d))
  let xT : Vec d := lastA ms + cholesky (lastA Ps) *ᵥ E 0
  have hinp : tailA inps = fun t => (tailA eps t,
      (⟨initA (tailA ms) t, initA (tailA Ps) t, tailA Fs t, tailA Qs t, tailA bs t⟩ : BwdInp d)) := by
    funext t
    simp only [inps, tailA_apply, hEt]
    rfl
  have h1 : samplingPath E ms Ps Fs Qs bs = snocA (rev (scan kalmanSamplingBody xT (rev inps)).2) xT := rfl
  have h2 : samplingPath eps (tailA ms) (tailA Ps) (tailA Fs) (tailA Qs) (tailA bs) =
      snocA (rev (scan kalmanSamplingBody xT (rev (tailA inps))).2) xT := by
    rw [hinp]
    simp only [xT, hE0]
    rfl
  have h3 : rev inps = snocA (rev (tailA inps)) (inps 0) := by
    rw [← rev_insert0, insert0_tailA]
  rw [h1, h2, h3, scan_snoc, initA_snocA, lastA_snocA, rev_snocA, ← insert0_snocA]
  congr 1
  have h4 : (scan kalmanSamplingBody xT (rev (tailA inps))).1 =
      (snocA (rev (scan kalmanSamplingBody xT (rev (tailA inps))).2) xT : Fin (n + 1) → Vec d) 0 := by
    rw [scan_same_last (fun _ _ => rfl), ← rev_insert0]
    rfl
  rw [h4]
  generalize (snocA (rev (scan kalmanSamplingBody xT (rev (tailA inps))).2) xT : Fin (n + 1) → Vec d) 0 = z
  have h5 : inps 0 = (e1, (⟨ms 0, Ps 0, Fs 0, Qs 0, bs 0⟩ : BwdInp d)) := by
    rw [← hE1]; rfl
  rw [h5]
  simp only [kalmanSamplingBody]
  rw [sequential_update_eq hP hQ]
  rfl

@[fun_prop] theorem measurable_kMean {β : Type} [MeasurableSpace β] (m : Vec d) (P : Mat d d) (H : Mat k d) (c : Vec k)
    (R : Mat k k) {y : β → Vec k} (hy : Measurable y) : Measurable fun b => kMean m P H c R (y b) := by
  unfold kMean
  fun_prop

theorem measurable_samplingPath {ms : Fin (n + 1) → Vec d} {Ps : Fin (n + 1) → Mat d d} {Fs Qs : Fin n → Mat d d}
    (hP : ∀ t, (Ps t).PosDef) (hQ : ∀ t, (Qs t).PosDef) (bs : Fin n → Vec d) :
    Measurable fun eps => samplingPath eps ms Ps Fs Qs bs := by
  induction n with
  | zero =>
    have h : (fun eps => samplingPath eps ms Ps Fs Qs bs) = fun eps _ => lastA ms + cholesky (lastA Ps) *ᵥ eps 0 := by
      funext eps t
      have : t = Fin.last 0 := Subsingleton.elim (α := Fin 1) _ _
      rw [this]
      exact snocA_last _ _
    rw [h]
    refine measurable_pi_lambda _ fun _ => ?_
    fun_prop
  | succ n ih =>
    have h : (fun eps => samplingPath eps ms Ps Fs Qs bs) = fun eps =>
        insert0 (backDraw (ms 0) (Ps 0) (Fs 0) (Qs 0) (bs 0)
          (samplingPath (fun i => eps ((1 : Fin (n + 2)).succAbove i)) (tailA ms) (tailA Ps) (tailA Fs) (tailA Qs) (tailA bs) 0)
            (eps 1))
          (samplingPath (fun i => eps ((1 : Fin (n + 2)).succAbove i)) (tailA ms) (tailA Ps) (tailA Fs) (tailA Qs)
            (tailA bs)) := by
      funext eps
      have h0 := samplingPath_succ (ms := ms) (Fs := Fs) (hP 0) (hQ 0) bs (fun i => eps ((1 : Fin (n + 2)).succAbove i))
        (eps 1)
      rw [← h0]
      congr 1
      exact (Fin.insertNth_self_removeNth 1 eps).symm
    rw [h]
    have h2 : Measurable fun eps : Fin (n + 2) → Vec d => samplingPath (fun i => eps ((1 : Fin (n + 2)).succAbove i))
        (tailA ms) (tailA Ps) (tailA Fs) (tailA Qs) (tailA bs) :=
      (ih (ms := tailA ms) (Ps := tailA Ps) (Fs := tailA Fs) (Qs := tailA Qs) (fun t => hP t.succ) (fun t => hQ t.succ)
        (tailA bs)).comp (g := fun eps => samplingPath eps (tailA ms) (tailA Ps) (tailA Fs) (tailA Qs) (tailA bs))
        (f := fun (eps : Fin (n + 2) → Vec d) i => eps ((1 : Fin (n + 2)).succAbove i))
        (measurable_pi_lambda _ fun i => measurable_pi_apply _)
    refine measurable_insert0 ?_ h2
    unfold backDraw
    have h3 := (measurable_pi_apply (0 : Fin (n + 1))).comp h2
    exact (measurable_kMean _ _ _ _ _ h3).add (by fun_prop)

theorem measurable_backLog (ms : Fin (n + 1) → Vec d) (Ps : Fin (n + 1) → Mat d d) (Fs Qs : Fin n → Mat d d)
    (bs : Fin n → Vec d) : Measurable (backLog ms Ps Fs Qs bs) := by
  have h1 : Measurable fun x : Fin (n + 1) → Vec d => normalLogpdf (lastA ms) (lastA Ps) (lastA x) :=
    measurable_normalLogpdf _ measurable_const (measurable_pi_apply _)
  refine h1.add ?_
  refine Finset.measurable_fun_sum _ fun t _ => ?_
  refine measurable_normalLogpdf _ ?_ (measurable_pi_apply _)
  exact measurable_kMean _ _ _ _ _ (measurable_pi_apply _)

/-- Law of one backward sample. -/
theorem samplingPath_law {ms : Fin (n + 1) → Vec d} {Ps : Fin (n + 1) → Mat d d} {Fs Qs : Fin n → Mat d d}
    (hP : ∀ t, (Ps t).PosDef) (hQ : ∀ t, (Qs t).PosDef) (bs : Fin n → Vec d) (F : (Fin (n + 1) → Vec d) → ℝ≥0∞)
    (hF : Measurable F) :
    ∫⁻ eps, F (samplingPath eps ms Ps Fs Qs bs) ∂(Measure.pi fun _ => gaussM d) =
      ∫⁻ x, ENNReal.ofReal (Real.exp (backLog ms Ps Fs Qs bs x)) * F x ∂(Measure.pi fun _ => volume) := by
  induction n with
  | zero =>
    have hm : Measurable fun eps => F (samplingPath eps ms Ps Fs Qs bs) := hF.comp (measurable_samplingPath hP hQ bs)
    refine (lintegral_pi_fin_one _ _ hm).trans (Eq.trans ?_ (lintegral_pi_fin_one _ _
      ((measurable_expR (measurable_backLog ms Ps Fs Qs bs)).mul hF)).symm)
    have h := gauss_law_chol (hP 0) (ms 0) (fun z => F fun _ => z) (hF.comp (by fun_prop))
    refine Eq.trans (lintegral_congr fun e => ?_) (h.trans (lintegral_congr fun x => ?_))
    · have hs : samplingPath (fun _ => e) ms Ps Fs Qs bs = fun _ => ms 0 + cholesky (Ps 0) *ᵥ e := by
        funext t
        have : t = Fin.last 0 := Subsingleton.elim (α := Fin 1) _ _
        rw [this]
        exact snocA_last _ _
      show F (samplingPath (fun _ => e) ms Ps Fs Qs bs) = _
      rw [hs]
    · have hb : backLog ms Ps Fs Qs bs (fun _ => x) = normalLogpdf (ms 0) (Ps 0) x := by
        simp only [backLog, Finset.univ_eq_empty, Finset.sum_empty, add_zero]
        rfl
      show _ = ENNReal.ofReal (Real.exp (backLog ms Ps Fs Qs bs (fun _ => x))) * F (fun _ => x)
      rw [hb]
  | succ n ih =>
    have hm : Measurable fun eps => F (samplingPath eps ms Ps Fs Qs bs) := hF.comp (measurable_samplingPath hP hQ bs)
    rw [lintegral_pi_insertNth _ 1 _ hm]
    simp only [samplingPath_succ (hP 0) (hQ 0)]
    let G : (Fin (n + 1) → Vec d) → ℝ≥0∞ := fun x =>
      ∫⁻ e, F (insert0 (backDraw (ms 0) (Ps 0) (Fs 0) (Qs 0) (bs 0) (x 0) e) x) ∂gaussM d
    have hG : Measurable G := by
      refine Measurable.lintegral_prod_right' (f := fun p : (Fin (n + 1) → Vec d) × Vec d =>
        F (insert0 (backDraw (ms 0) (Ps 0) (Fs 0) (Qs 0) (bs 0) (p.1 0) p.2) p.1)) ?_
      refine hF.comp (measurable_insert0 ?_ measurable_fst)
      unfold backDraw
      have h1 : Measurable fun p : (Fin (n + 1) → Vec d) × Vec d => p.1 0 := (measurable_pi_apply 0).comp measurable_fst
      exact (measurable_kMean _ _ _ _ _ h1).add (measurable_mulVec _ measurable_snd)
    have hih := ih (ms := tailA ms) (Ps := tailA Ps) (Fs := tailA Fs) (Qs := tailA Qs) (fun t => hP t.succ)
      (fun t => hQ t.succ) (tailA bs) G hG
    refine Eq.trans hih ?_
    have hm2 : Measurable fun x => ENNReal.ofReal (Real.exp (backLog ms Ps Fs Qs bs x)) * F x :=
      (measurable_expR (measurable_backLog _ _ _ _ _)).mul hF
    rw [lintegral_pi_insertNth _ 0 _ hm2]
    refine lintegral_congr fun x => ?_
    have hx : ∀ x0, (Fin.insertNth (α := fun _ => Vec d) 0 x0 x : Fin (n + 2) → Vec d) = insert0 x0 x := fun x0 => by
      rw [Fin.insertNth_zero']; rfl
    simp only [hx, backLog_succ, ofReal_exp_add]
    have hFx : Measurable fun z => F (insert0 z x) := hF.comp (measurable_insert0 measurable_id measurable_const)
    have h := gauss_law_chol (kCov_posDef (hP 0) (hQ 0) (Fs 0)) (kMean (ms 0) (Ps 0) (Fs 0) (bs 0) (Qs 0) (x 0))
      (fun z => F (insert0 z x)) hFx
    have hG' : G x = ∫⁻ z, ENNReal.ofReal (Real.exp (normalLogpdf (kMean (ms 0) (Ps 0) (Fs 0) (bs 0) (Qs 0) (x 0))
      (kCov (Ps 0) (Fs 0) (Qs 0)) z)) * F (insert0 z x) := h
    rw [hG', ← lintegral_const_mul _ (measurable_expR_mul (measurable_normalLogpdf' _ _) hFx)]
    refine lintegral_congr fun z => ?_
    ring

end back

/-! ## Filtering -/

section filter
variable {dy : ℕ}

/-- The first step of the filter. -/
theorem filteringFrom_succ (ys : Fin (n + 1) → Vec dy) (m0 : Vec d) {P0 : Mat d d} (ell0 : ℝ)
    {Fs Qs : Fin (n + 1) → Mat d d} (bs : Fin (n + 1) → Vec d) (Hs : Fin (n + 1) → Mat dy d)
    {Rs : Fin (n + 1) → Mat dy dy} (cs : Fin (n + 1) → Vec dy) (hP : P0.PosDef) (hQ : (Qs 0).PosDef)
    (hR : (Rs 0).PosDef) {m1 : Vec d} {P1 : Mat d d} {l1 : ℝ} {f}
    (hm1 : m1 = kMean (Fs 0 *ᵥ m0 + bs 0) (Qs 0 + Fs 0 * P0 * (Fs 0)ᵀ) (Hs 0) (cs 0) (Rs 0) (ys 0))
    (hP1 : P1 = kCov (Qs 0 + Fs 0 * P0 * (Fs 0)ᵀ) (Hs 0) (Rs 0))
    (hl1 : l1 = normalLogpdf (Hs 0 *ᵥ (Fs 0 *ᵥ m0 + bs 0) + cs 0)
      (Rs 0 + Hs 0 * (Qs 0 + Fs 0 * P0 * (Fs 0)ᵀ) * (Hs 0)ᵀ) (ys 0))
    (hf : f = filteringFrom (tailA ys) m1 P1 (ell0 + l1) (tailA Fs) (tailA Qs) (tailA bs) (tailA Hs) (tailA Rs)
      (tailA cs)) :
    filteringFrom ys m0 P0 ell0 Fs Qs bs Hs Rs cs = (insert0 m0 f.1, insert0 P0 f.2.1, f.2.2) := by
  have hpu := sequential_predict_eq (F := Fs 0) hP hQ m0 (bs 0)
  have hS := innov_posDef hP hQ (Fs 0)
  have hsu := sequential_update_eq hS hR (Hs 0) (ys 0) (Fs 0 *ᵥ m0 + bs 0) (cs 0)
  rw [← hm1, ← hP1, ← hl1] at hsu
  have hb : filteringBody (m0, P0, ell0) (⟨Fs 0, Qs 0, bs 0, Hs 0, Rs 0, cs 0, ys 0⟩ : KFInp d dy) =
      ((m1, P1, ell0 + l1), (m1, P1)) := by
    simp only [filteringBody, sequential_predict_update]
    rw [hpu, hsu]
  rw [hf]
  simp only [filteringFrom]
  rw [scan]
  simp only [hb]
  rw [map_insert0' Prod.fst, map_insert0' Prod.snd]
  rfl

theorem filteringFrom_posDef (ys : Fin n → Vec dy) (m0 : Vec d) {P0 : Mat d d} (ell0 : ℝ) {Fs Qs : Fin n → Mat d d}
    (bs : Fin n → Vec d) (Hs : Fin n → Mat dy d) {Rs : Fin n → Mat dy dy} (cs : Fin n → Vec dy) (hP : P0.PosDef)
    (hQ : ∀ t, (Qs t).PosDef) (hR : ∀ t, (Rs t).PosDef) (t : Fin (n + 1)) :
    ((filteringFrom ys m0 P0 ell0 Fs Qs bs Hs Rs cs).2.1 t).PosDef := by
  induction n generalizing m0 P0 ell0 with
  | zero =>
    have : t = 0 := Subsingleton.elim (α := Fin 1) _ _
    rw [this]
    exact hP
  | succ n ih =>
    rw [filteringFrom_succ ys m0 ell0 bs Hs cs hP (hQ 0) (hR 0) rfl rfl rfl rfl]
    refine Fin.cases hP (fun s => ?_) t
    exact ih (tailA ys) _ _ (tailA bs) (tailA Hs) (tailA cs) (kCov_posDef (innov_posDef hP (hQ 0) (Fs 0)) (hR 0) _)
      (fun t => hQ t.succ) (fun t => hR t.succ) s

/-- The filter and the backward kernels factorise the joint density. -/
theorem filteringFrom_factor (ys : Fin n → Vec dy) (m0 : Vec d) {P0 : Mat d d} (ell0 : ℝ) {Fs Qs : Fin n → Mat d d}
    (bs : Fin n → Vec d) (Hs : Fin n → Mat dy d) {Rs : Fin n → Mat dy dy} (cs : Fin n → Vec dy) (hP : P0.PosDef)
    (hQ : ∀ t, (Qs t).PosDef) (hR : ∀ t, (Rs t).PosDef) (x : Fin (n + 1) → Vec d) :
    ell0 + gaussPathLog m0 P0 Fs Qs bs x + obsLog Hs Rs cs ys (tailA x) =
      (filteringFrom ys m0 P0 ell0 Fs Qs bs Hs Rs cs).2.2 +
      backLog (filteringFrom ys m0 P0 ell0 Fs Qs bs Hs Rs cs).1 (filteringFrom ys m0 P0 ell0 Fs Qs bs Hs Rs cs).2.1 Fs Qs
        bs x := by
  induction n generalizing m0 P0 ell0 with
  | zero =>
    simp only [gaussPathLog, pathLogDensity, obsLog, backLog, Finset.univ_eq_empty, Finset.sum_empty, add_zero]
    rfl
  | succ n ih =>
    have hS := innov_posDef hP (hQ 0) (Fs 0)
    obtain ⟨m1, hm1⟩ : ∃ z, z = kMean (Fs 0 *ᵥ m0 + bs 0) (Qs 0 + Fs 0 * P0 * (Fs 0)ᵀ) (Hs 0) (cs 0) (Rs 0) (ys 0) :=
      ⟨_, rfl⟩
    obtain ⟨P1, hP1⟩ : ∃ z, z = kCov (Qs 0 + Fs 0 * P0 * (Fs 0)ᵀ) (Hs 0) (Rs 0) := ⟨_, rfl⟩
    obtain ⟨l1, hl1⟩ : ∃ z, z = normalLogpdf (Hs 0 *ᵥ (Fs 0 *ᵥ m0 + bs 0) + cs 0)
      (Rs 0 + Hs 0 * (Qs 0 + Fs 0 * P0 * (Fs 0)ᵀ) * (Hs 0)ᵀ) (ys 0) := ⟨_, rfl⟩
    have hP1' : P1.PosDef := hP1 ▸ kCov_posDef hS (hR 0) _
    obtain ⟨f, hf⟩ : ∃ f, f = filteringFrom (tailA ys) m1 P1 (ell0 + l1) (tailA Fs) (tailA Qs) (tailA bs) (tailA Hs)
      (tailA Rs) (tailA cs) := ⟨_, rfl⟩
    have hih := ih (tailA ys) m1 (P0 := P1) (ell0 + l1) (Fs := tailA Fs) (Qs := tailA Qs) (tailA bs) (tailA Hs)
      (Rs := tailA Rs) (tailA cs) hP1' (fun t => hQ t.succ) (fun t => hR t.succ) (tailA x)
    rw [← hf] at hih
    have hbl := backLog_succ (insert0 m0 f.1) (insert0 P0 f.2.1) Fs Qs bs (x 0) (tailA x)
    rw [insert0_tailA] at hbl
    rw [filteringFrom_succ ys m0 ell0 bs Hs cs hP (hQ 0) (hR 0) hm1 hP1 hl1 hf]
    simp only
    rw [hbl, tailA_insert0, tailA_insert0, insert0_zero, insert0_zero, add_left_comm, ← hih]
    have hbay1 := update_bayes hP (hQ 0) (Fs 0) m0 (x 0) (bs 0) (x 1)
    have hbay2 := update_bayes hS (hR 0) (Hs 0) (Fs 0 *ᵥ m0 + bs 0) (x 1) (cs 0) (ys 0)
    rw [← hm1, ← hP1, ← hl1] at hbay2
    simp only [gaussPathLog, pathLogDensity, obsLog]
    rw [Fin.sum_univ_succ, Fin.sum_univ_succ]
    have e1 : (0 : Fin (n + 1)).castSucc = 0 := rfl
    have e2 : (0 : Fin (n + 1)).succ = 1 := rfl
    have e3 : ∀ t : Fin n, t.succ.castSucc = t.castSucc.succ := fun t => rfl
    simp only [tailA_apply, e1, e2, e3]
    linarith

end filter

end Verif
