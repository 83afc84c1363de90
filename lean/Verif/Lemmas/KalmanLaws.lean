import Verif.Lemmas.Kalman
import Verif.Lemmas.PiSwap
import Verif.Lemmas.Proposal

/-!
# Laws of the samplers of `utils/kalman/sampling.py`, and the Rauch-Tung-Striebel smoother
-/

namespace Verif
open Verif.Model Verif.Spec Matrix MeasureTheory
open scoped ENNReal

variable {d n N : ℕ}

instance : IsProbabilityMeasure (gaussM d) := by unfold gaussM; infer_instance

/-- `N` paths built from an array of noise of shape `(l, d, N)`. -/
theorem paths_samplesFrom {X : Type} [MeasurableSpace X] {lam : Measure X} [SigmaFinite lam] {l : ℕ}
    {g : (Fin l → Vec d) → X} (hg : Measurable g) {q : X → ℝ} (hq : Measurable q)
    (law : ∀ F : X → ℝ≥0∞, Measurable F → ∫⁻ eps, F (g eps) ∂(Measure.pi fun _ : Fin l => gaussM d) =
      ∫⁻ x, ENNReal.ofReal (Real.exp (q x)) * F x ∂lam) (key : Key) :
    SamplesFrom lam (fun _ => q)
      ((normal3 key l d N : Ex _) >>= fun e => pure (fun i => g (fun t j => e t j i))) where
  meas _ := hq
  norm _ := by
    have := law (fun _ => 1) measurable_const
    simpa using this.symm
  law f hf := by
    have hmap : (Measure.pi fun _ : Fin l => gaussM d).map g = lam.withDensity fun x => ENNReal.ofReal (Real.exp (q x)) := by
      refine Measure.ext_of_lintegral _ fun F hF => ?_
      rw [lintegral_map hF hg, law F hF, lintegral_withDensity_exp hq hF]
    have : ∀ _ : Fin N, SigmaFinite ((Measure.pi fun _ : Fin l => gaussM d).map g) := fun _ => by
      have := Measure.isProbabilityMeasure_map (μ := Measure.pi fun _ : Fin l => gaussM d) hg.aemeasurable
      infer_instance
    have h := Measure.pi_map_pi (μ := fun _ : Fin N => Measure.pi fun _ : Fin l => gaussM d) (f := fun _ => g)
      (fun _ => hg.aemeasurable)
    simp only [hmap] at h
    have hgm : Measurable fun (e : Fin N → Fin l → Vec d) i => g (e i) :=
      measurable_pi_lambda _ fun i => hg.comp (measurable_pi_apply i)
    have hfm : Measurable fun e : Fin N → Fin l → Vec d => f fun i => g (e i) := hf.comp hgm
    rw [← h, lintegral_map hf hgm]
    have hs := pi_swap3 (ι := Fin l) (κ := Fin d) (ν := Fin N) (ProbabilityTheory.gaussianReal 0 1)
    show ∫⁻ e, f (fun i => g (fun t j => e t j i)) ∂(Measure.pi fun _ : Fin l => Measure.pi fun _ : Fin d => gaussM N) = _
    have h2 : (Measure.pi fun _ : Fin N => Measure.pi fun _ : Fin l => gaussM d) =
        (Measure.pi fun _ : Fin l => Measure.pi fun _ : Fin d => gaussM N).map (fun e i t j => e t j i) := hs.symm
    rw [h2, lintegral_map hfm (by fun_prop)]

/-! ## Backward sampler -/

theorem kalman_samplesFrom {ms : Fin (n + 1) → Vec d} {Ps : Fin (n + 1) → Mat d d} {Fs Qs : Fin n → Mat d d}
    (hP : ∀ t, (Ps t).PosDef) (hQ : ∀ t, (Qs t).PosDef) (bs : Fin n → Vec d) (key : Key) :
    SamplesFrom (Measure.pi fun _ : Fin (n + 1) => (volume : Measure (Vec d))) (fun _ => backLog ms Ps Fs Qs bs)
      (kalman_sampling key ms Ps Fs Qs bs N : Ex (Fin N → Fin (n + 1) → Vec d)) :=
  paths_samplesFrom (measurable_samplingPath hP hQ bs) (measurable_backLog _ _ _ _ _)
    (fun F hF => samplingPath_law hP hQ bs F hF) key

/-! ## Prior sampler -/

theorem priorPath_succ (eps : Fin (n + 1) → Vec d) (e0 m0 : Vec d) (P0 : Mat d d) (Fs Qs : Fin (n + 1) → Mat d d)
    (bs : Fin (n + 1) → Vec d) :
    priorPath (insert0 e0 eps) m0 P0 Fs Qs bs =
      insert0 (m0 + cholesky P0 *ᵥ e0) (priorPath eps (Fs 0 *ᵥ (m0 + cholesky P0 *ᵥ e0) + bs 0) (Qs 0) (tailA Fs)
        (tailA Qs) (tailA bs)) := rfl

theorem gaussPathLog_succ (m0 : Vec d) (P0 : Mat d d) (Fs Qs : Fin (n + 1) → Mat d d)
    (bs : Fin (n + 1) → Vec d) (x0 : Vec d) (x : Fin (n + 1) → Vec d) :
    gaussPathLog m0 P0 Fs Qs bs (insert0 x0 x) = normalLogpdf m0 P0 x0 +
      gaussPathLog (Fs 0 *ᵥ x0 + bs 0) (Qs 0) (tailA Fs) (tailA Qs) (tailA bs) x := by
  simp only [gaussPathLog, pathLogDensity]
  rw [Fin.sum_univ_succ]
  rfl

theorem measurable_gaussPathLog {β : Type} [MeasurableSpace β] (P0 : Mat d d) (Fs Qs : Fin n → Mat d d) (bs : Fin n → Vec d)
    {m : β → Vec d} {x : β → Fin (n + 1) → Vec d} (hm : Measurable m) (hx : Measurable x) :
    Measurable fun b => gaussPathLog (m b) P0 Fs Qs bs (x b) := by
  have hxt : ∀ t, Measurable fun b => x b t := fun t => (measurable_pi_apply t).comp hx
  have h1 : Measurable fun b => normalLogpdf (m b) P0 (x b 0) := measurable_normalLogpdf _ hm (hxt 0)
  refine h1.add ?_
  refine Finset.measurable_fun_sum _ fun t _ => ?_
  refine measurable_normalLogpdf _ ?_ (hxt _)
  exact (measurable_mulVec _ (hxt _)).add measurable_const

theorem measurable_priorPath {β : Type} [MeasurableSpace β] (P0 : Mat d d) (Fs Qs : Fin n → Mat d d) (bs : Fin n → Vec d)
    {m : β → Vec d} {e : β → Fin (n + 1) → Vec d} (hm : Measurable m) (he : Measurable e) :
    Measurable fun b => priorPath (e b) (m b) P0 Fs Qs bs := by
  induction n generalizing m P0 with
  | zero =>
    have h0 : Measurable fun b => e b 0 := (measurable_pi_apply 0).comp he
    have : (fun b => priorPath (e b) (m b) P0 Fs Qs bs) = fun b => insert0 (m b + cholesky P0 *ᵥ e b 0) (fun i => i.elim0) := by
      funext b
      exact congrArg (insert0 (m b + cholesky P0 *ᵥ e b 0)) (funext fun i => i.elim0)
    rw [this]
    exact measurable_insert0 (hm.add (measurable_mulVec _ h0)) measurable_const
  | succ n ih =>
    have h0 : Measurable fun b => e b 0 := (measurable_pi_apply 0).comp he
    have ht : Measurable fun b => tailA (e b) := measurable_pi_lambda _ fun i => (measurable_pi_apply i.succ).comp he
    have : (fun b => priorPath (e b) (m b) P0 Fs Qs bs) = fun b => insert0 (m b + cholesky P0 *ᵥ e b 0)
        (priorPath (tailA (e b)) (Fs 0 *ᵥ (m b + cholesky P0 *ᵥ e b 0) + bs 0) (Qs 0) (tailA Fs) (tailA Qs) (tailA bs)) := by
      funext b
      rw [← priorPath_succ, insert0_tailA]
    rw [this]
    have hx0 : Measurable fun b => m b + cholesky P0 *ᵥ e b 0 := hm.add (measurable_mulVec _ h0)
    exact measurable_insert0 hx0 (ih _ _ _ _ ((measurable_mulVec _ hx0).add measurable_const) ht)

/-- Law of one path of `prior_sampling`. -/
theorem priorPath_law (m0 : Vec d) {P0 : Mat d d} {Fs Qs : Fin n → Mat d d} (hP : P0.PosDef) (hQ : ∀ t, (Qs t).PosDef)
    (bs : Fin n → Vec d) (F : (Fin (n + 1) → Vec d) → ℝ≥0∞) (hF : Measurable F) :
    ∫⁻ eps, F (priorPath eps m0 P0 Fs Qs bs) ∂(Measure.pi fun _ => gaussM d) =
      ∫⁻ x, ENNReal.ofReal (Real.exp (gaussPathLog m0 P0 Fs Qs bs x)) * F x ∂(Measure.pi fun _ => volume) := by
  induction n generalizing m0 P0 with
  | zero =>
    have hm : Measurable fun eps => F (priorPath eps m0 P0 Fs Qs bs) :=
      hF.comp (measurable_priorPath _ _ _ _ measurable_const measurable_id)
    refine (lintegral_pi_fin_one _ _ hm).trans (Eq.trans ?_ (lintegral_pi_fin_one _ _
      (measurable_expR_mul (measurable_gaussPathLog P0 Fs Qs bs measurable_const measurable_id) hF)).symm)
    have h := gauss_law_chol hP m0 (fun z => F fun _ => z) (hF.comp (by fun_prop))
    refine Eq.trans (lintegral_congr fun e => ?_) (h.trans (lintegral_congr fun x => ?_))
    · have hs : priorPath (fun _ => e) m0 P0 Fs Qs bs = fun _ => m0 + cholesky P0 *ᵥ e := by
        funext t
        have : t = 0 := Subsingleton.elim (α := Fin 1) _ _
        rw [this]
        rfl
      show F (priorPath (fun _ => e) m0 P0 Fs Qs bs) = _
      rw [hs]
    · have hb : gaussPathLog m0 P0 Fs Qs bs (fun _ => x) = normalLogpdf m0 P0 x := by
        simp only [gaussPathLog, pathLogDensity, Finset.univ_eq_empty, Finset.sum_empty, add_zero]
      show _ = ENNReal.ofReal (Real.exp (gaussPathLog m0 P0 Fs Qs bs (fun _ => x))) * F (fun _ => x)
      rw [hb]
  | succ n ih =>
    have hm : Measurable fun eps => F (priorPath eps m0 P0 Fs Qs bs) :=
      hF.comp (measurable_priorPath _ _ _ _ measurable_const measurable_id)
    have hins : ∀ (x0 : Vec d) (x : Fin (n + 1) → Vec d),
        (Fin.insertNth (α := fun _ => Vec d) 0 x0 x : Fin (n + 2) → Vec d) = insert0 x0 x := fun x0 x => by
      rw [Fin.insertNth_zero']; rfl
    have hm2 : Measurable fun x => ENNReal.ofReal (Real.exp (gaussPathLog m0 P0 Fs Qs bs x)) * F x :=
      measurable_expR_mul (measurable_gaussPathLog P0 Fs Qs bs measurable_const measurable_id) hF
    rw [lintegral_pi_insertNth _ 0 _ hm, lintegral_pi_insertNth _ 0 _ hm2]
    simp only [hins, priorPath_succ, gaussPathLog_succ]
    have hFi : Measurable fun p : Vec d × (Fin (n + 1) → Vec d) => F (insert0 p.1 p.2) :=
      hF.comp (measurable_insert0 measurable_fst measurable_snd)
    have hl : Measurable fun p : (Fin (n + 1) → Vec d) × Vec d => normalLogpdf m0 P0 p.2 +
        gaussPathLog (Fs 0 *ᵥ p.2 + bs 0) (Qs 0) (tailA Fs) (tailA Qs) (tailA bs) p.1 :=
      (measurable_normalLogpdf _ measurable_const measurable_snd).add
        (measurable_gaussPathLog _ _ _ _ ((measurable_mulVec _ measurable_snd).add measurable_const) measurable_fst)
    have hB : Measurable fun p : (Fin (n + 1) → Vec d) × Vec d => ENNReal.ofReal (Real.exp (normalLogpdf m0 P0 p.2 +
        gaussPathLog (Fs 0 *ᵥ p.2 + bs 0) (Qs 0) (tailA Fs) (tailA Qs) (tailA bs) p.1)) * F (insert0 p.2 p.1) :=
      measurable_expR_mul hl (hF.comp (measurable_insert0 measurable_snd measurable_fst))
    have hx0 : Measurable fun p : (Fin (n + 1) → Vec d) × Vec d => m0 + cholesky P0 *ᵥ p.2 :=
      measurable_const.add (measurable_mulVec _ measurable_snd)
    have hA : Measurable fun p : (Fin (n + 1) → Vec d) × Vec d => F (insert0 (m0 + cholesky P0 *ᵥ p.2) (priorPath p.1
        (Fs 0 *ᵥ (m0 + cholesky P0 *ᵥ p.2) + bs 0) (Qs 0) (tailA Fs) (tailA Qs) (tailA bs))) :=
      hF.comp (measurable_insert0 hx0 (measurable_priorPath _ _ _ _
        ((measurable_mulVec _ hx0).add measurable_const) measurable_fst))
    refine (lintegral_lintegral_swap hA.aemeasurable).trans (Eq.trans ?_ (lintegral_lintegral_swap hB.aemeasurable).symm)
    have hin : ∀ e0 : Vec d, ∫⁻ eps, F (insert0 (m0 + cholesky P0 *ᵥ e0) (priorPath eps
        (Fs 0 *ᵥ (m0 + cholesky P0 *ᵥ e0) + bs 0) (Qs 0) (tailA Fs) (tailA Qs) (tailA bs))) ∂(Measure.pi fun _ => gaussM d) =
        (fun x0 => ∫⁻ x, ENNReal.ofReal (Real.exp (gaussPathLog (Fs 0 *ᵥ x0 + bs 0) (Qs 0) (tailA Fs) (tailA Qs)
          (tailA bs) x)) * F (insert0 x0 x) ∂(Measure.pi fun _ => volume)) (m0 + cholesky P0 *ᵥ e0) := fun e0 =>
      ih (Fs := tailA Fs) (Qs := tailA Qs) (Fs 0 *ᵥ (m0 + cholesky P0 *ᵥ e0) + bs 0) (P0 := Qs 0) (hQ 0)
        (fun t => hQ t.succ) (tailA bs)
        (fun x => F (insert0 (m0 + cholesky P0 *ᵥ e0) x)) (hF.comp (measurable_insert0 (v := fun _ => m0 + cholesky P0 *ᵥ e0) measurable_const measurable_id))
    have hj : Measurable fun p : Vec d × (Fin (n + 1) → Vec d) => ENNReal.ofReal (Real.exp (gaussPathLog (Fs 0 *ᵥ p.1 + bs 0)
        (Qs 0) (tailA Fs) (tailA Qs) (tailA bs) p.2)) * F (insert0 p.1 p.2) :=
      measurable_expR_mul (measurable_gaussPathLog _ _ _ _ ((measurable_mulVec _ measurable_fst).add measurable_const)
        measurable_snd) hFi
    refine Eq.trans (lintegral_congr hin) ?_
    refine (gauss_law_chol hP m0 _ hj.lintegral_prod_right').trans ?_
    refine lintegral_congr fun x0 => ?_
    have hj0 : Measurable fun x => ENNReal.ofReal (Real.exp (gaussPathLog (Fs 0 *ᵥ x0 + bs 0) (Qs 0) (tailA Fs) (tailA Qs)
          (tailA bs) x)) * F (insert0 x0 x) :=
      measurable_expR_mul (measurable_gaussPathLog _ _ _ _ measurable_const measurable_id)
        (hF.comp (measurable_insert0 measurable_const measurable_id))
    rw [← lintegral_const_mul _ hj0]
    refine lintegral_congr fun x => ?_
    rw [ofReal_exp_add, mul_assoc]

theorem prior_samplesFrom (m0 : Vec d) {P0 : Mat d d} {Fs Qs : Fin n → Mat d d} (hP : P0.PosDef) (hQ : ∀ t, (Qs t).PosDef)
    (bs : Fin n → Vec d) (key : Key) :
    SamplesFrom (Measure.pi fun _ : Fin (n + 1) => (volume : Measure (Vec d))) (fun _ => gaussPathLog m0 P0 Fs Qs bs)
      (prior_sampling key m0 P0 Fs Qs bs N : Ex (Fin N → Fin (n + 1) → Vec d)) :=
  paths_samplesFrom (measurable_priorPath _ _ _ _ measurable_const measurable_id)
    (measurable_gaussPathLog _ _ _ _ measurable_const measurable_id)
    (fun F hF => priorPath_law m0 hP hQ bs F hF) key

/-! ## Smoother -/

theorem smoothing_succ (ms : Fin (n + 2) → Vec d) (Ps : Fin (n + 2) → Mat d d) (Fs Qs : Fin (n + 1) → Mat d d)
    (bs : Fin (n + 1) → Vec d) {s a} (hs : s = smoothing (tailA ms) (tailA Ps) (tailA Fs) (tailA Qs) (tailA bs))
    (ha : a = (smoothingBody (s.1 0, s.2 0) (⟨ms 0, Ps 0, Fs 0, Qs 0, bs 0⟩ : BwdInp d)).1) :
    smoothing ms Ps Fs Qs bs = (insert0 a.1 s.1, insert0 a.2 s.2) := by
  let inps : Fin (n + 1) → BwdInp d := fun t => ⟨initA ms t, initA Ps t, Fs t, Qs t, bs t⟩
  obtain ⟨r, hr⟩ : ∃ r, r = scan smoothingBody (lastA ms, lastA Ps) (rev (tailA inps)) := ⟨_, rfl⟩
  have h1 : s = (snocA (rev fun t => (r.2 t).1) (lastA ms), snocA (rev fun t => (r.2 t).2) (lastA Ps)) := by
    rw [hs, hr]; rfl
  have h3 : rev inps = snocA (rev (tailA inps)) (inps 0) := by rw [← rev_insert0, insert0_tailA]
  have h4 : scan smoothingBody (lastA ms, lastA Ps) (rev inps) =
      ((smoothingBody r.1 (inps 0)).1, snocA r.2 (smoothingBody r.1 (inps 0)).2) := by
    rw [h3, scan_snoc, initA_snocA, lastA_snocA, ← hr]
  have h5 : r.1 = (s.1 0, s.2 0) := by
    have := scan_same_last (body := smoothingBody) (fun _ _ => rfl) (lastA ms, lastA Ps) (rev (tailA inps))
    rw [← hr] at this
    rw [this, h1]
    cases n with
    | zero => rfl
    | succ n =>
      have e1 : (snocA (rev fun t => (r.2 t).1) (lastA ms) : Fin (n + 2) → Vec d) 0 = (r.2 (Fin.last n)).1 := by
        have := snocA_castSucc (rev fun t => (r.2 t).1) (lastA ms) (0 : Fin (n + 1))
        rw [rev_apply] at this
        simpa using this
      have e2 : (snocA (rev fun t => (r.2 t).2) (lastA Ps) : Fin (n + 2) → Mat d d) 0 = (r.2 (Fin.last n)).2 := by
        have := snocA_castSucc (rev fun t => (r.2 t).2) (lastA Ps) (0 : Fin (n + 1))
        rw [rev_apply] at this
        simpa using this
      simp only [e1, e2]
      rfl
  have h6 : (smoothingBody r.1 (inps 0)).1 = a := by rw [ha, h5]; rfl
  have h7 : (smoothingBody r.1 (inps 0)).2 = a := h6
  have h0 : smoothing ms Ps Fs Qs bs =
      (snocA (rev fun t => ((scan smoothingBody (lastA ms, lastA Ps) (rev inps)).2 t).1) (lastA ms),
       snocA (rev fun t => ((scan smoothingBody (lastA ms, lastA Ps) (rev inps)).2 t).2) (lastA Ps)) := rfl
  have hmap : ∀ {β : Type} (g : Vec d × Mat d d → β), (fun t => g ((snocA r.2 a : Fin (n + 1) → _) t)) =
      snocA (fun t => g (r.2 t)) (g a) := by
    intro β g
    funext t
    refine Fin.lastCases ?_ (fun j => ?_) t <;> simp
  rw [h0, h4, h7]
  simp only
  rw [hmap Prod.fst, hmap Prod.snd, rev_snocA, rev_snocA, ← insert0_snocA, ← insert0_snocA, h1]

theorem smoothingBody_eq {P F Q : Mat d d} (hP : P.PosDef) (hQ : Q.PosDef) (m b a : Vec d) (A : Mat d d) :
    (smoothingBody (a, A) (⟨m, P, F, Q, b⟩ : BwdInp d)).1 =
      (kGain P F Q *ᵥ a + (m - kGain P F Q *ᵥ (F *ᵥ m + b)), kCov P F Q + kGain P F Q * A * (kGain P F Q)ᵀ) := by
  have hS : F * P * Fᵀ + Q = Q + F * P * Fᵀ := add_comm _ _
  have hSp := innov_posDef hP hQ F
  have hG : P * (solvePos (F * P * Fᵀ + Q) F)ᵀ = kGain P F Q := by
    rw [solvePos, hS, transpose_mul, PosDef.inv_transpose hSp, kGain, ← Matrix.mul_assoc P]
  simp only [smoothingBody, hG]
  rw [hS, add_comm b]
  refine Prod.ext ?_ ?_
  · simp only [mulVec_sub]
    abel
  · simp only [Matrix.mul_sub, Matrix.sub_mul]
    rw [kGain_conj hP hQ, kCov]
    abel

/-- Marginals of the backward sampler. -/
theorem smoothing_marginal {ms : Fin (n + 1) → Vec d} {Ps : Fin (n + 1) → Mat d d} {Fs Qs : Fin n → Mat d d}
    (hP : ∀ t, (Ps t).PosDef) (hQ : ∀ t, (Qs t).PosDef) (bs : Fin n → Vec d) (t : Fin (n + 1)) :
    ((smoothing ms Ps Fs Qs bs).2 t).PosDef ∧ ∀ F : Vec d → ℝ≥0∞, Measurable F →
      ∫⁻ eps, F (samplingPath eps ms Ps Fs Qs bs t) ∂(Measure.pi fun _ => gaussM d) =
        ∫⁻ x, ENNReal.ofReal (Real.exp (normalLogpdf ((smoothing ms Ps Fs Qs bs).1 t) ((smoothing ms Ps Fs Qs bs).2 t) x)) *
          F x := by
  induction n with
  | zero =>
    have ht : t = Fin.last 0 := Subsingleton.elim (α := Fin 1) _ _
    subst ht
    have h2 : (smoothing ms Ps Fs Qs bs).2 (Fin.last 0) = Ps (Fin.last 0) :=
      snocA_last (n := 0) (fun i => i.elim0) (lastA Ps)
    have h1 : (smoothing ms Ps Fs Qs bs).1 (Fin.last 0) = ms (Fin.last 0) :=
      snocA_last (n := 0) (fun i => i.elim0) (lastA ms)
    rw [h2, h1]
    refine ⟨hP _, fun F hF => ?_⟩
    have hFt : Measurable fun x : Fin 1 → Vec d => F (x (Fin.last 0)) := hF.comp (measurable_pi_apply _)
    rw [samplingPath_law hP hQ bs _ hFt]
    have hm2 : Measurable fun x : Fin 1 → Vec d => ENNReal.ofReal (Real.exp (backLog ms Ps Fs Qs bs x)) * F (x (Fin.last 0)) :=
      measurable_expR_mul (measurable_backLog ms Ps Fs Qs bs) hFt
    rw [lintegral_pi_fin_one _ _ hm2]
    refine lintegral_congr fun x => ?_
    have hb : backLog ms Ps Fs Qs bs (fun _ => x) = normalLogpdf (ms (Fin.last 0)) (Ps (Fin.last 0)) x := by
      simp only [backLog, Finset.univ_eq_empty, Finset.sum_empty, add_zero]
      rfl
    rw [hb]
  | succ n ih =>
    have ih' := ih (ms := tailA ms) (Ps := tailA Ps) (Fs := tailA Fs) (Qs := tailA Qs) (fun t => hP t.succ)
      (fun t => hQ t.succ) (tailA bs)
    obtain ⟨s, hs⟩ : ∃ s, s = smoothing (tailA ms) (tailA Ps) (tailA Fs) (tailA Qs) (tailA bs) := ⟨_, rfl⟩
    rw [← hs] at ih'
    rw [smoothing_succ ms Ps Fs Qs bs hs rfl, smoothingBody_eq (hP 0) (hQ 0)]
    have hmS := measurable_samplingPath (ms := ms) (Fs := Fs) hP hQ bs
    have hmS' := measurable_samplingPath (ms := tailA ms) (Ps := tailA Ps) (Fs := tailA Fs) (Qs := tailA Qs)
      (fun t => hP t.succ) (fun t => hQ t.succ) (tailA bs)
    refine Fin.cases ?_ (fun t => ?_) t
    · have hK := kCov_posDef (hP 0) (hQ 0) (Fs 0)
      have hA := (ih' 0).1
      refine ⟨innov_posDef hA hK _, fun F hF => ?_⟩
      have hm : Measurable fun eps => F (samplingPath eps ms Ps Fs Qs bs 0) := hF.comp ((measurable_pi_apply 0).comp hmS)
      rw [lintegral_pi_insertNth _ 1 _ hm]
      simp only [samplingPath_succ (hP 0) (hQ 0), insert0_zero]
      have hin : ∀ z : Vec d, ∫⁻ e, F (backDraw (ms 0) (Ps 0) (Fs 0) (Qs 0) (bs 0) z e) ∂gaussM d =
          ∫⁻ x, ENNReal.ofReal (Real.exp (normalLogpdf (kMean (ms 0) (Ps 0) (Fs 0) (bs 0) (Qs 0) z)
            (kCov (Ps 0) (Fs 0) (Qs 0)) x)) * F x := fun z =>
        gauss_law_chol hK (kMean (ms 0) (Ps 0) (Fs 0) (bs 0) (Qs 0) z) F hF
      simp only [hin]
      have hj : Measurable fun p : Vec d × Vec d => ENNReal.ofReal (Real.exp (normalLogpdf
          (kMean (ms 0) (Ps 0) (Fs 0) (bs 0) (Qs 0) p.1) (kCov (Ps 0) (Fs 0) (Qs 0)) p.2)) * F p.2 :=
        measurable_expR_mul (measurable_normalLogpdf _ (measurable_kMean _ _ _ _ _ measurable_fst) measurable_snd)
          (hF.comp measurable_snd)
      refine ((ih' 0).2 _ hj.lintegral_prod_right').trans ?_
      have e1 : ∀ z, ENNReal.ofReal (Real.exp (normalLogpdf (s.1 0) (s.2 0) z)) *
          ∫⁻ x, ENNReal.ofReal (Real.exp (normalLogpdf (kMean (ms 0) (Ps 0) (Fs 0) (bs 0) (Qs 0) z)
            (kCov (Ps 0) (Fs 0) (Qs 0)) x)) * F x =
          ∫⁻ x, ENNReal.ofReal (Real.exp (normalLogpdf (s.1 0) (s.2 0) z)) * ENNReal.ofReal (Real.exp (normalLogpdf
            (kGain (Ps 0) (Fs 0) (Qs 0) *ᵥ z + (ms 0 - kGain (Ps 0) (Fs 0) (Qs 0) *ᵥ (Fs 0 *ᵥ ms 0 + bs 0)))
            (kCov (Ps 0) (Fs 0) (Qs 0)) x)) * F x := by
        intro z
        rw [← lintegral_const_mul _ (measurable_expR_mul (measurable_normalLogpdf' _ _) hF)]
        refine lintegral_congr fun x => ?_
        have : kMean (ms 0) (Ps 0) (Fs 0) (bs 0) (Qs 0) z =
            kGain (Ps 0) (Fs 0) (Qs 0) *ᵥ z + (ms 0 - kGain (Ps 0) (Fs 0) (Qs 0) *ᵥ (Fs 0 *ᵥ ms 0 + bs 0)) := by
          rw [kMean, mulVec_sub]; abel
        rw [this, mul_assoc]
      simp only [e1]
      rw [lintegral_lintegral_swap]
      · refine lintegral_congr fun x => ?_
        have hz : Measurable fun z => ENNReal.ofReal (Real.exp (normalLogpdf (s.1 0) (s.2 0) z)) *
            ENNReal.ofReal (Real.exp (normalLogpdf (kGain (Ps 0) (Fs 0) (Qs 0) *ᵥ z +
              (ms 0 - kGain (Ps 0) (Fs 0) (Qs 0) *ᵥ (Fs 0 *ᵥ ms 0 + bs 0))) (kCov (Ps 0) (Fs 0) (Qs 0)) x)) :=
          measurable_expR_mul (measurable_normalLogpdf' _ _) (measurable_expR (measurable_normalLogpdf _ (by fun_prop)
            measurable_const))
        rw [lintegral_mul_const _ hz, normal_marginal hA hK]
      · refine Measurable.aemeasurable ?_
        have h1 : Measurable fun p : Vec d × Vec d => ENNReal.ofReal (Real.exp (normalLogpdf (s.1 0) (s.2 0) p.1)) :=
          measurable_expR (measurable_normalLogpdf _ measurable_const measurable_fst)
        have h2 : Measurable fun p : Vec d × Vec d => kGain (Ps 0) (Fs 0) (Qs 0) *ᵥ p.1 +
            (ms 0 - kGain (Ps 0) (Fs 0) (Qs 0) *ᵥ (Fs 0 *ᵥ ms 0 + bs 0)) :=
          (measurable_mulVec _ measurable_fst).add measurable_const
        exact (h1.mul (measurable_expR (measurable_normalLogpdf _ h2 measurable_snd))).mul (hF.comp measurable_snd)
    · refine ⟨(ih' t).1, fun F hF => ?_⟩
      have hm : Measurable fun eps => F (samplingPath eps ms Ps Fs Qs bs t.succ) :=
        hF.comp ((measurable_pi_apply t.succ).comp hmS)
      rw [lintegral_pi_insertNth _ 1 _ hm]
      simp only [samplingPath_succ (hP 0) (hQ 0), insert0_succ]
      simp only [lintegral_const, measure_univ, mul_one]
      exact (ih' t).2 F hF

end Verif
