import Verif.Spec.Twisted
import Verif.Lemmas.GaussSys
import Verif.Lemmas.AtpCsmc
import Verif.Lemmas.Kalman

/-!
# Twisted Particle-aGRAD
-/

open scoped ENNReal
open MeasureTheory ProbabilityTheory

namespace Verif
open Verif.Spec Verif.Model Matrix

variable {N n d dy : ℕ} {RP : Type}

/-! ## Conditioning -/

theorem kMean_affine (m : Vec d) (P F Q : Mat d d) (b x : Vec d) :
    kGain P F Q *ᵥ x + (m - kGain P F Q *ᵥ (F *ᵥ m + b)) = kMean m P F b Q x := by
  rw [kMean, mulVec_sub]
  abel

theorem t_make_proposal_eq {P Q : Mat d d} (hP : P.PosDef) (hQ : Q.PosDef) (F : Mat d d) (m b : Vec d) :
    t_make_proposal m P F b Q = (kGain P F Q, m - kGain P F Q *ᵥ (F *ᵥ m + b), cholesky (kCov P F Q)) := by
  have hS := innov_posDef hP hQ F
  have hG : (solvePos (Q + F * P * Fᵀ) (F * P))ᵀ = kGain P F Q := by
    rw [solvePos, transpose_mul, transpose_mul, PosDef.inv_transpose hS, PosDef.transpose_eq hP]
    rfl
  simp only [t_make_proposal, hG]
  rw [kGain_conj hP hQ]
  have : P - kGain P F Q * (F * P) = kCov P F Q := rfl
  rw [this, half_symm (PosDef.transpose_eq (kCov_posDef hP hQ F))]

/-! ## Filtering -/

theorem filteringFrom_cov_indep (ys ys' : Fin n → Vec dy) (m0 m0' : Vec d) {P0 : Mat d d} (l l' : ℝ)
    {Fs Qs : Fin n → Mat d d} (bs : Fin n → Vec d) (Hs : Fin n → Mat dy d) {Rs : Fin n → Mat dy dy} (cs : Fin n → Vec dy)
    (hP : P0.PosDef) (hQ : ∀ t, (Qs t).PosDef) (hR : ∀ t, (Rs t).PosDef) :
    (filteringFrom ys m0 P0 l Fs Qs bs Hs Rs cs).2.1 = (filteringFrom ys' m0' P0 l' Fs Qs bs Hs Rs cs).2.1 := by
  induction n generalizing m0 m0' P0 l l' with
  | zero => rfl
  | succ n ih =>
    rw [filteringFrom_succ ys m0 l bs Hs cs hP (hQ 0) (hR 0) rfl rfl rfl rfl,
      filteringFrom_succ ys' m0' l' bs Hs cs hP (hQ 0) (hR 0) rfl rfl rfl rfl]
    simp only
    congr 1
    exact ih _ _ _ _ _ _ _ _ _ (kCov_posDef (innov_posDef hP (hQ 0) (Fs 0)) (hR 0) _) (fun t => hQ t.succ)
      (fun t => hR t.succ)

theorem measurable_kMean2 {β : Type} [MeasurableSpace β] {m : β → Vec d} (P : Mat d d) (H : Mat dy d) (c : Vec dy)
    (R : Mat dy dy) {y : β → Vec dy} (hm : Measurable m) (hy : Measurable y) :
    Measurable fun b => kMean (m b) P H c R (y b) := by
  unfold kMean
  fun_prop

theorem measurable_filteringFrom {β : Type} [MeasurableSpace β] {ys : β → Fin n → Vec dy} {m0 : β → Vec d} {P0 : Mat d d}
    (l : β → ℝ)
    {Fs Qs : Fin n → Mat d d} (bs : Fin n → Vec d) (Hs : Fin n → Mat dy d) {Rs : Fin n → Mat dy dy} (cs : Fin n → Vec dy)
    (hP : P0.PosDef) (hQ : ∀ t, (Qs t).PosDef) (hR : ∀ t, (Rs t).PosDef) (hy : Measurable ys) (hm : Measurable m0) :
    Measurable fun b => (filteringFrom (ys b) (m0 b) P0 (l b) Fs Qs bs Hs Rs cs).1 := by
  induction n generalizing m0 P0 l with
  | zero =>
    refine measurable_pi_lambda _ fun t => ?_
    · have : t = 0 := Subsingleton.elim (α := Fin 1) _ _
      rw [this]
      exact hm
  | succ n ih =>
    have h : (fun b => (filteringFrom (ys b) (m0 b) P0 (l b) Fs Qs bs Hs Rs cs).1) = fun b => insert0 (m0 b)
        (filteringFrom (tailA (ys b)) (kMean (Fs 0 *ᵥ (m0 b) + bs 0) (Qs 0 + Fs 0 * P0 * (Fs 0)ᵀ) (Hs 0) (cs 0) (Rs 0)
          (ys b 0)) (kCov (Qs 0 + Fs 0 * P0 * (Fs 0)ᵀ) (Hs 0) (Rs 0)) (l b + normalLogpdf (Hs 0 *ᵥ (Fs 0 *ᵥ (m0 b) + bs 0) + cs 0)
      (Rs 0 + Hs 0 * (Qs 0 + Fs 0 * P0 * (Fs 0)ᵀ) * (Hs 0)ᵀ) (ys b 0)) (tailA Fs) (tailA Qs) (tailA bs) (tailA Hs) (tailA Rs)
      (tailA cs)).1 := by
      funext b
      rw [filteringFrom_succ (ys b) (m0 b) (l b) bs Hs cs hP (hQ 0) (hR 0) rfl rfl rfl rfl]
    rw [h]
    refine measurable_insert0 hm ?_
    refine ih _ _ _ _ (kCov_posDef (innov_posDef hP (hQ 0) (Fs 0)) (hR 0) _) (fun t => hQ t.succ) (fun t => hR t.succ)
      (measurable_pi_lambda _ fun t => (measurable_pi_apply _).comp hy) ?_
    exact measurable_kMean2 _ _ _ _ (by fun_prop) ((measurable_pi_apply _).comp hy)

section filter0
variable (ys ys' : Fin (n + 1) → Vec dy) (m0 : Vec d) {P0 : Mat d d} {Fs Qs : Fin n → Mat d d}
    (bs : Fin n → Vec d) (Hs : Fin (n + 1) → Mat dy d) {Rs : Fin (n + 1) → Mat dy dy} (cs : Fin (n + 1) → Vec dy)
    (hP : P0.PosDef) (hQ : ∀ t, (Qs t).PosDef) (hR : ∀ t, (Rs t).PosDef)
include hP hR

theorem filtering0_eq :
    filtering0 ys m0 P0 Fs Qs bs Hs Rs cs = filteringFrom (tailA ys) (kMean m0 P0 (Hs 0) (cs 0) (Rs 0) (ys 0))
      (kCov P0 (Hs 0) (Rs 0)) (normalLogpdf (Hs 0 *ᵥ m0 + cs 0) (Rs 0 + Hs 0 * P0 * (Hs 0)ᵀ) (ys 0)) Fs Qs bs (tailA Hs)
      (tailA Rs) (tailA cs) := by
  simp only [filtering0]
  rw [sequential_update_eq hP (hR 0)]

include hQ

theorem filtering0_posDef (t : Fin (n + 1)) : ((filtering0 ys m0 P0 Fs Qs bs Hs Rs cs).2.1 t).PosDef := by
  rw [filtering0_eq ys m0 bs Hs cs hP hR]
  exact filteringFrom_posDef _ _ _ _ _ _ (kCov_posDef hP (hR 0) _) hQ (fun t => hR t.succ) t

theorem filtering0_cov_indep :
    (filtering0 ys m0 P0 Fs Qs bs Hs Rs cs).2.1 = (filtering0 ys' m0 P0 Fs Qs bs Hs Rs cs).2.1 := by
  rw [filtering0_eq ys m0 bs Hs cs hP hR, filtering0_eq ys' m0 bs Hs cs hP hR]
  exact filteringFrom_cov_indep _ _ _ _ _ _ _ _ _ (kCov_posDef hP (hR 0) _) hQ (fun t => hR t.succ)

theorem measurable_filtering0 : Measurable fun ys => (filtering0 ys m0 P0 Fs Qs bs Hs Rs cs).1 := by
  simp only [filtering0_eq _ m0 bs Hs cs hP hR]
  exact measurable_filteringFrom _ _ _ _ (kCov_posDef hP (hR 0) _) hQ (fun t => hR t.succ)
    (measurable_pi_lambda _ fun t => measurable_pi_apply _) (measurable_kMean2 _ _ _ _ measurable_const (measurable_pi_apply _))

theorem filtering0_factor (x : Fin (n + 1) → Vec d) :
    gaussPathLog m0 P0 Fs Qs bs x + obsLog Hs Rs cs ys x = (filtering0 ys m0 P0 Fs Qs bs Hs Rs cs).2.2 +
      backLog (filtering0 ys m0 P0 Fs Qs bs Hs Rs cs).1 (filtering0 ys m0 P0 Fs Qs bs Hs Rs cs).2.1 Fs Qs bs x := by
  rw [filtering0_eq ys m0 bs Hs cs hP hR]
  have hx := filteringFrom_factor (tailA ys) (kMean m0 P0 (Hs 0) (cs 0) (Rs 0) (ys 0)) (Fs := Fs)
    (normalLogpdf (Hs 0 *ᵥ m0 + cs 0) (Rs 0 + Hs 0 * P0 * (Hs 0)ᵀ) (ys 0)) bs (tailA Hs) (tailA cs)
    (kCov_posDef hP (hR 0) (Hs 0)) hQ (Rs := tailA Rs) (fun t => hR t.succ) x
  have hb := update_bayes hP (hR 0) (Hs 0) m0 (x 0) (cs 0) (ys 0)
  rw [← hx]
  simp only [gaussPathLog, pathLogDensity, obsLog]
  rw [Fin.sum_univ_succ (f := fun t => normalLogpdf (Hs t *ᵥ x t + cs t) (Rs t) (ys t))]
  simp only [tailA_apply]
  linarith

end filter0

theorem normalLogpdf_iso {s : ℝ} (hs : 0 < s) (m x : Vec d) : normalLogpdf m (s ^ 2 • 1) x = isoLogpdf s m x := by
  have h := normalLogpdf_factor (d := d) (L := s • 1) (by
    rw [det_smul, det_one, mul_one]; exact (pow_pos hs _).ne') m x
  rw [isoLogpdf_eq hs] at h
  rw [h]
  congr 1
  rw [transpose_smul, transpose_one, Matrix.smul_mul, Matrix.mul_smul, Matrix.mul_one, smul_smul, pow_two]

/-! ## The twisted decomposition -/

/-- `backLog` read forwards. -/
theorem backLog_rev (ms : Fin (n + 1) → Vec d) (Ps : Fin (n + 1) → Mat d d) (Fs Qs : Fin n → Mat d d)
    (bs : Fin n → Vec d) (x : Fin (n + 1) → Vec d) :
    backLog ms Ps (rev Fs) (rev Qs) (rev bs) (rev x) =
      pathLogDensity (normalLogpdf (rev ms 0) (rev Ps 0)) (fun t y z =>
        normalLogpdf (kMean (tailA (rev ms) t) (tailA (rev Ps) t) (Fs t) (bs t) (Qs t) y)
          (kCov (tailA (rev Ps) t) (Fs t) (Qs t)) z) x := by
  simp only [backLog, pathLogDensity]
  congr 1
  · simp [lastA]
  · rw [← Equiv.sum_comp Fin.revPerm]
    refine Finset.sum_congr rfl fun t _ => ?_
    simp [Fin.rev_succ, Fin.rev_castSucc]

section twist
variable {r : RevDyn n d} {ells : Fin (n + 1) → ℝ} (hT : r.PT.PosDef) (hQ : ∀ t, (r.Qs t).PosDef)
  (hells : ∀ t, 0 < ells t)

include hells in
theorem tR_posDef (t : Fin (n + 1)) : (rev (fun t => (auxStd ells t) ^ 2 • (1 : Mat d d)) t).PosDef :=
  posDef_smul_one (pow_pos (auxStd_pos hells _) 2)

include hT hQ hells

theorem tFilter_posDef (u : Fin (n + 1) → Vec d) (t : Fin (n + 1)) : ((tFilter r ells u).2 t).PosDef :=
  filtering0_posDef (rev u) r.mT (rev r.bs) (fun _ => 1) (fun _ => 0) hT (fun t => hQ t.rev)
    (tR_posDef hells) t.rev

theorem tFilter_cov_indep (u u' : Fin (n + 1) → Vec d) : (tFilter r ells u).2 = (tFilter r ells u').2 :=
  congrArg rev (filtering0_cov_indep (rev u) (rev u') r.mT (rev r.bs) (fun _ => 1) (fun _ => 0) hT (fun t => hQ t.rev)
    (tR_posDef hells))

theorem measurable_tFilter : Measurable fun u => (tFilter r ells u).1 := by
  have h := measurable_filtering0 r.mT (Fs := rev r.Fs) (rev r.bs) (fun _ => (1 : Mat d d)) (fun _ => 0) hT (fun t => hQ t.rev)
    (tR_posDef hells)
  have h2 : Measurable fun u : Fin (n + 1) → Vec d => rev u := measurable_pi_lambda _ fun t => measurable_pi_apply _
  exact (measurable_pi_lambda _ fun t => measurable_pi_apply _ : Measurable fun u : Fin (n + 1) → Vec d => rev u).comp
    (h.comp h2)

/-- Given `u`, the proposals of the twisted filter multiply to the law of the trajectory given `u`. -/
theorem twist (u : Fin (n + 1) → Vec d) : ∃ c, ∀ x : Fin (n + 1) → Vec d,
    revPathLog r x + ∑ t, isoLogpdf (auxStd ells t) (x t) (u t) =
      c + pathLogDensity (normalLogpdf ((tFilter r ells u).1 0) ((tFilter r ells u).2 0)) (fun t y z =>
        normalLogpdf (kMean (tailA (tFilter r ells u).1 t) (tailA (tFilter r ells u).2 t) (r.Fs t) (r.bs t) (r.Qs t) y)
          (kCov (tailA (tFilter r ells u).2 t) (r.Fs t) (r.Qs t)) z) x := by
  refine ⟨(filtering0 (rev u) r.mT r.PT (rev r.Fs) (rev r.Qs) (rev r.bs) (fun _ => 1)
    (rev fun t => auxStd ells t ^ 2 • 1) fun _ => 0).2.2, fun x => Eq.trans ?_ ((filtering0_factor (rev u) r.mT (Fs := rev r.Fs) (Qs := rev r.Qs) (rev r.bs) (fun _ => (1 : Mat d d))
    (fun _ => 0) hT (fun t => hQ t.rev) (tR_posDef hells) (rev x)).trans ?_)⟩
  · congr 1
    · simp only [revPathLog, gaussPathLog, pathLogDensity]
      congr 1
      · rw [← Equiv.sum_comp Fin.revPerm]
        refine Finset.sum_congr rfl fun t _ => ?_
        simp [Fin.rev_succ, Fin.rev_castSucc]
    · rw [obsLog, ← Equiv.sum_comp Fin.revPerm]
      refine Finset.sum_congr rfl fun t _ => ?_
      simp only [Fin.revPerm_apply, rev_apply, one_mulVec, add_zero]
      exact (normalLogpdf_iso (auxStd_pos hells t.rev) _ _).symm
  · rw [backLog_rev]
    rfl

end twist

/-! ## The program -/

section program
variable (r : RevDyn n d) (M : LinModel RP n d) (ells deltas : Fin (n + 1) → ℝ)

/-- Gradient drift at time 0. -/
noncomputable def tlPhi0 (x : Vec d) : Vec d := fun j => 0.5 * deltas 0 * M.r0_grad x j

/-- Gradient drift. -/
noncomputable def tlPhi (t : Fin n) (y x : Vec d) : Vec d := fun j => 0.5 * deltas t.succ * M.rt_grad y x (M.rt_params t) j

/-- Covariances of the twisted filter (they do not depend on the auxiliary variables). -/
noncomputable def tCovs : Fin (n + 1) → Mat d d := (tFilter r ells 0).2

/-- Increment given the auxiliary variables, time 0. -/
noncomputable def tG0 (u : Fin (n + 1) → Vec d) (x : Vec d) : ℝ :=
  M.r0 x + (isoLogpdf (auxStd ells 0) (x + tlPhi0 M deltas x) (u 0) - isoLogpdf (auxStd ells 0) x (u 0)) +
    normalLogpdf ((tFilter r ells u).1 0) (tCovs r ells 0) x

/-- Mean of the proposal. -/
noncomputable def tMean (u : Fin (n + 1) → Vec d) (t : Fin n) (y : Vec d) : Vec d :=
  kMean (tailA (tFilter r ells u).1 t) (tailA (tCovs r ells) t) (r.Fs t) (r.bs t) (r.Qs t) y

/-- Covariance of the proposal. -/
noncomputable def tCov (t : Fin n) : Mat d d := kCov (tailA (tCovs r ells) t) (r.Fs t) (r.Qs t)

/-- Increment given the auxiliary variables. -/
noncomputable def tG (u : Fin (n + 1) → Vec d) (t : Fin n) (y x : Vec d) : ℝ :=
  M.rt y x (M.rt_params t) + (isoLogpdf (auxStd ells t.succ) (x + tlPhi M deltas t y x) (u t.succ) -
    isoLogpdf (auxStd ells t.succ) x (u t.succ)) + normalLogpdf (tMean r ells u t y) (tCov r ells t) x

/-- Factors of the proposal covariances. -/
noncomputable def tL : Fin (n + 1) → Mat d d := insert0 (cholesky (tCovs r ells 0)) (fun t => cholesky (tCov r ells t))

/-- Centres of the auxiliary variables. -/
noncomputable def tCenter (x : Fin (n + 1) → Vec d) : Fin (n + 1) → Vec d := auxCenter (tlPhi0 M deltas) (tlPhi M deltas) x

/-- The system of `t_atp_csmc_f` given the auxiliary variables. -/
noncomputable def tS (key : Key) (resampling : Resampling Ex N) (u : Fin (n + 1) → Vec d) : Sys (Vec d) N n :=
  gSys (tG0 r M ells deltas u) (tG r M ells deltas u) (tL r ells) ((tFilter r ells u).1 0) (tMean r ells u)
    (fun t w i j => resampling (splitKey (splitKey (splitKey (splitKey key 3 0) 3 1) n t) 2 1) w i j true)

variable {r M ells}

theorem tG_meas (hM : LinMeas M) (hT : r.PT.PosDef) (hQ : ∀ t, (r.Qs t).PosDef) (hells : ∀ t, 0 < ells t) :
    GSysMeas (tG0 r M ells deltas) (tG r M ells deltas) (fun u => (tFilter r ells u).1 0) (tMean r ells) := by
  have hf := measurable_tFilter hT hQ hells
  have hf' : ∀ t, Measurable fun u => (tFilter r ells u).1 t := fun t => (measurable_pi_apply t).comp hf
  have hm : ∀ t, Measurable fun p : (Fin (n + 1) → Vec d) × Vec d => tMean r ells p.1 t p.2 := fun t =>
    measurable_kMean2 _ _ _ _ ((hf' t.succ).comp measurable_fst) measurable_snd
  have h0 := hM.r0
  have h0' := hM.r0_grad
  exact {
    mean0 := hf' 0
    mean := hm
    inc0 := by
      have h1 : Measurable fun p : (Fin (n + 1) → Vec d) × Vec d => p.2 + tlPhi0 M deltas p.2 := by
        unfold tlPhi0
        fun_prop
      exact (Measurable.add (h0.comp measurable_snd) (Measurable.sub (measurable_isoLogpdf _ h1 (by fun_prop))
        (measurable_isoLogpdf _ (by fun_prop) (by fun_prop)))).add
        (measurable_normalLogpdf _ ((hf' 0).comp measurable_fst) measurable_snd)
    inc := fun t => by
      have h1 : Measurable fun p : (Fin (n + 1) → Vec d) × Vec d × Vec d => p.2.2 + tlPhi M deltas t p.2.1 p.2.2 := by
        have := (hM.rt_grad t).comp (measurable_snd : Measurable fun p : (Fin (n + 1) → Vec d) × Vec d × Vec d => p.2)
        have h3 : Measurable fun p : (Fin (n + 1) → Vec d) × Vec d × Vec d => M.rt_grad p.2.1 p.2.2 (M.rt_params t) := this
        unfold tlPhi
        fun_prop
      have h2 := (hm t).comp (by fun_prop : Measurable fun p : (Fin (n + 1) → Vec d) × Vec d × Vec d => (p.1, p.2.1))
      exact (Measurable.add ((hM.rt t).comp measurable_snd) (Measurable.sub (measurable_isoLogpdf _ h1 (by fun_prop))
        (measurable_isoLogpdf _ (by fun_prop) (by fun_prop)))).add
        (measurable_normalLogpdf _ h2 (by fun_prop)) }

theorem tCovs_posDef (hT : r.PT.PosDef) (hQ : ∀ t, (r.Qs t).PosDef) (hells : ∀ t, 0 < ells t) (t : Fin (n + 1)) :
    (tCovs r ells t).PosDef := tFilter_posDef hT hQ hells 0 t

theorem tCov_posDef (hT : r.PT.PosDef) (hQ : ∀ t, (r.Qs t).PosDef) (hells : ∀ t, 0 < ells t) (t : Fin n) :
    (tCov r ells t).PosDef := kCov_posDef (tCovs_posDef hT hQ hells t.succ) (hQ t) _

theorem tL_det (hT : r.PT.PosDef) (hQ : ∀ t, (r.Qs t).PosDef) (hells : ∀ t, 0 < ells t) (t : Fin (n + 1)) :
    (tL r ells t).det ≠ 0 := by
  refine Fin.cases ?_ (fun t => ?_) t
  · exact (IsCholFactor.det_pos (cholesky_spec (tCovs_posDef hT hQ hells 0)).1).ne'
  · exact (IsCholFactor.det_pos (cholesky_spec (tCov_posDef hT hQ hells t)).1).ne'

theorem tL_zero (hT : r.PT.PosDef) (hQ : ∀ t, (r.Qs t).PosDef) (hells : ∀ t, 0 < ells t) :
    tL r ells 0 * (tL r ells 0)ᵀ = tCovs r ells 0 := (cholesky_spec (tCovs_posDef hT hQ hells 0)).2

theorem tL_succ (hT : r.PT.PosDef) (hQ : ∀ t, (r.Qs t).PosDef) (hells : ∀ t, 0 < ells t) (t : Fin n) :
    tL r ells t.succ * (tL r ells t.succ)ᵀ = tCov r ells t := (cholesky_spec (tCov_posDef hT hQ hells t)).2

theorem tG_sum (hT : r.PT.PosDef) (hQ : ∀ t, (r.Qs t).PosDef) (hells : ∀ t, 0 < ells t) (u : Fin (n + 1) → Vec d) :
    ∃ c, ∀ x, revPath r M x + ∑ t, isoLogpdf (auxStd ells t) (tCenter M deltas x t) (u t) =
      c + pathLogDensity (tG0 r M ells deltas u) (tG r M ells deltas u) x := by
  obtain ⟨c, hc⟩ := twist hT hQ hells u
  refine ⟨c, fun x => ?_⟩
  have h := hc x
  rw [tFilter_cov_indep hT hQ hells u 0] at h
  rw [Fin.sum_univ_succ] at h ⊢
  simp only [pathLogDensity] at h
  simp only [revPath, pathLogDensity, tG0, tG, tMean, tCov, tCovs, tCenter, auxCenter, insert0_zero, insert0_succ,
    Finset.sum_add_distrib, Finset.sum_sub_distrib] at h ⊢
  linarith

theorem t_aug (hells : ∀ t, 0 < ells t) (t : Fin (n + 1)) (u x φ : Vec d) :
    -sumSq (fun j => u j - x j - φ j) / ells t + sumSq (fun j => u j - x j) / ells t =
      isoLogpdf (auxStd ells t) (x + φ) u - isoLogpdf (auxStd ells t) x u := by
  have h1 := atp_aug hells t u x φ
  have h2 := atp_aug hells t u x 0
  simp only [Pi.zero_apply, sub_zero, add_zero] at h2
  rw [h1]
  have : sumSq (fun j => u j - x j) / ells t = -(-sumSq (fun j => u j - x j) / ells t) := by ring
  rw [this, h2]
  ring

/-- Proposal parameters computed by the program. -/
theorem tProps_eq (hT : r.PT.PosDef) (hQ : ∀ t, (r.Qs t).PosDef) (hells : ∀ t, 0 < ells t) (u : Fin (n + 1) → Vec d)
    (t : Fin n) : tProps r (tFilter r ells u).1 (tFilter r ells u).2 t =
      ⟨kGain (tailA (tCovs r ells) t) (r.Fs t) (r.Qs t), tailA (tFilter r ells u).1 t -
        kGain (tailA (tCovs r ells) t) (r.Fs t) (r.Qs t) *ᵥ (r.Fs t *ᵥ tailA (tFilter r ells u).1 t + r.bs t),
        cholesky (tCov r ells t), invChol (tCov r ells t)⟩ := by
  rw [tFilter_cov_indep hT hQ hells u 0]
  simp only [tProps]
  have := t_make_proposal_eq (tCovs_posDef hT hQ hells t.succ) (hQ t) (r.Fs t) (tailA (tFilter r ells u).1 t) (r.bs t)
  have h2 : t_make_proposal (tailA (tFilter r ells u).1 t) (tailA (tFilter r ells 0).2 t) (r.Fs t) (r.bs t) (r.Qs t) = _ := this
  rw [h2]
  rfl

/-- `t_atp_csmc_f.kernel` is a mixture, over the auxiliary variables, of the kernels given them. -/
theorem t_kernel_eq (hT : r.PT.PosDef) (hQ : ∀ t, (r.Qs t).PosDef) (hells : ∀ t, 0 < ells t)
    (key : Key) (x : Fin (n + 1) → Vec d) (b : Fin (n + 1) → Fin (N + 1)) (deltas : Fin (n + 1) → ℝ)
    {resampling : Resampling Ex N} {mv : AncestorMove Ex N} (backward : Bool)
    (f : (Fin (n + 1) → Vec d) × (Fin (n + 1) → Fin (N + 1)) → ℝ≥0∞) :
    ((t_atp_kernel_rev r M key x b ells deltas resampling mv backward : Ex _) >>= fun r => pure (r.xs, r.Bs)) f =
    ∫⁻ e, (tS r M ells deltas key resampling
        (auxVars M.r0_grad M.rt_grad M.rt_params deltas (auxStd ells) x e)).kernel
      (tG r M ells deltas (auxVars M.r0_grad M.rt_grad M.rt_params deltas (auxStd ells) x e))
      (moveIndex mv (atpMoveKey key n backward)) backward x b f ∂(Measure.pi fun _ : Fin (n + 1) => gaussM d) := by
  refine lintegral_congr fun e => ?_
  obtain ⟨u, hu⟩ : ∃ u, u = auxVars M.r0_grad M.rt_grad M.rt_params deltas (auxStd ells) x e := ⟨_, rfl⟩
  rw [← hu]
  obtain ⟨Mp, hMp⟩ : ∃ Mp, Mp = tProps r (tFilter r ells u).1 (tFilter r ells u).2 := ⟨_, rfl⟩
  have hP0 : (tFilter r ells u).2 0 = tCovs r ells 0 := by
    rw [tFilter_cov_indep hT hQ hells u 0]; rfl
  have hMp' := fun t => tProps_eq hT hQ hells u t
  rw [← hMp] at hMp'
  let fk : FK Ex (Vec d) (TMParams d) (TGParams RP d) N :=
    { M0_rvs := fun key => tatpM0_rvs key (N + 1) ((tFilter r ells u).1 0) (cholesky ((tFilter r ells u).2 0))
      M0_logpdf := fun x i => tatpM0_logpdf (x i) ((tFilter r ells u).1 0) ((cholesky ((tFilter r ells u).2 0))⁻¹ * 1)
      Gamma0 := fun x => tatpGamma_0 M.r0 M.r0_grad x (u 0) ((tFilter r ells u).1 0)
        ((cholesky ((tFilter r ells u).2 0))⁻¹ * 1) (deltas 0) (ells 0)
      Mt_rvs := fun key x_prev params => tatpMt_rvs key x_prev params
      Mt_logpdf := fun x_prev x params i => tatpMt_logpdf (x_prev i) (x i) params
      Gammat := tatpGamma_t M.rt M.rt_grad }
  let Gp : Fin n → TGParams RP d := fun t => ⟨tailA u t, tailA deltas t, tailA ells t, M.rt_params t, Mp t⟩
  let S := tS r M ells deltas key resampling u
  have hk := csmc_kernel_eq (splitKey key 3 0) fk Mp Gp resampling mv backward S.G0 S.G S.Z0 S.Z x b
  have hlp : ∀ t y z, tatpMt_logpdf y z (Mp t) = (d / 2 * Real.log (2 * Real.pi) + Real.log (tCov r ells t).det / 2) +
      normalLogpdf (tMean r ells u t y) (tCov r ells t) z := fun t y z => by
    simp only [tatpMt_logpdf, hMp' t]
    rw [kMean_affine, mvn_logpdf_invChol (tCov_posDef hT hQ hells t)]
    rfl
  have hlp0 : ∀ z, tatpM0_logpdf z ((tFilter r ells u).1 0) ((cholesky ((tFilter r ells u).2 0))⁻¹ * 1) =
      (d / 2 * Real.log (2 * Real.pi) + Real.log (tCovs r ells 0).det / 2) +
      normalLogpdf ((tFilter r ells u).1 0) (tCovs r ells 0) z := fun z => by
    rw [hP0]
    exact mvn_logpdf_invChol (tCovs_posDef hT hQ hells 0) _ _
  have hGam : ∀ t y x, tatpGamma_t M.rt M.rt_grad y x (Gp t) = tG r M ells deltas u t y x +
      (d / 2 * Real.log (2 * Real.pi) + Real.log (tCov r ells t).det / 2) := by
    intro t y x
    have h1 := t_aug hells t.succ (u t.succ) x (tlPhi M deltas t y x)
    have h2 := hlp t y x
    have h3 : tatpGamma_t M.rt M.rt_grad y x (Gp t) = M.rt y x (M.rt_params t) +
      ((-sumSq (fun j => u t.succ j - x j - tlPhi M deltas t y x j) / ells t.succ +
        sumSq (fun j => u t.succ j - x j) / ells t.succ) + tatpMt_logpdf y x (Mp t)) := rfl
    rw [h3, h1, h2, tG]
    ring
  have hGam0 : ∀ x, fk.Gamma0 x = tG0 r M ells deltas u x +
      (d / 2 * Real.log (2 * Real.pi) + Real.log (tCovs r ells 0).det / 2) := by
    intro x
    have h1 := t_aug hells 0 (u 0) x (tlPhi0 M deltas x)
    have h2 := hlp0 x
    have h3 : fk.Gamma0 x = M.r0 x +
      ((-sumSq (fun j => u 0 j - x j - tlPhi0 M deltas x j) / ells 0 +
        sumSq (fun j => u 0 j - x j) / ells 0) +
          tatpM0_logpdf x ((tFilter r ells u).1 0) ((cholesky ((tFilter r ells u).2 0))⁻¹ * 1)) := rfl
    rw [h3, h1, h2, tG0]
    ring
  have hc := congrFun (Sys.kernel_congr (S := csmcSys (splitKey key 3 0) fk Mp Gp resampling S.G0 S.G S.Z0 S.Z)
    (S' := S) (b := b) (x := x) ?_ ?_ rfl ?_ ?_
    (fun t y x => tatpGamma_t M.rt M.rt_grad y x (Gp t)) (moveIndex mv (atpMoveKey key n backward)) backward) f
  · have hcc := S.kernel_congr_const (Γ := fun t y x => tatpGamma_t M.rt M.rt_grad y x (Gp t))
      (Γ' := tG r M ells deltas u) (fun t x => ⟨_, fun y => hGam t y x⟩)
      (moveIndex mv (atpMoveKey key n backward)) backward
    rw [hcc] at hc
    refine Eq.trans ?_ hc
    refine Eq.trans ?_ (congrFun hk f)
    subst hu hMp
    rfl
  · intro Xs
    refine ⟨0, fun i => ?_⟩
    show fk.Gamma0 (Xs i) - tatpM0_logpdf (Xs i) ((tFilter r ells u).1 0) ((cholesky ((tFilter r ells u).2 0))⁻¹ * 1) =
      tG0 r M ells deltas u (Xs i) - normalLogpdf ((tFilter r ells u).1 0) (tL r ells 0 * (tL r ells 0)ᵀ) (Xs i) + 0
    rw [hGam0, hlp0, tL_zero hT hQ hells]
    ring
  · intro t Y Xs
    refine ⟨0, fun i => ?_⟩
    show tatpGamma_t M.rt M.rt_grad (Y i) (Xs i) (Gp t) - tatpMt_logpdf (Y i) (Xs i) (Mp t) =
      tG r M ells deltas u t (Y i) (Xs i) - normalLogpdf (tMean r ells u t (Y i)) (tL r ells t.succ * (tL r ells t.succ)ᵀ)
        (Xs i) + 0
    rw [hGam, hlp, tL_succ hT hQ hells]
    ring
  · show (tatpM0_rvs (splitKey (splitKey key 3 0) 3 0) (N + 1) ((tFilter r ells u).1 0)
        (cholesky ((tFilter r ells u).2 0)) >>= fun Xs => (pure (atSet Xs (b 0) (x 0)) : Ex _)) =
      (gaussP N (tL r ells 0) (fun _ => (tFilter r ells u).1 0) >>= fun Xs => pure (atSet Xs (b 0) (x 0)))
    rw [hP0]
    rfl
  · intro t Y
    show (tatpMt_rvs (splitKey (splitKey (splitKey (splitKey key 3 0) 3 1) n t) 2 0) Y (Mp t) >>= fun Xs =>
        (pure (atSet Xs (b t.succ) (x t.succ)) : Ex _)) =
      (gaussP N (tL r ells t.succ) (fun i => tMean r ells u t (Y i)) >>= fun Xs => pure (atSet Xs (b t.succ) (x t.succ)))
    simp only [hMp' t, tMean, ← kMean_affine]
    rfl

theorem t_invariant (hM : LinMeas M) (hT : r.PT.PosDef) (hQ : ∀ t, (r.Qs t).PosDef) (hells : ∀ t, 0 < ells t)
    (key : Key) (deltas : Fin (n + 1) → ℝ) {resampling : Resampling Ex N} {mv : AncestorMove Ex N}
    (hR : ∀ key, CondResampling (fun w i j => resampling key w i j true))
    (hmv : ∀ key, MoveInvariant (moveIndex mv key)) (backward : Bool) :
    LeavesInvariant volume (revPath r M)
      (fun x b => (t_atp_kernel_rev r M key x b ells deltas resampling mv backward : Ex _) >>= fun r => pure (r.xs, r.Bs)) := by
  have hlin : Measurable (revPath r M) := by
    refine Measurable.add (Measurable.add (measurable_normalLogpdf _ (by fun_prop) (by fun_prop))
      (Finset.measurable_sum _ fun t _ => measurable_normalLogpdf _ (by fun_prop) (by fun_prop))) ?_
    exact measurable_pathLogDensity hM.r0 hM.rt
  have hcen : Measurable (tCenter M deltas) := by
    have h0' := hM.r0_grad
    refine measurable_auxCenter (by unfold tlPhi0; fun_prop) fun t => ?_
    have := hM.rt_grad t
    unfold tlPhi
    fun_prop
  refine gSys_mixture (L := tL r ells) (s := auxStd ells) (m := tCenter M deltas)
    (R := fun t w i j => resampling (splitKey (splitKey (splitKey (splitKey key 3 0) 3 1) n t) 2 1) w i j true)
    (tG_meas deltas hM hT hQ hells)
    (tL_det hT hQ hells) (fun t => hR _) hlin (auxStd_pos hells) hcen (tG_sum deltas hT hQ hells)
    (hmv (atpMoveKey key n backward)) backward fun x b f hf => ?_
  have := t_kernel_eq hT hQ hells key x b deltas (M := M) (resampling := resampling) (mv := mv) backward f
  simp only [auxVars_center] at this
  exact this

end program

end Verif
