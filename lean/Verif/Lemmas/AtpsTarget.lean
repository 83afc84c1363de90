import Verif.Lemmas.AtpsLast
import Verif.Lemmas.TAtp

/-!
# The target of `atp_csmc_s.kernel` when the last state is independent of the others
-/

open scoped ENNReal
open MeasureTheory ProbabilityTheory Finset

namespace Verif
open Verif.Spec Verif.Model Matrix

variable {N n d : ℕ} {MP RP : Type} {svd : Mat d d → SvdOut d} {M : GaussModel MP RP (n + 2) d}
  {rt_grad0 : Vec d → Vec d → RP → Vec d} {ells deltas : Fin (n + 3) → ℝ} {mT : Vec d} {h : Vec d → ℝ}
  {resampling : Resampling Ex N}

/-- The density of the states before the last. -/
noncomputable def pathInit (M : GaussModel MP RP (n + 2) d) : (Fin (n + 2) → Vec d) → ℝ :=
  pathLogDensity (fun x => normalLogpdf M.mu0 M.P0 x + M.r0 x)
    (initA fun t y x => normalLogpdf (M.mu y (M.mu_params t)) (M.Qs t) x + M.rt y x (M.rt_params t))

theorem measurable_pathInit (hM : GaussMeas M) : Measurable (pathInit M) :=
  measurable_pathLogDensity ((measurable_normalLogpdf _ measurable_const measurable_id).add hM.r0) fun t =>
    (measurable_normalLogpdf _ ((hM.mu t.castSucc).comp measurable_fst) measurable_snd).add (hM.rt t.castSucc)

theorem gaussPath_last (hL : LastAlone M rt_grad0 (lastA deltas) mT h) (x : Fin (n + 2) → Vec d) (v : Vec d) :
    gaussPath M (snocA x v) = pathInit M x + (normalLogpdf mT (lastA M.Qs) v + h v) := by
  rw [gaussPath, pathLogDensity_snoc]
  have e1 : M.mu (lastA x) (M.mu_params (Fin.last _)) = mT := hL.mu _
  have e2 : M.rt (lastA x) v (M.rt_params (Fin.last _)) = h v := hL.rt _ _
  rw [e1, e2]
  rfl

theorem measurable_gaussPath' (hM : GaussMeas M) : Measurable (gaussPath M) :=
  measurable_pathLogDensity ((measurable_normalLogpdf _ measurable_const measurable_id).add hM.r0) fun t =>
    (measurable_normalLogpdf _ ((hM.mu t).comp measurable_fst) measurable_snd).add (hM.rt t)

/-- Integrals of functions of the last state. -/
theorem gaussPath_factor (hM : GaussMeas M) (hL : LastAlone M rt_grad0 (lastA deltas) mT h) (hh : Measurable h)
    (F : Vec d → ℝ≥0∞) (hF : Measurable F) :
    ∫⁻ x, ENNReal.ofReal (Real.exp (gaussPath M x)) * F (lastA x) ∂(Measure.pi fun _ => volume) =
      (∫⁻ x, ENNReal.ofReal (Real.exp (pathInit M x)) ∂(Measure.pi fun _ => volume)) *
        ∫⁻ v, ENNReal.ofReal (Real.exp (normalLogpdf mT (lastA M.Qs) v)) * (ENNReal.ofReal (Real.exp (h v)) * F v) := by
  have h1 : Measurable fun x : Fin (n + 3) → Vec d => ENNReal.ofReal (Real.exp (gaussPath M x)) * F (lastA x) :=
    (Real.measurable_exp.comp (measurable_gaussPath' hM)).ennreal_ofReal.mul (hF.comp (measurable_pi_apply _))
  have h2 : Measurable fun x : Fin (n + 2) → Vec d => ENNReal.ofReal (Real.exp (pathInit M x)) :=
    (Real.measurable_exp.comp (measurable_pathInit hM)).ennreal_ofReal
  have h3 : Measurable fun v => ENNReal.ofReal (Real.exp (normalLogpdf mT (lastA M.Qs) v)) * (ENNReal.ofReal (Real.exp (h v)) * F v) :=
    (Real.measurable_exp.comp (measurable_normalLogpdf _ measurable_const measurable_id)).ennreal_ofReal.mul
    ((Real.measurable_exp.comp hh).ennreal_ofReal.mul hF)
  rw [lintegral_pi_snoc _ _ h1, ← lintegral_mul_const _ h2]
  refine lintegral_congr fun x => ?_
  rw [← lintegral_const_mul _ h3]
  refine lintegral_congr fun v => ?_
  rw [gaussPath_last hL, lastA_snocA, Real.exp_add, Real.exp_add, ENNReal.ofReal_mul (Real.exp_pos _).le,
    ENNReal.ofReal_mul (Real.exp_pos _).le]
  ring

/-- What one step of `atp_csmc_s` does to `exp(-h)` of the last state, started from its target: the factor by which the
mean changes is larger than one. -/
theorem atps_step_gt (hP : ProposalOK svd M ells) (hM : GaussMeas M) (hL : LastAlone M rt_grad0 (lastA deltas) mT h)
    (hd : lastA M.Qs = diagonal (svd (lastA M.Qs)).Gamma) (hh : Measurable h) {B : ℝ} (hB : ∀ x, |h x| ≤ B)
    (hne : ¬ ∃ c, ∀ᵐ x, h x = c)
    (hR : ∀ key w i j a, IsProb w → (resampling key w i j true : Ex _) (fun _ => a) = a) (key : Key) (backward : Bool) :
    ∃ J : ℝ≥0∞, 1 < J ∧ ∀ bstar : Fin (n + 3) → Fin (N + 1),
      ∫⁻ x, ENNReal.ofReal (Real.exp (gaussPath M x)) * (atps_kernel svd M rt_grad0 key x bstar ells deltas resampling
        (fun key w k => barker_move key w k) backward : Ex _) (fun r => ENNReal.ofReal (Real.exp (-h (lastA r.1))))
        ∂(Measure.pi fun _ => volume) =
      (∫⁻ x, ENNReal.ofReal (Real.exp (pathInit M x)) ∂(Measure.pi fun _ => volume)) * J := by
  obtain ⟨pr, hpr⟩ : ∃ pr, pr = lastA (make_proposal svd M ells) := ⟨_, rfl⟩
  obtain ⟨s, hs'⟩ : ∃ s, s = lastA (auxStd ells) := ⟨_, rfl⟩
  obtain ⟨mm, hmm⟩ : ∃ mm : Vec d → Vec d, mm = fun u => atpMean mT u pr.K_1 pr.K_2 := ⟨_, rfl⟩
  obtain ⟨Φ, hΦ⟩ : ∃ Φ : Vec d → ℝ≥0∞, Φ = fun u => selLast N h (fun x => ENNReal.ofReal (Real.exp (-h x))) pr.chol (mm u) := ⟨_, rfl⟩
  have hs : 0 < s := hs' ▸ auxStd_pos hP.pos _
  have hdet : pr.chol.det ≠ 0 := hpr ▸ hP.det (Fin.last _)
  have hφ : Measurable fun x => ENNReal.ofReal (Real.exp (-h x)) := (Real.measurable_exp.comp hh.neg).ennreal_ofReal
  have hmmm : Measurable mm := by
    rw [hmm]
    unfold atpMean
    fun_prop
  have hΦm : Measurable Φ := by
    rw [hΦ]
    exact (measurable_selLast hh hφ pr.chol).comp hmmm
  obtain ⟨p, hp⟩ : ∃ p : Vec d → ℝ, p = fun u => normalLogpdf mT (s ^ 2 • 1 + lastA M.Qs) u := ⟨_, rfl⟩
  have hpm : Measurable p := hp ▸ measurable_normalLogpdf _ measurable_const measurable_id
  have hb : ∀ x u, normalLogpdf mT (lastA M.Qs) x + normalLogpdf x (s ^ 2 • 1) u =
      p u + normalLogpdf (mm u) (pr.chol * pr.cholᵀ) x := fun x u => by
    rw [hp, hmm, hpr, hs']
    exact atps_last_bayes hP x u
  have hW : Measurable fun x : Vec d => ENNReal.ofReal (Real.exp (h x)) := (Real.measurable_exp.comp hh).ennreal_ofReal
  refine ⟨∫⁻ u, ENNReal.ofReal (Real.exp (p u)) * ((∫⁻ v, ENNReal.ofReal (Real.exp (h (mm u + pr.chol *ᵥ v))) ∂gaussM d) * Φ u), ?_, fun b => ?_⟩
  · have hn := flat_norm hs hdet hmmm hpm hb (hP.posDef (Fin.last _))
    rw [← hn]
    refine lintegral_strict_mono (NeZero.ne _) ?_ (by rw [hn]; exact ENNReal.one_ne_top) (Filter.Eventually.of_forall fun u => ?_)
    · refine ((Real.measurable_exp.comp hpm).ennreal_ofReal.mul (Measurable.mul ?_ hΦm)).aemeasurable
      exact Measurable.lintegral_prod_right' (f := fun q : Vec d × Vec d => ENNReal.ofReal (Real.exp (h (mm q.1 + pr.chol *ᵥ q.2))))
        (hW.comp (by fun_prop))
    · have := selLast_gt (N := N) hh hB hdet hne (mm u)
      rw [hΦ]
      calc ENNReal.ofReal (Real.exp (p u)) = ENNReal.ofReal (Real.exp (p u)) * 1 := (mul_one _).symm
        _ < _ := ENNReal.mul_lt_mul_right (by simp [Real.exp_pos]) ENNReal.ofReal_ne_top this
  · have e1 : ∀ x : Fin (n + 3) → Vec d, (atps_kernel svd M rt_grad0 key x b ells deltas resampling
        (fun key w k => barker_move key w k) backward : Ex _) (fun r => ENNReal.ofReal (Real.exp (-h (lastA r.1)))) =
        ∫⁻ z, Φ (lastA x + s • z) ∂gaussM d := fun x => by
      have := atps_kernel_last hP hL hd hR key x b backward (fun x => ENNReal.ofReal (Real.exp (-h x)))
        (by rw [← hpr]; rw [hΦ, hmm] at hΦm; exact hΦm)
      rw [this, hΦ, hmm, hpr, hs']
    simp only [e1]
    have hz : Measurable fun x : Vec d => ∫⁻ z, Φ (x + s • z) ∂gaussM d :=
      Measurable.lintegral_prod_right' (f := fun q : Vec d × Vec d => Φ (q.1 + s • q.2)) (hΦm.comp (by fun_prop))
    rw [gaussPath_factor hM hL hh (fun x => ∫⁻ z, Φ (x + s • z) ∂gaussM d) hz]
    congr 1
    have hmer := merge_reference (N := 0) hs hdet hmmm hpm hb 0
      (H := fun u Z => ENNReal.ofReal (Real.exp (h (Z 0))) * Φ u)
      ((hW.comp (f := fun q : Vec d × (Fin (0 + 1) → Vec d) => q.2 0) (by fun_prop)).mul (hΦm.comp measurable_fst))
    have e2 : ∀ (x z : Vec d) (y : Fin (0 + 1) → Vec d), atSet (fun i => mm (x + s • z) + pr.chol *ᵥ y i) 0 x 0 = x := fun x z y => by
      simp [atSet]
    simp only [e2, lintegral_const, measure_univ, mul_one] at hmer
    refine Eq.trans (lintegral_congr fun v => ?_) (hmer.trans (lintegral_congr fun u => ?_))
    · have : Measurable fun z => Φ (v + s • z) := hΦm.comp (by fun_prop)
      rw [lintegral_const_mul _ this]
    · have : Measurable fun y : Fin (0 + 1) → Vec d => ENNReal.ofReal (Real.exp (h (mm u + pr.chol *ᵥ y 0))) :=
        hW.comp (by fun_prop)
      rw [lintegral_mul_const _ this]
      congr 2
      exact lintegral_one (gaussM d) fun y => ENNReal.ofReal (Real.exp (h (mm u + pr.chol *ᵥ y 0)))

theorem atps_target_eq (hP : ProposalOK svd M ells) (hM : GaussMeas M) (hL : LastAlone M rt_grad0 (lastA deltas) mT h)
    (hh : Measurable h) :
    ∫⁻ x, ENNReal.ofReal (Real.exp (gaussPath M x)) * ENNReal.ofReal (Real.exp (-h (lastA x))) ∂(Measure.pi fun _ => volume) =
      ∫⁻ x, ENNReal.ofReal (Real.exp (pathInit M x)) ∂(Measure.pi fun _ => volume) := by
  rw [gaussPath_factor hM hL hh (fun x => ENNReal.ofReal (Real.exp (-h x))) (Real.measurable_exp.comp hh.neg).ennreal_ofReal]
  have : ∀ v, ENNReal.ofReal (Real.exp (h v)) * ENNReal.ofReal (Real.exp (-h v)) = 1 := fun v => by
    rw [← ENNReal.ofReal_mul (Real.exp_pos _).le, ← Real.exp_add, add_neg_cancel, Real.exp_zero, ENNReal.ofReal_one]
  have hQ : (lastA M.Qs).PosDef := hP.posDef (Fin.last _)
  simp only [this, mul_one, normalLogpdf_norm hQ]

theorem pathInit_mass (hM : GaussMeas M) (hL : LastAlone M rt_grad0 (lastA deltas) mT h) (hh : Measurable h)
    (hfin : ∫⁻ x, ENNReal.ofReal (Real.exp (gaussPath M x)) ∂(Measure.pi fun _ => volume) ≠ ⊤) :
    ∫⁻ x, ENNReal.ofReal (Real.exp (pathInit M x)) ∂(Measure.pi fun _ => volume) ≠ 0 ∧
      ∫⁻ x, ENNReal.ofReal (Real.exp (pathInit M x)) ∂(Measure.pi fun _ => volume) ≠ ⊤ := by
  have hp : ∀ {k : ℕ} {G : (Fin k → Vec d) → ℝ}, Measurable G →
      ∫⁻ x, ENNReal.ofReal (Real.exp (G x)) ∂(Measure.pi fun _ => volume) ≠ 0 := fun {k G} hG h0 => by
    have hm : Measurable fun x => ENNReal.ofReal (Real.exp (G x)) := (Real.measurable_exp.comp hG).ennreal_ofReal
    rw [lintegral_eq_zero_iff hm] at h0
    obtain ⟨x, hx⟩ := h0.exists
    exact (Real.exp_pos (G x)).not_ge (ENNReal.ofReal_eq_zero.mp hx)
  refine ⟨hp (measurable_pathInit hM), fun htop => hfin ?_⟩
  have h1 := gaussPath_factor hM hL hh (fun _ => 1) measurable_const
  simp only [mul_one] at h1
  rw [h1, htop, ENNReal.top_mul]
  intro h0
  have hm : Measurable fun v => ENNReal.ofReal (Real.exp (normalLogpdf mT (lastA M.Qs) v)) * ENNReal.ofReal (Real.exp (h v)) :=
    (Real.measurable_exp.comp (measurable_normalLogpdf _ measurable_const measurable_id)).ennreal_ofReal.mul
      (Real.measurable_exp.comp hh).ennreal_ofReal
  rw [lintegral_eq_zero_iff hm] at h0
  obtain ⟨x, hx⟩ := h0.exists
  rcases mul_eq_zero.mp hx with hx | hx
  · exact (Real.exp_pos _).not_ge (ENNReal.ofReal_eq_zero.mp hx)
  · exact (Real.exp_pos _).not_ge (ENNReal.ofReal_eq_zero.mp hx)

end Verif
