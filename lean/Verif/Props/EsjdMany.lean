import Verif.Lemmas.GaussMoments

/-!
# With many particles the scaling experiment reports the squared distance of independent draws (C104)
-/

open scoped ENNReal
open MeasureTheory ProbabilityTheory

namespace Verif.Props
open Verif Verif.Model Verif.Spec Matrix

variable {N n d : ℕ} {sigma : ℝ}

/-! ## Independent Metropolis-Hastings -/

section imh
variable {D : Dyn n d} (hP : D.P0.PosDef) (hQ : ∀ t, (D.Qs t).PosDef) {log_pdf : Traj (n + 1) d → ℝ} (hl : Measurable log_pdf)
include hP hQ hl

/-- **C104** (`imh.py`): if `log_pdf ≤ B`, one step with `N` proposals, from every trajectory and key, draws from a law within
`2 exp B / ((N + 1) Z)` of the target in total variation, plus `3e-12` for the guard of `force_move`. -/
theorem C104_imh {B : ℝ} (hB : ∀ x, log_pdf x ≤ B) (key : Key) (x : Traj (n + 1) d) :
    TVLe (imhManyErr N B (∫⁻ x, ENNReal.ofReal (Real.exp (mtTarget D log_pdf x)) ∂trajVol (n + 1) d) + forceErr)
      (fun f => (imh_kernel key (imh_init log_pdf x) D log_pdf N : Ex _) fun r => f r.1.1)
      fun f => ∫⁻ x, f x ∂lawOf (trajVol (n + 1) d) (mtTarget D log_pdf) := by
  intro f hf hf1
  obtain ⟨h1, h2⟩ := imhExact_tv (N := N) hP hQ hl hB key x f hf hf1
  obtain ⟨h3, h4⟩ := cand_near (imh_candOK (N := N) hP hQ hl 1) (imhPair_jump D log_pdf N 1) (imhExact_jump D log_pdf N 1) key x f hf hf1
  exact ⟨h3.trans ((add_le_add h1 le_rfl).trans (le_of_eq (add_assoc _ _ _))),
    h2.trans ((add_le_add h4 le_rfl).trans (le_of_eq (by rw [add_assoc, add_comm forceErr]; rfl)))⟩

end imh

/-- **C104** (`imh.py`, limit): the bound vanishes as the number of proposals grows. -/
theorem C104_imh_limit (B : ℝ) {Z : ℝ≥0∞} (hZ : Z ≠ 0) : Filter.Tendsto (fun N => imhManyErr N B Z) Filter.atTop (nhds 0) := by
  have e : (fun N => imhManyErr N B Z) = fun N : ℕ => 2 * ENNReal.ofReal (Real.exp B) / Z * ((N : ℝ≥0∞) + 1)⁻¹ := by
    funext N
    rw [imhManyErr, div_eq_mul_inv, div_eq_mul_inv, ENNReal.mul_inv (.inl (by simp)) (.inl (by finiteness))]
    ring
  rw [e]
  have h : Filter.Tendsto (fun N : ℕ => ((N : ℝ≥0∞) + 1)⁻¹) Filter.atTop (nhds 0) := by
    have := ENNReal.tendsto_inv_nat_nhds_zero.comp (Filter.tendsto_add_atTop_nat 1)
    refine this.congr fun N => ?_
    simp
  have := ENNReal.Tendsto.const_mul (a := 2 * ENNReal.ofReal (Real.exp B) / Z) h (.inr (ENNReal.div_ne_top (by finiteness) hZ))
  rwa [mul_zero] at this

/-! ## The squared jumps -/

/-- **C104** (independent draws): two independent draws from the posterior are, on average, at a squared distance of twice the total variance of the
posterior at this time, which is at most `4 d`. -/
theorem C104_independent (hs : 0 < sigma) (ys : Traj (n + 1) d) (t : Fin (n + 1)) :
    independentJump (lgPosterior sigma ys) t = 2 * spread (lgPosterior sigma ys) (meanAt (lgPosterior sigma ys) t) t 1 ∧
    independentJump (lgPosterior sigma ys) t ≤ 4 * d := by
  have : Fact (0 < sigma) := ⟨hs⟩
  refine ⟨independent_eq (c := 0) (lgPosterior_spread hs ys 0 t 1), ?_⟩
  obtain ⟨m, hm⟩ := lgPosterior_spread_le hs ys
  have e2 : independentJump (lgPosterior sigma ys) t = ∫⁻ p, ENNReal.ofReal (sqJump p t) ∂((lgPosterior sigma ys).prod (lgPosterior sigma ys)) :=
    (lintegral_prod _ (measurable_sqJump t).ennreal_ofReal.aemeasurable).symm
  rw [e2]
  refine ((jump_le (μ := (lgPosterior sigma ys).prod (lgPosterior sigma ys)) (π := lgPosterior sigma ys) (fun f hf => ?_) (fun f hf => ?_) (m t) t).1).trans
    (mul_le_mul_right (hm t).1 4)
  · rw [lintegral_prod (fun p => f p.1) (hf.comp measurable_fst).aemeasurable]
    simp
  · rw [lintegral_prod (fun p => f p.2) (hf.comp measurable_snd).aemeasurable]
    simp

/-- **C104** (jumps): a step that keeps the posterior, and whose law is within `ε²` of it in total variation from every trajectory, has an expected
squared jump distance within `14 d ε` of that of independent draws, whatever the data and the length of the series. -/
theorem C104_jump (hs : 0 < sigma) (ys : Traj (n + 1) d) {K : KernelPair Ex (n + 1) d} {DELTA : StepSize (n + 1)}
    (hK : PairOK 0 (lgPosterior sigma ys) K DELTA) {ε : ℝ} (hε : 0 < ε)
    (hE : ∀ x, TVLe (ENNReal.ofReal (ε ^ 2)) (jumpStep K DELTA [] x) fun f => ∫⁻ y, f y ∂lgPosterior sigma ys) (t : Fin (n + 1)) :
    NearBy (ENNReal.ofReal (14 * d * ε)) (expectedJump (lgPosterior sigma ys) (jumpStep K DELTA []) t) (independentJump (lgPosterior sigma ys) t) := by
  have : Fact (0 < sigma) := ⟨hs⟩
  obtain ⟨μ, hp, hμ, -⟩ := C63_replicates (M := 1) hs ys hK one_pos [] []
  obtain ⟨m, hm⟩ := lgPosterior_spread_le hs ys
  rcases Nat.eq_zero_or_pos d with rfl | hd
  · have hj := (C101_finite hs ys hK t).1
    have hi := (C104_independent hs ys t).2
    simp only [CharP.cast_eq_zero, mul_zero, nonpos_iff_eq_zero] at hj hi
    rw [hj, hi]
    exact ⟨zero_le, zero_le⟩
  have hd' : (0 : ℝ) < d := by exact_mod_cast hd
  have h := jump_near hK hμ hE (m t) t (R := 7 * d / ε) (by positivity)
  have hb : ENNReal.ofReal (ε ^ 2) * ENNReal.ofReal (7 * d / ε) + 16 * spread (lgPosterior sigma ys) (m t) t 2 / ENNReal.ofReal (7 * d / ε) ≤
      ENNReal.ofReal (14 * d * ε) := by
    have e48 : 16 * spread (lgPosterior sigma ys) (m t) t 2 ≤ ENNReal.ofReal (48 * d ^ 2) := by
      refine (mul_le_mul_right (hm t).2 16).trans (le_of_eq ?_)
      rw [ENNReal.ofReal_mul (by norm_num), ENNReal.ofReal_pow hd'.le, ENNReal.ofReal_natCast, ← mul_assoc]
      norm_num
    calc _ ≤ ENNReal.ofReal (ε ^ 2) * ENNReal.ofReal (7 * d / ε) + ENNReal.ofReal (48 * d ^ 2) / ENNReal.ofReal (7 * d / ε) := by gcongr
      _ = ENNReal.ofReal (ε ^ 2 * (7 * d / ε) + 48 * d ^ 2 / (7 * d / ε)) := by
          rw [← ENNReal.ofReal_mul (by positivity), ← ENNReal.ofReal_div_of_pos (by positivity), ← ENNReal.ofReal_add (by positivity) (by positivity)]
      _ ≤ _ := by
          refine ENNReal.ofReal_le_ofReal ?_
          have e1 : ε ^ 2 * (7 * d / ε) + 48 * d ^ 2 / (7 * d / ε) = 7 * d * ε + 48 / 7 * d * ε := by field_simp
          rw [e1]
          nlinarith [mul_pos hd' hε]
  exact ⟨h.1.trans (by gcongr), h.2.trans (by gcongr)⟩

/-! ## The Kalman smoother -/

/-- The means and covariances computed by the Kalman smoother of the package for the model of the experiment. -/
noncomputable def lgSmoother (sigma : ℝ) (ys : Traj (n + 1) d) : (Fin (n + 1) → Vec d) × (Fin (n + 1) → Mat d d) :=
  let D := lgDyn sigma n d
  let f := filtering0 ys D.m0 D.P0 D.Fs D.Qs D.bs (fun _ => 1) (fun _ => 1) (fun _ => 0)
  smoothing f.1 f.2.1 D.Fs D.Qs D.bs

/-- **C104** (marginals): at every time the posterior of the experiment is Gaussian, with the mean and covariance computed by the Kalman smoother. -/
theorem C104_marginal (hs : 0 < sigma) (ys : Traj (n + 1) d) (t : Fin (n + 1)) {F : Vec d → ℝ≥0∞} (hF : Measurable F) :
    ((lgSmoother sigma ys).2 t).PosDef ∧ ∫⁻ x, F (x t) ∂lgPosterior sigma ys =
      ∫⁻ x, ENNReal.ofReal (Real.exp (normalLogpdf ((lgSmoother sigma ys).1 t) ((lgSmoother sigma ys).2 t) x)) * F x := by
  have hQ : ∀ t, ((lgDyn sigma n d).Qs t).PosDef := fun _ => posDef_smul_one (pow_pos hs 2)
  have h := C40_smoothing (N := 1) (ms := (filtering0 ys (lgDyn sigma n d).m0 (lgDyn sigma n d).P0 (lgDyn sigma n d).Fs (lgDyn sigma n d).Qs
    (lgDyn sigma n d).bs (fun _ => 1) (fun _ => (1 : Mat d d)) (fun _ => 0)).1) (Fs := (lgDyn sigma n d).Fs)
    (fun t => filtering0_posDef (Fs := (lgDyn sigma n d).Fs) ys (lgDyn sigma n d).m0 (lgDyn sigma n d).bs (fun _ => 1) (fun _ => 0) (posDef_smul_one (pow_pos hs 2)) hQ
      (fun _ => PosDef.one) t) hQ (lgDyn sigma n d).bs t [] 0 F hF
  refine ⟨h.1, Eq.trans ?_ h.2⟩
  obtain ⟨c, hc⟩ := C60_lgssm_init (N := 1) hs ys []
  have hl := (lawOf_eq (hc.norm 0) (measurable_lgTarget ys hs)).2
  have h2 := hc.law (fun xs => F (xs 0 t)) (hF.comp ((measurable_pi_apply t).comp (measurable_pi_apply 0)))
  refine Eq.trans ?_ h2.symm
  have : IsProbabilityMeasure (lgPosterior sigma ys) := lawOf_isProb (lgTarget_mass hs ys) (measurable_lgTarget ys hs)
  have h3 := (measurePreserving_eval (fun _ : Fin 1 => lgPosterior sigma ys) 0).lintegral_comp (hF.comp (measurable_pi_apply t))
  refine h3.symm.trans ?_
  rw [show (fun _ : Fin 1 => lgPosterior sigma ys) = fun _ => _ from funext fun _ => hl]
  rfl

/-- **C104** (Kalman smoother): two independent draws from the posterior are, on average, at a squared distance of twice the trace of the covariance
computed by the Kalman smoother. -/
theorem C104_smoother (hs : 0 < sigma) (ys : Traj (n + 1) d) (t : Fin (n + 1)) :
    meanAt (lgPosterior sigma ys) t = (lgSmoother sigma ys).1 t ∧
    spread (lgPosterior sigma ys) (meanAt (lgPosterior sigma ys) t) t 1 = ENNReal.ofReal ((lgSmoother sigma ys).2 t).trace ∧
    independentJump (lgPosterior sigma ys) t = ENNReal.ofReal (2 * ((lgSmoother sigma ys).2 t).trace) := by
  have hP : ((lgSmoother sigma ys).2 t).PosDef := (C104_marginal hs ys t (F := fun _ => 0) measurable_const).1
  have hm : meanAt (lgPosterior sigma ys) t = (lgSmoother sigma ys).1 t := by
    funext j
    have h := gauss_mean hP ((lgSmoother sigma ys).1 t) (μ := (lgPosterior sigma ys).map fun x => x t) (fun F hF => by
      rw [lintegral_map hF (measurable_pi_apply t)]
      exact (C104_marginal hs ys t hF).2) j
    rwa [integral_map (measurable_pi_apply t).aemeasurable (measurable_pi_apply j).aestronglyMeasurable] at h
  have hsp : spread (lgPosterior sigma ys) (meanAt (lgPosterior sigma ys) t) t 1 = ENNReal.ofReal ((lgSmoother sigma ys).2 t).trace := by
    rw [hm, ← gauss_trace hP ((lgSmoother sigma ys).1 t)]
    refine Eq.trans ?_ (C104_marginal hs ys t (F := fun x => ENNReal.ofReal (∑ j, (x j - (lgSmoother sigma ys).1 t j) ^ 2)) (by fun_prop)).2
    simp only [spread, pow_one]
  refine ⟨hm, hsp, ?_⟩
  rw [(C104_independent hs ys t).1, hsp, ENNReal.ofReal_mul (by norm_num)]
  norm_num

/-- **C104** (data): the covariances of the smoother, and so the squared distance of independent draws, do not depend on the observations. -/
theorem C104_data (hs : 0 < sigma) (ys ys' : Traj (n + 1) d) (t : Fin (n + 1)) :
    (lgSmoother sigma ys).2 = (lgSmoother sigma ys').2 ∧ independentJump (lgPosterior sigma ys) t = independentJump (lgPosterior sigma ys') t := by
  have h : (lgSmoother sigma ys).2 = (lgSmoother sigma ys').2 := by
    simp only [lgSmoother]
    rw [filtering0_cov_indep (P0 := (lgDyn sigma n d).P0) (Qs := (lgDyn sigma n d).Qs) (Fs := (lgDyn sigma n d).Fs) ys ys' (lgDyn sigma n d).m0 (lgDyn sigma n d).bs (fun _ => 1) (fun _ => 0)
      (posDef_smul_one (pow_pos hs 2)) (fun _ => posDef_smul_one (pow_pos hs 2)) (fun _ => PosDef.one)]
    exact smoothing_cov_indep _ _ _ _ _ _ _
  exact ⟨h, by rw [(C104_smoother hs ys t).2.2, (C104_smoother hs ys' t).2.2, h]⟩

/-! ## The kernels -/

/-- The bounds for the kernels `CSMC` and `IMH` of `experiments/lgssm_scaling`. -/
noncomputable def lgManyErr (k : LgType) (N : ℕ) (sigma : ℝ) (ys : Traj (n + 1) d) : ℝ≥0∞ :=
  let Z := ∫⁻ x, ENNReal.ofReal (Real.exp (lgTarget sigma ys x)) ∂trajVol (n + 1) d
  if k = .IMH then imhManyErr N ((n + 1) * lgMaxLog d) Z else manyErrAny N n (fun _ => lgMaxLog d) Z

/-- **C104** (limit): the bounds vanish as the number of particles, or of proposals, grows. -/
theorem C104_limit (hs : 0 < sigma) (ys : Traj (n + 1) d) (k : LgType) :
    Filter.Tendsto (fun N => lgManyErr k N sigma ys) Filter.atTop (nhds 0) := by
  have hZ := (lgTarget_mass (n := n) hs ys).1
  unfold lgManyErr
  by_cases h : k = .IMH
  · simp only [h, if_true]
    exact C104_imh_limit _ hZ
  · simp only [h, if_false]
    exact (C92_any_limit n _ hZ).1

theorem lg_imh_tv (hs : 0 < sigma) (ys : Traj (n + 1) d) (δ : ℝ) (key : Key) (x : Traj (n + 1) d) :
    TVLe (lgManyErr .IMH N sigma ys) (jumpStep (imhPair (fun key s => imhExact key s (lgDyn sigma n d) (fun xs => lg_log_likelihood xs ys) N)
      (imh_init fun xs => lg_log_likelihood xs ys)) (.scalar δ) key x) fun f => ∫⁻ y, f y ∂lgPosterior sigma ys := by
  have h := imhExact_tv (N := N) (D := lgDyn sigma n d) (posDef_smul_one (pow_pos hs 2)) (fun _ => posDef_smul_one (pow_pos hs 2))
    (measurable_lg_log_likelihood ys) (B := (n + 1) * lgMaxLog d) (fun x => by
      refine (Finset.sum_le_sum fun t _ => lg_log_potential_le (x t) (ys t)).trans (le_of_eq ?_)
      simp) key x
  rw [lg_mtTarget] at h
  exact h

theorem lg_csmc_tv (hs : 0 < sigma) (ys : Traj (n + 1) d) {resampling : String} {R : Resampling Ex N} (hR : sel_resampling resampling = .ok R)
    (backward : Bool) (hN : 1 ≤ N) {mv : AncestorMove Ex N} (hk : ∀ key, MoveKer (moveIndex mv key)) (hmass : ∀ key, MoveMass (moveIndex mv key))
    (ha : ∀ key, MovesAway 1 (moveIndex mv key)) (DELTA : StepSize (n + 1)) (key : Key) (x : Traj (n + 1) d) :
    TVLe (lgManyErr .CSMC N sigma ys) (jumpStep (csmcPair fun key x b _ => outOf (lg_csmc_kernel ys sigma R mv backward key x b)) DELTA key x)
      fun f => ∫⁻ y, f y ∂lgPosterior sigma ys := by
  have hZ := lgTarget_mass hs ys
  have e := lgTarget_gamma ys hs
  unfold lgManyErr lgPosterior
  rw [if_neg (by decide)]
  rw [← e] at hZ ⊢
  exact csmc_many_any volume (C19_lgssm_proper ys hs) (lgFK_bounded ys hs) hZ hR backward hN hk hmass ha key (x, fun _ => 0)

/-- The selected kernel and the one without guard. -/
theorem lg_many_exact {svd : Mat d d → SvdOut d} {k : LgType} (hkk : k = .CSMC ∨ k = .IMH) (hs : 0 < sigma) {style resampling last_step : String}
    {R : Resampling Ex N} {mv : AncestorMove Ex N} (hR : sel_resampling resampling = .ok R) (hm : sel_last_step last_step = .ok mv)
    {backward : Bool} {make : Traj (n + 1) d → KernelPair Ex (n + 1) d}
    (hk : k.kernel_maker svd sigma style R mv backward = .ok make) {delta : ℝ} (hN : 1 ≤ N) (ys : Traj (n + 1) d) :
    ∃ K', PairOK 0 (lgPosterior sigma ys) K' (k.shape_delta delta (n + 1)) ∧
      (∀ x, TVLe (lgManyErr k N sigma ys) (jumpStep K' (k.shape_delta delta (n + 1)) [] x) fun f => ∫⁻ y, f y ∂lgPosterior sigma ys) ∧
      (∃ ε', PairOK ε' (lgPosterior sigma ys) (make ys) (k.shape_delta delta (n + 1))) ∧
      Guarded (lgPosterior sigma ys) (make ys) K' (k.shape_delta delta (n + 1)) := by
  rcases hkk with rfl | rfl
  · have hS' : SelOK 0 R exactMove := sel_ok_exact hR (.inr rfl)
    have hS := sel_ok hR hm
    simp only [LgType.kernel_maker, lg_get_csmc_kernel] at hk
    split_ifs at hk with hst
    cases hk
    have hok : ∀ ε mv, SelOK ε R mv → PairOK ε (lgPosterior sigma ys)
        (csmcPair fun key x b _ => outOf (lg_csmc_kernel (m := Ex) ys sigma R mv backward key x b)) (.scalar delta) := fun ε mv hS =>
      (lg_csmc_ok (N := N) ys hS hs backward).pair (measurable_lgTarget ys hs) (lgTarget_mass hs ys)
    unfold sel_last_step at hm
    split_ifs at hm with h1 h2 <;> cases hm
    · exact ⟨_, hok _ _ hS', lg_csmc_tv hs ys hR backward hN (mv := exactMove) (fun _ => liuMove_ker) (fun _ => liu_moveMass) (fun _ => liu_movesAway)
        (.scalar delta) [], ⟨_, hok _ _ hS⟩, csmc_guard (hok _ _ hS') fun key x b =>
          csmc_near key (C19_lgssm_proper ys hs) (tailA ys) (tailA ys) hS'.cond forced_near backward x b⟩
    · subst h2
      have hS0 : SelOK 0 R (fun key w k => barker_move key w k) := hS
      exact ⟨_, hok _ _ hS0, lg_csmc_tv hs ys hR backward hN (mv := fun key w k => barker_move key w k) (fun key => hS.ker key)
        (fun key => hS.mass key) (fun key => barker_movesAway key) (.scalar delta) [], ⟨_, hok _ _ hS0⟩, hok _ _ hS0,
        fun key x f _ _ => ⟨le_self_add, le_self_add⟩⟩
  · have hp := lg_imh_pair (delta := delta) hs ys hk
    cases hk
    have hg := lg_guard_imh (N := N) hs ys delta
    exact ⟨_, hg.1, lg_imh_tv hs ys delta [], ⟨_, hp⟩, hg⟩

/-- **C104** (the kernels): for the kernels `CSMC` and `IMH` of `experiments/lgssm_scaling` with any options, there is a kernel that keeps the
posterior, whose reports differ from those of the script by at most `3e-12` for each replicate, and whose expected squared jump distance is within
`14 d ε` of twice the total variance of the posterior, if the bound `lgManyErr` is at most `ε²`. -/
theorem C104_kernels {svd : Mat d d → SvdOut d} {k : LgType} (hkk : k = .CSMC ∨ k = .IMH) (hs : 0 < sigma) {style resampling last_step : String}
    {R : Resampling Ex N} {mv : AncestorMove Ex N} (hR : sel_resampling resampling = .ok R) (hm : sel_last_step last_step = .ok mv)
    {backward : Bool} {make : Traj (n + 1) d → KernelPair Ex (n + 1) d}
    (hk : k.kernel_maker svd sigma style R mv backward = .ok make) {delta : ℝ} (hN : 1 ≤ N) (ys : Traj (n + 1) d)
    {ε : ℝ} (hε : 0 < ε) (hE : lgManyErr k N sigma ys ≤ ENNReal.ofReal (ε ^ 2)) :
    ∃ K', PairOK 0 (lgPosterior sigma ys) K' (k.shape_delta delta (n + 1)) ∧
      (∀ {M : ℕ} (_ : 0 < M) (init_key sample_key : Key) {F : (Fin (n + 1) → ℝ) → ℝ≥0∞}, Measurable F → (∀ e, F e ≤ 1) →
        NearBy (M * ENNReal.ofReal 3e-12) (lg_measure init_key sample_key ys sigma (make ys) (k.shape_delta delta (n + 1)) M F)
          (lg_measure init_key sample_key ys sigma K' (k.shape_delta delta (n + 1)) M F)) ∧
      ∀ t, NearBy (ENNReal.ofReal (14 * d * ε)) (expectedJump (lgPosterior sigma ys) (jumpStep K' (k.shape_delta delta (n + 1)) []) t)
        (2 * spread (lgPosterior sigma ys) (meanAt (lgPosterior sigma ys) t) t 1) := by
  obtain ⟨K', hK', htv, ⟨ε', hK⟩, hg⟩ := lg_many_exact hkk hs hR hm hk hN ys
  refine ⟨K', hK', fun hM ki ks F hF hF1 => C101_compare hs ys hK hg hM ki ks hF hF1, fun t => ?_⟩
  rw [← (C104_independent hs ys t).1]
  exact C104_jump hs ys hK' hε (fun x f hf hf1 => ⟨((htv x f hf hf1).1).trans (by gcongr), ((htv x f hf hf1).2).trans (by gcongr)⟩) t

open Classical in
/-- **C104** (the report): for the kernels `CSMC` and `IMH` of `experiments/lgssm_scaling` with any options, if the bound `lgManyErr` is at most
`ε²`, the value reported for time `t` is within `η + 14 d ε` of twice the total variance of the posterior at this time, but for a probability of at
most `48 d² / (M η²)`, plus `3e-12` for each replicate. -/
theorem C104_report {svd : Mat d d → SvdOut d} {k : LgType} (hkk : k = .CSMC ∨ k = .IMH) (hs : 0 < sigma) {style resampling last_step : String}
    {R : Resampling Ex N} {mv : AncestorMove Ex N} (hR : sel_resampling resampling = .ok R) (hm : sel_last_step last_step = .ok mv)
    {backward : Bool} {make : Traj (n + 1) d → KernelPair Ex (n + 1) d}
    (hk : k.kernel_maker svd sigma style R mv backward = .ok make) {delta : ℝ} (hN : 1 ≤ N) (ys : Traj (n + 1) d)
    {ε : ℝ} (hε : 0 < ε) (hE : lgManyErr k N sigma ys ≤ ENNReal.ofReal (ε ^ 2)) {M : ℕ} (hM : 0 < M) (init_key sample_key : Key) (t : Fin (n + 1))
    {η : ℝ} (hη : 0 < η) :
    lg_measure init_key sample_key ys sigma (make ys) (k.shape_delta delta (n + 1)) M (fun e => if η + 14 * d * ε ≤
        |e t - 2 * (spread (lgPosterior sigma ys) (meanAt (lgPosterior sigma ys) t) t 1).toReal| then 1 else 0) ≤
      48 * d ^ 2 / (M * ENNReal.ofReal (η ^ 2)) + M * ENNReal.ofReal 3e-12 := by
  obtain ⟨K', hK', hc, hj⟩ := C104_kernels hkk hs hR hm hk hN ys hε hE
  have : Fact (0 < sigma) := ⟨hs⟩
  let V := spread (lgPosterior sigma ys) (meanAt (lgPosterior sigma ys) t) t 1
  let J := expectedJump (lgPosterior sigma ys) (jumpStep K' (k.shape_delta delta (n + 1)) []) t
  have hV : V ≠ ∞ := lgPosterior_spread hs ys _ t 1
  have hJ : J ≠ ∞ := ne_top_of_le_ne_top (by finiteness) (C101_finite hs ys hK' t).1
  have hdist : |J.toReal - 2 * V.toReal| ≤ 14 * d * ε := by
    have h0 : (0 : ℝ) ≤ 14 * d * ε := by positivity
    have e2 : (2 * V).toReal = 2 * V.toReal := by rw [ENNReal.toReal_mul]; rfl
    obtain ⟨h1, h2⟩ := hj t
    have h1' := ENNReal.toReal_mono (by finiteness) h1
    have h2' := ENNReal.toReal_mono (by finiteness) h2
    rw [ENNReal.toReal_add (by finiteness) (by finiteness), ENNReal.toReal_ofReal h0] at h1' h2'
    rw [abs_le]
    constructor <;> linarith
  have hset : MeasurableSet {e : Fin (n + 1) → ℝ | η + 14 * d * ε ≤ |e t - 2 * V.toReal|} := measurableSet_le measurable_const (by fun_prop)
  have hF : Measurable fun e : Fin (n + 1) → ℝ => if η + 14 * d * ε ≤ |e t - 2 * V.toReal| then (1 : ℝ≥0∞) else 0 :=
    Measurable.ite hset measurable_const measurable_const
  have h1 := (hc hM init_key sample_key hF fun e => by split_ifs <;> simp).1
  refine h1.trans (add_le_add ?_ le_rfl)
  refine le_trans ?_ (C101_reported hs ys hK' hM init_key sample_key t hη)
  obtain ⟨μ, hp, hμ, -, -, hL⟩ := C63_replicates (M := M) hs ys hK' hM init_key sample_key
  rw [hL _ hF, hL _ (Measurable.ite (measurable_jumpOff (sigma := sigma) ys K' _ t η) measurable_const measurable_const)]
  refine lintegral_mono fun p => ?_
  dsimp only
  split_ifs with h3 h4
  · exact le_rfl
  · exfalso
    refine h4 ?_
    show η ≤ |meanSqJump p t - J.toReal|
    have := abs_sub_le (meanSqJump p t) J.toReal (2 * V.toReal)
    linarith
  · exact zero_le
  · exact zero_le

open Classical in
/-- **C104** (the report and the smoother): the same in terms of the covariance `P t` computed by the Kalman smoother of the package, which does
not depend on the data: the report is close to twice its trace. -/
theorem C104_kalman {svd : Mat d d → SvdOut d} {k : LgType} (hkk : k = .CSMC ∨ k = .IMH) (hs : 0 < sigma) {style resampling last_step : String}
    {R : Resampling Ex N} {mv : AncestorMove Ex N} (hR : sel_resampling resampling = .ok R) (hm : sel_last_step last_step = .ok mv)
    {backward : Bool} {make : Traj (n + 1) d → KernelPair Ex (n + 1) d}
    (hk : k.kernel_maker svd sigma style R mv backward = .ok make) {delta : ℝ} (hN : 1 ≤ N) (ys : Traj (n + 1) d)
    {ε : ℝ} (hε : 0 < ε) (hE : lgManyErr k N sigma ys ≤ ENNReal.ofReal (ε ^ 2)) {M : ℕ} (hM : 0 < M) (init_key sample_key : Key) (t : Fin (n + 1))
    {η : ℝ} (hη : 0 < η) :
    lg_measure init_key sample_key ys sigma (make ys) (k.shape_delta delta (n + 1)) M (fun e => if η + 14 * d * ε ≤
        |e t - 2 * ((lgSmoother sigma (0 : Traj (n + 1) d)).2 t).trace| then 1 else 0) ≤
      48 * d ^ 2 / (M * ENNReal.ofReal (η ^ 2)) + M * ENNReal.ofReal 3e-12 := by
  have h := C104_report hkk hs hR hm hk (delta := delta) hN ys hε hE hM init_key sample_key t hη
  rw [(C104_smoother hs ys t).2.1, (C104_data hs ys 0 t).1,
    ENNReal.toReal_ofReal (C104_marginal hs 0 t (F := fun _ => 0) measurable_const).1.posSemidef.trace_nonneg] at h
  exact h

/-- An instance: `T = 2`, `D = 1`, `sigma = 1`; the mass of the target is positive, so that with enough particles both kernels report numbers within
`0.1` of twice the posterior variance, but for a probability of at most `1 / 100`. -/
example (ys : Traj 2 1) (k : LgType) (hkk : k = .CSMC ∨ k = .IMH) : ∃ N0, ∀ N, N0 ≤ N → ∀ (init_key sample_key : Key) (t : Fin 2)
    (make : Traj 2 1 → KernelPair Ex 2 1), k.kernel_maker (N := N) (diagSvd 1) 1 "bootstrap" (fun key w i j c => killing key w i j c) forced true = .ok make →
    lg_measure init_key sample_key ys 1 (make ys) (k.shape_delta 1 2) 2000000
      (Set.indicator {e | 0.1 ≤ |e t - 2 * (spread (lgPosterior 1 ys) (meanAt (lgPosterior 1 ys) t) t 1).toReal|} 1) ≤ ENNReal.ofReal 0.01 := by
  classical
  have h := C104_limit (n := 1) (sigma := 1) one_pos ys k
  obtain ⟨N0, hN0⟩ := Filter.eventually_atTop.mp (ENNReal.tendsto_nhds_zero.mp h (ENNReal.ofReal (0.001 ^ 2)) (by norm_num))
  refine ⟨max N0 1, fun N hN ki ks t make hk => ?_⟩
  have h2 := C104_report (N := N) (n := 1) (d := 1) hkk one_pos (resampling := "killing") (last_step := "forced") rfl rfl hk (delta := 1)
    (le_of_max_le_right hN) ys (ε := 0.001) (by norm_num) (hN0 N (le_of_max_le_left hN)) (M := 2000000) (by norm_num) ki ks t (η := 0.086) (by norm_num)
  have e0 : (0.086 : ℝ) + 14 * (1 : ℕ) * 0.001 = 0.1 := by norm_num
  rw [e0] at h2
  refine le_trans (le_of_eq ?_) (h2.trans ?_)
  · rfl
  · have e : (48 * ((1 : ℕ) : ℝ≥0∞) ^ 2 / ((2000000 : ℕ) * ENNReal.ofReal (0.086 ^ 2)) + (2000000 : ℕ) * ENNReal.ofReal 3e-12) =
        ENNReal.ofReal (48 * 1 ^ 2 / (2000000 * 0.086 ^ 2) + 2000000 * 3e-12) := by
      rw [ENNReal.ofReal_add (by norm_num) (by norm_num), ENNReal.ofReal_div_of_pos (by norm_num), ENNReal.ofReal_mul (by norm_num),
        ENNReal.ofReal_mul (by norm_num), ENNReal.ofReal_mul (by norm_num)]
      norm_num
    rw [e]
    exact ENNReal.ofReal_le_ofReal (by norm_num)

end Verif.Props
