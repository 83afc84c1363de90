import Verif.Lemmas.ExpRuns
import Verif.Props.ExpInit
import Verif.Props.SmoothingRuns

/-!
# C63: `experiments/lgssm_scaling/experiment.py` averages independent jumps started from the posterior
-/

open scoped ENNReal
open MeasureTheory

namespace Verif.Props
open Verif Verif.Model Verif.Spec Matrix

variable {N n d M : ℕ}

/-- The posterior of the experiment. -/
noncomputable def lgPosterior (sigma : ℝ) (ys : Traj (n + 1) d) : Measure (Traj (n + 1) d) :=
  lawOf (trajVol (n + 1) d) (lgTarget sigma ys)

theorem lgTarget_mass {sigma : ℝ} (hs : 0 < sigma) (ys : Traj (n + 1) d) :
    ∫⁻ x, ENNReal.ofReal (Real.exp (lgTarget sigma ys x)) ∂trajVol (n + 1) d ≠ 0 ∧
      ∫⁻ x, ENNReal.ofReal (Real.exp (lgTarget sigma ys x)) ∂trajVol (n + 1) d ≠ ∞ := by
  obtain ⟨c, h⟩ := C60_lgssm_init (N := 1) hs ys []
  exact (lawOf_eq (h.norm 0) (measurable_lgTarget ys hs)).1

instance lgPosterior_prob {sigma : ℝ} [hs : Fact (0 < sigma)] (ys : Traj (n + 1) d) : IsProbabilityMeasure (lgPosterior sigma ys) :=
  lawOf_isProb (lgTarget_mass hs.out ys) (measurable_lgTarget ys hs.out)

/-! ## Independent jumps -/

theorem measurable_meanSqJump : Measurable fun p : Fin M → Traj (n + 1) d × Traj (n + 1) d => meanSqJump p := by
  refine measurable_pi_lambda _ fun t => ?_
  unfold meanSqJump sqJump
  fun_prop

theorem esjd_vals_eq {ε : ℝ≥0∞} {π : Measure (Traj (n + 1) d)} {K : KernelPair Ex (n + 1) d} {DELTA : StepSize (n + 1)}
    (hK : PairOK ε π K DELTA) (keys : Fin M → Key) (x : Fin M → Traj (n + 1) d) :
    (vmapM (fun p : Key × K.S => lg_esjd K DELTA p.1 p.2) (fun i => (keys i, K.init (x i))) : Ex _) =
      vmapM (fun p : Key × Traj (n + 1) d => jumpStep K DELTA p.1 p.2) (fun i => (keys i, x i)) >>= fun x' =>
        pure fun i => sqJump (x i, x' i) := by
  have h1 : (vmapM (fun p : Key × K.S => lg_esjd K DELTA p.1 p.2) (fun i => (keys i, K.init (x i))) : Ex _) =
      vmapM (fun p : Key × Traj (n + 1) d => (jumpStep K DELTA p.1 p.2 >>= fun x' => pure (sqJump (p.2, x')) : Ex (Fin (n + 1) → ℝ)))
        (fun i => (keys i, x i)) := by
    refine vmapM_congr fun i => ?_
    funext f
    show K.kernel (keys i) (K.init (x i)) DELTA (fun s => f fun t => ∑ j, (K.xs (K.init (x i)) t j - K.xs s t j) ^ 2) =
      K.kernel (keys i) (K.init (x i)) DELTA (fun s => f fun t => ∑ j, (x i t j - K.xs s t j) ^ 2)
    rw [hK.xs_init]
  exact h1.trans (vmapM_map (m := Ex) (fun p : Key × Traj (n + 1) d => jumpStep K DELTA p.1 p.2)
    (fun p x' => sqJump (p.2, x')) fun i => (keys i, x i))

/-- **C63**: for every kernel whose step from `init x` keeps the posterior up to `ε`, the array computed by
`one_experiment` (given the data) is the mean of `M` independent squared jumps, all with the same law: a draw from the
posterior and one step of the kernel from it. The draws have the posterior as law, the positions after the step a law
within `ε` of it. -/
theorem C63_replicates {sigma : ℝ} (hs : 0 < sigma) (ys : Traj (n + 1) d) {ε : ℝ≥0∞} {K : KernelPair Ex (n + 1) d}
    {DELTA : StepSize (n + 1)} (hK : PairOK ε (lgPosterior sigma ys) K DELTA) (hM : 0 < M) (init_key sample_key : Key) :
    ∃ μ : Measure (Traj (n + 1) d × Traj (n + 1) d), IsProbabilityMeasure μ ∧
      (∀ key, IsJump (lgPosterior sigma ys) (jumpStep K DELTA key) μ) ∧
      (∀ f, Measurable f → ∫⁻ p, f p.1 ∂μ = ∫⁻ x, f x ∂lgPosterior sigma ys) ∧
      TVLe ε (fun f => ∫⁻ p, f p.2 ∂μ) (fun f => ∫⁻ x, f x ∂lgPosterior sigma ys) ∧
      ∀ F, Measurable F → lg_measure init_key sample_key ys sigma K DELTA M F =
        ∫⁻ p, F (meanSqJump p) ∂(Measure.pi fun _ : Fin M => μ) := by
  have : Fact (0 < sigma) := ⟨hs⟩
  obtain ⟨μ, hp, hμ⟩ := exists_isJump (π := lgPosterior sigma ys) (hK.ker []) (hK.mass [])
  have hμ' : ∀ key, IsJump (lgPosterior sigma ys) (jumpStep K DELTA key) μ := fun key f hf =>
    (hμ f hf).trans (lintegral_congr fun x => hK.key_free [] key x (fun x' => f (x, x')) (by fun_prop))
  refine ⟨μ, hp, hμ', fun f hf => ?_, fun f hf hf1 => ?_, fun F hF => ?_⟩
  · rw [hμ (fun p => f p.1) (by fun_prop)]
    refine lintegral_congr fun x => ?_
    have h := (hK.ker []).const_fun x (f x)
    rw [hK.mass, mul_one] at h
    exact h
  · have h := hK.near [] f hf hf1
    have e := hμ (fun p => f p.2) (by fun_prop)
    exact ⟨e.le.trans h.1, h.2.trans (add_le_add_left e.ge _)⟩
  · obtain ⟨c, hc⟩ := C60_lgssm_init (N := M) hs ys init_key
    have hpi : lgPosterior sigma ys = (trajVol (n + 1) d).withDensity fun x => ENNReal.ofReal (Real.exp (lgTarget sigma ys x - c)) :=
      (lawOf_eq (hc.norm ⟨0, hM⟩) (measurable_lgTarget ys hs)).2
    have hk := vmapM_ker (g := fun p : Key × Traj (n + 1) d => jumpStep K DELTA p.1 p.2)
      (inp := fun i x => (splitKey sample_key M i, x)) fun i => hK.ker _
    have hm : Measurable fun q : (Fin M → Traj (n + 1) d) × (Fin M → Traj (n + 1) d) => F (meanSqJump fun i => (q.1 i, q.2 i)) :=
      hF.comp (measurable_meanSqJump.comp (by fun_prop))
    have e1 : lg_measure init_key sample_key ys sigma K DELTA M F = (lg_init init_key ys sigma M : Ex _) (fun x =>
        vmapM (fun p : Key × Traj (n + 1) d => jumpStep K DELTA p.1 p.2) (fun i => (splitKey sample_key M i, x i))
          fun x' => F (meanSqJump fun i => (x i, x' i))) :=
      Ex.congr_fun' (lg_init init_key ys sigma M) fun x => congrFun (esjd_vals_eq hK _ x) fun e => F fun t => (∑ i, e i t) / M
    rw [e1, hc.law _ (hk.measurable (f := fun x x' => F (meanSqJump fun i => (x i, x' i))) hm), ← hpi]
    exact vmapM_pairs (g := fun p : Key × Traj (n + 1) d => jumpStep K DELTA p.1 p.2)
      (inp := fun i x => (splitKey sample_key M i, x)) (fun i => hK.ker _) (μ := fun _ => μ) (fun i => hμ' _)
      (F := fun p => F (meanSqJump p)) (hF.comp measurable_meanSqJump)

/-! ## Mean and variance -/

theorem measurable_sqJump (t : Fin (n + 1)) : Measurable fun p : Traj (n + 1) d × Traj (n + 1) d => sqJump p t := by
  unfold sqJump
  fun_prop

theorem sqJump_nonneg (p : Traj (n + 1) d × Traj (n + 1) d) (t : Fin (n + 1)) : 0 ≤ sqJump p t :=
  Finset.sum_nonneg fun _ _ => sq_nonneg _

theorem ofReal_meanSqJump (hM : 0 < M) (p : Fin M → Traj (n + 1) d × Traj (n + 1) d) (t : Fin (n + 1)) :
    (M : ℝ≥0∞) * ENNReal.ofReal (meanSqJump p t) = ∑ i, ENNReal.ofReal (sqJump (p i) t) := by
  have hM' : (M : ℝ) ≠ 0 := by positivity
  rw [← ENNReal.ofReal_sum_of_nonneg fun i _ => sqJump_nonneg _ _, ← ENNReal.ofReal_natCast, ← ENNReal.ofReal_mul (by positivity)]
  congr 1
  rw [meanSqJump, mul_div_cancel₀ _ hM']

/-- **C63** (mean and variance): entry `t` of the result has the expected squared jump at time `t` as mean, and its second
moment is that of a mean of `M` uncorrelated terms. -/
theorem C63_moments {sigma : ℝ} {ys : Traj (n + 1) d} {K : KernelPair Ex (n + 1) d} {DELTA : StepSize (n + 1)} (hM : 0 < M)
    {init_key sample_key : Key} {μ : Measure (Traj (n + 1) d × Traj (n + 1) d)} [IsProbabilityMeasure μ]
    (h : ∀ F, Measurable F → lg_measure init_key sample_key ys sigma K DELTA M F =
        ∫⁻ p, F (meanSqJump p) ∂(Measure.pi fun _ : Fin M => μ)) (t : Fin (n + 1)) :
    let z := fun p : Traj (n + 1) d × Traj (n + 1) d => ENNReal.ofReal (sqJump p t)
    lg_measure init_key sample_key ys sigma K DELTA M (fun e => ENNReal.ofReal (e t)) = ∫⁻ p, z p ∂μ ∧
    (M : ℝ≥0∞) ^ 2 * lg_measure init_key sample_key ys sigma K DELTA M (fun e => ENNReal.ofReal (e t) ^ 2) =
      M * ∫⁻ p, z p ^ 2 ∂μ + (M * (M - 1) : ℕ) * (∫⁻ p, z p ∂μ) ^ 2 := by
  intro z
  have hz : Measurable z := (measurable_sqJump t).ennreal_ofReal
  have hM0 : (M : ℝ≥0∞) ≠ 0 := by simp [hM.ne']
  have hm : Measurable fun p : Fin M → Traj (n + 1) d × Traj (n + 1) d => ENNReal.ofReal (meanSqJump p t) :=
    ((measurable_pi_apply t).comp measurable_meanSqJump).ennreal_ofReal
  constructor
  · rw [h _ (by fun_prop)]
    refine (ENNReal.mul_right_inj hM0 (ENNReal.natCast_ne_top M)).mp ?_
    rw [← lintegral_const_mul _ hm]
    simp only [ofReal_meanSqJump hM]
    exact lintegral_pi_sum μ hz
  · rw [h _ (by fun_prop), ← lintegral_const_mul _ (hm.pow_const 2)]
    simp only [← mul_pow, ofReal_meanSqJump hM]
    exact lintegral_pi_sum_sq μ hz

/-! ## The kernels that the script can select -/

/-- The error of one step: zero for the conditional SMC kernels with `barker_move`, that of `force_move` otherwise (the
multi-try kernels always use `force_move`). -/
noncomputable def lgErr (k : LgType) (last_step : String) : ℝ≥0∞ :=
  if k = .TP ∨ k = .MALA ∨ k = .RW ∨ k = .IMH then forceErr else if last_step = "barker" then 0 else forceErr

theorem sel_ok {resampling last_step : String} {R : Resampling Ex N} {mv : AncestorMove Ex N}
    (hR : sel_resampling resampling = .ok R) (hm : sel_last_step last_step = .ok mv) :
    SelOK (if last_step = "barker" then 0 else forceErr) R mv := by
  have h1 : GoodResampling R ∧ (∀ key, RotResampling (fun w i j => R key w i j true)) ∧ ∀ key key', R key = R key' := by
    unfold sel_resampling at hR
    split_ifs at hR <;> cases hR
    · exact ⟨goodResampling.1, fun key => killing_rot key, fun _ _ => rfl⟩
    · exact ⟨goodResampling.2, fun key => multinomial_rot key, fun _ _ => rfl⟩
  have h2 : (∀ key, MoveKer (moveIndex mv key)) ∧ (∀ key, MoveMass (moveIndex mv key)) ∧ (∀ key, RotMove (moveIndex mv key)) ∧
      (∀ key key', mv key = mv key') ∧ ((GoodMove mv ∧ (if last_step = "barker" then 0 else forceErr) = 0) ∨
        (mv = forced ∧ (if last_step = "barker" then 0 else forceErr) = forceErr)) := by
    unfold sel_last_step at hm
    split_ifs at hm with hf hb <;> cases hm
    · refine ⟨fun key => force_moveKer key, fun key w hw k => force_mass key hw k, fun key => force_rot key, fun _ _ => rfl,
        Or.inr ⟨rfl, if_neg ?_⟩⟩
      rw [hf]
      decide
    · exact ⟨fun key => (barker_moveInvariant key).ker, fun key w hw k => barker_mass key hw k, fun key => barker_rot key,
        fun _ _ => rfl, Or.inl ⟨goodMove, if_pos hb⟩⟩
  exact ⟨h1.1, h1.2.1, h1.2.2, h2.1, h2.2.1, h2.2.2.1, h2.2.2.2.1, h2.2.2.2.2⟩

section pairs
variable {sigma : ℝ} (hs : 0 < sigma) (ys : Traj (n + 1) d)
include hs

theorem lg_tp_pair {make : Traj (n + 1) d → KernelPair Ex (n + 1) d} (h : lg_get_tp_kernel sigma N = .ok make) {delta : ℝ}
    (hd : 0 < delta) : PairOK forceErr (lgPosterior sigma ys) (make ys) (.scalar delta) := by
  cases h
  have hl := measurable_lg_log_likelihood ys
  have hP : (lgDyn sigma n d).P0.PosDef := posDef_smul_one (pow_pos hs 2)
  have hQ : ∀ t, ((lgDyn sigma n d).Qs t).PosDef := fun _ => posDef_smul_one (pow_pos hs 2)
  refine statePair_ok' (S := VGState (n + 1) d) (xs := fun s => s.1)
    (init := tp_init (fun xs => lg_log_likelihood xs ys) (jaxGrad2 fun xs => lg_log_likelihood xs ys))
    (kern := fun key s delta => do
      let r ← lg_tp_kernel ys sigma N key s delta.num
      pure r.1) (fun _ => rfl) measurable_fst ?_
    (fun key => tp_step_ker hP hQ hd hl (measurable_jaxGrad2 _) key N)
    (fun key s => tp_step_mass hP hQ hd (fun xs => lg_log_likelihood xs ys) (jaxGrad2 fun xs => lg_log_likelihood xs ys) key N s) (fun _ _ _ => rfl) (measurable_lgTarget ys hs) (lgTarget_mass hs ys)
    fun key => C44_lgssm_tp ys hs hd key N
  exact measurable_id.prodMk (hl.prodMk (measurable_jaxGrad2 _))

theorem lg_imh_pair {make : Traj (n + 1) d → KernelPair Ex (n + 1) d} (h : lg_get_imh_kernel sigma N = .ok make) {delta : ℝ} :
    PairOK forceErr (lgPosterior sigma ys) (make ys) (.scalar delta) := by
  cases h
  have hl := measurable_lg_log_likelihood ys
  have hP : (lgDyn sigma n d).P0.PosDef := posDef_smul_one (pow_pos hs 2)
  have hQ : ∀ t, ((lgDyn sigma n d).Qs t).PosDef := fun _ => posDef_smul_one (pow_pos hs 2)
  refine statePair_ok' (S := Traj (n + 1) d × ℝ) (xs := Prod.fst) (init := imh_init fun xs => lg_log_likelihood xs ys)
    (kern := fun key s _ => do
      let r ← lg_imh_kernel ys sigma N key s
      pure r.1) (fun _ => rfl) measurable_fst ?_
    (fun key => imh_step_ker hP hQ hl key N)
    (fun key s => imh_step_mass hP hQ (fun xs => lg_log_likelihood xs ys) key N s) (fun _ _ _ => rfl) (measurable_lgTarget ys hs) (lgTarget_mass hs ys)
    fun key => C44_lgssm_imh ys hs key N
  exact measurable_id.prodMk hl

theorem lg_mala_pair {make : Traj (n + 1) d → KernelPair Ex (n + 1) d} {style : String} {stop : Bool}
    (h : lg_get_mala_kernel sigma N style stop = .ok make) {delta : ℝ} (hd : 0 < delta) :
    PairOK forceErr (lgPosterior sigma ys) (make ys) (.scalar delta) := by
  have e : lgTarget sigma ys = fun xs => lg_log_pdf xs ys sigma := funext fun x => (C55_lgssm_mala hs ys x).symm
  have hl : Measurable fun xs => lg_log_pdf xs ys sigma := e ▸ measurable_lgTarget ys hs
  have hg : Measurable fun xs => if stop then (0 : Traj (n + 1) d) else jaxGrad2 (fun xs => lg_log_pdf xs ys sigma) xs := by
    cases stop
    · exact measurable_jaxGrad2 _
    · exact measurable_const
  have main : ∀ auxiliary, PairOK forceErr (lgPosterior sigma ys) ⟨VGState (n + 1) d, fun s => s.1, fun key s delta => do
        let r ← lg_mala_kernel ys sigma N auxiliary stop key s delta.num
        pure r.1, tp_init (fun xs => lg_log_pdf xs ys sigma)
          (fun xs => if stop then 0 else jaxGrad2 (fun xs => lg_log_pdf xs ys sigma) xs)⟩ (.scalar delta) := by
    intro auxiliary
    refine statePair_ok' (S := VGState (n + 1) d) (xs := fun s => s.1) (init := tp_init (fun xs => lg_log_pdf xs ys sigma)
          (fun xs => if stop then 0 else jaxGrad2 (fun xs => lg_log_pdf xs ys sigma) xs)) (kern := fun key s delta => do
        let r ← lg_mala_kernel ys sigma N auxiliary stop key s delta.num
        pure r.1)
      (fun _ => rfl) measurable_fst (measurable_id.prodMk (hl.prodMk hg))
      (fun key => mala_step_ker hl hg key delta N auxiliary)
      (fun key s => mala_step_mass key s delta (fun xs => lg_log_pdf xs ys sigma)
        (fun xs => if stop then 0 else jaxGrad2 (fun xs => lg_log_pdf xs ys sigma) xs) N auxiliary)
      (fun _ _ _ => rfl) (measurable_lgTarget ys hs) (lgTarget_mass hs ys) fun key => C44_lgssm_mala ys hs hd auxiliary stop key N
  unfold lg_get_mala_kernel at h
  dsimp only at h
  by_cases h1 : style = "marginal"
  · rw [if_pos h1] at h
    cases h
    exact main false
  · by_cases h2 : style = "auxiliary"
    · rw [if_neg h1, if_pos h2] at h
      cases h
      exact main true
    · rw [if_neg h1, if_neg h2] at h
      cases h

end pairs

/-- **C63** (every kernel of the script but the smoothing ones): the pair `kernel, init` selected by the command line
keeps the posterior up to `lgErr`, one step from `init x`. For `TP_CSMC` and `ADAPTED_CSMC`, `svd` has to return a
singular value decomposition of `σ² I` and the proposal variance has to be above the floor of the code. -/
theorem C63_makers {svd : Mat d d → SvdOut d} {k : LgType} {sigma : ℝ} (hs : 0 < sigma) {style resampling last_step : String}
    {R : Resampling Ex N} {mv : AncestorMove Ex N} (hR : sel_resampling resampling = .ok R)
    (hm : sel_last_step last_step = .ok mv) {backward : Bool} {make : Traj (n + 1) d → KernelPair Ex (n + 1) d}
    (hk : k.kernel_maker svd sigma style R mv backward = .ok make) (hstyle : style ≠ "smoothing") {delta : ℝ} (hd : 0 < delta)
    (hsvd : k = .TP_CSMC ∨ k = .ADAPTED_CSMC →
      IsSvd (sigma ^ 2 • 1) (svd (sigma ^ 2 • 1)).U (svd (sigma ^ 2 • 1)).Gamma (svd (sigma ^ 2 • 1)).U_t ∧
      1e-15 ≤ sigma ^ 2 * (delta / 2) / (sigma ^ 2 + delta / 2)) (ys : Traj (n + 1) d) :
    PairOK (lgErr k last_step) (lgPosterior sigma ys) (make ys) (k.shape_delta delta (n + 1)) := by
  have hS := sel_ok hR hm
  have hl := measurable_lgTarget ys hs
  have hZ := lgTarget_mass hs ys
  have hd' : ∀ _ : Fin (n + 1), 0 < delta * 1 := fun _ => by rwa [mul_one]
  cases k with
  | TP => exact lg_tp_pair hs ys hk hd
  | IMH => exact lg_imh_pair hs ys hk
  | MALA => exact lg_mala_pair hs ys hk hd
  | RW => exact lg_mala_pair hs ys hk hd
  | CSMC =>
    simp only [LgType.kernel_maker, lg_get_csmc_kernel] at hk
    split_ifs at hk
    cases hk
    exact (lg_csmc_ok ys hS hs backward).pair hl hZ
  | RW_CSMC =>
    cases hk
    exact (lg_rw_ok ys hS hs backward hd').pair (DELTA := .perStep fun _ => delta * 1) hl hZ
  | MALA_CSMC =>
    simp only [LgType.kernel_maker, lg_get_mala_csmc_kernel] at hk
    split_ifs at hk <;> cases hk
    · exact (lg_al_ok ys hS hs backward hd').pair (DELTA := .perStep fun _ => delta * 1) hl hZ
    · exact (lg_l_ok ys hS hs backward hd').pair (DELTA := .perStep fun _ => delta * 1) hl hZ
  | TP_CSMC =>
    obtain ⟨hsvd, hfl⟩ := hsvd (Or.inl rfl)
    have hfl' : ∀ _ : Fin (n + 1), 1e-15 ≤ sigma ^ 2 * (delta * 1 / 2) / (sigma ^ 2 + delta * 1 / 2) := fun _ => by rwa [mul_one]
    simp only [LgType.kernel_maker, lg_get_tp_csmc_kernel] at hk
    split_ifs at hk <;> cases hk
    · exact (lg_tp_ok ys hS hs backward hd' false hsvd hfl').pair (DELTA := .perStep fun _ => delta * 1) hl hZ
    · exact (lg_atp_ok ys hS hs backward hd' false hsvd hfl').pair (DELTA := .perStep fun _ => delta * 1) hl hZ
    · exact (lg_twisted_ok ys hS hs backward hd' false).pair (DELTA := .perStep fun _ => delta * 1) hl hZ
  | ADAPTED_CSMC =>
    obtain ⟨hsvd, hfl⟩ := hsvd (Or.inr rfl)
    have hfl' : ∀ _ : Fin (n + 1), 1e-15 ≤ sigma ^ 2 * (delta * 1 / 2) / (sigma ^ 2 + delta * 1 / 2) := fun _ => by rwa [mul_one]
    simp only [LgType.kernel_maker, lg_get_tp_csmc_kernel] at hk
    split_ifs at hk <;> cases hk
    · exact (lg_tp_ok ys hS hs backward hd' true hsvd hfl').pair (DELTA := .perStep fun _ => delta * 1) hl hZ
    · exact (lg_atp_ok ys hS hs backward hd' true hsvd hfl').pair (DELTA := .perStep fun _ => delta * 1) hl hZ
    · exact (lg_twisted_ok ys hS hs backward hd' true).pair (DELTA := .perStep fun _ => delta * 1) hl hZ

/-! ## Parameters and errors -/

/-- **C63** (`SIGMA`): positive, with square `10 ** log_var`. -/
theorem C63_sigma (log_var : ℝ) : 0 < lg_sigma log_var ∧ lg_sigma log_var ^ 2 = 10 ^ log_var := by
  refine ⟨Real.rpow_pos_of_pos (by norm_num) _, ?_⟩
  rw [lg_sigma, ← Real.rpow_natCast, ← Real.rpow_mul (by norm_num)]
  congr 1
  push_cast
  ring

/-- **C63** (`DELTA`): positive for a positive `delta`; scaled by the power of the dimension, of the length or of their
product that the command line asks for; with scale zero it is `delta`. -/
theorem C63_delta {delta : ℝ} (hd : 0 < delta) (scale : ℝ) {D T : ℕ} (hD : 0 < D) (hT : 0 < T) (arg : String) :
    0 < lg_delta arg delta scale D T ∧
    lg_delta "D" delta scale D T * (D : ℝ) ^ scale = delta ∧
    lg_delta "T" delta scale D T * (T : ℝ) ^ scale = delta ∧
    lg_delta "DT" delta scale D T * ((D : ℝ) ^ scale * (T : ℝ) ^ scale) = delta ∧
    lg_delta "TD" delta scale D T = lg_delta "DT" delta scale D T ∧
    lg_delta arg delta 0 D T = delta := by
  have hD' : (0 : ℝ) < D := by exact_mod_cast hD
  have hT' : (0 : ℝ) < T := by exact_mod_cast hT
  have hDT : (0 : ℝ) < ((D * T : ℕ) : ℝ) := by exact_mod_cast Nat.mul_pos hD hT
  refine ⟨?_, ?_, ?_, ?_, ?_, ?_⟩
  · unfold lg_delta
    split_ifs <;> positivity
  · rw [lg_delta, if_pos rfl, div_mul_cancel₀ _ (Real.rpow_pos_of_pos hD' _).ne']
  · rw [lg_delta, if_neg (by decide), if_pos rfl, div_mul_cancel₀ _ (Real.rpow_pos_of_pos hT' _).ne']
  · rw [lg_delta, if_neg (by decide), if_neg (by decide), if_pos (Or.inl rfl), ← Real.mul_rpow hD'.le hT'.le, ← Nat.cast_mul,
      div_mul_cancel₀ _ (Real.rpow_pos_of_pos hDT _).ne']
  · rw [lg_delta, lg_delta, if_neg (by decide), if_neg (by decide), if_pos (Or.inr rfl), if_neg (by decide), if_neg (by decide),
      if_pos (Or.inl rfl)]
  · unfold lg_delta
    split_ifs <;> simp

end Verif.Props
