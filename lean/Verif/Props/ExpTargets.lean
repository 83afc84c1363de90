import Verif.Lemmas.Experiments

/-!
# C19, C55: weights and targets of the kernels of the experiments
-/

namespace Verif.Props
open Verif Verif.Model Verif.Spec Matrix MeasureTheory

variable {m : Type → Type} [RandM m] {N n d : ℕ}

/-! ## C19: bootstrap weights -/

/-- **C19** (`lgssm`): the weights of `get_csmc_kernel(style='bootstrap')`, as computed by `csmc.kernel`, are
the log-likelihoods of the observations. -/
theorem C19_lgssm (ys : Traj (n + 1) d) (sigma : ℝ) (xp xs : Fin (N + 1) → Vec d) (y : Vec d) (i : Fin (N + 1)) :
    let M : FK m (Vec d) (Vec d) (Vec d) N := lgFK ys sigma
    M.Gamma0 (xs i) - M.M0_logpdf xs i = lg_log_potential (xs i) (ys 0) ∧
      M.Gammat (xp i) (xs i) y - M.Mt_logpdf xp xs y i = lg_log_potential (xs i) y ∧
      lg_log_potential (xs i) y = normalLogpdf (xs i) 1 y :=
  ⟨add_sub_cancel_right _ _, add_sub_cancel_right _ _, lg_log_potential_eq _ _⟩

/-- **C19** (stochastic volatility). -/
theorem C19_sv (ys : Traj (n + 1) d) (D : SvDyn d) (xp xs : Fin (N + 1) → Vec d) (y : Vec d) (i : Fin (N + 1)) :
    let M : FK m (Vec d) (Vec d) (Vec d) N := svFK ys D
    M.Gamma0 (xs i) - M.M0_logpdf xs i = sv_log_potential (xs i) (ys 0) ∧
      M.Gammat (xp i) (xs i) y - M.Mt_logpdf xp xs y i = sv_log_potential (xs i) y ∧
      sv_log_potential (xs i) y = normalLogpdf 0 (diagonal fun j => Real.exp (xs i j)) y :=
  ⟨add_sub_cancel_right _ _, add_sub_cancel_right _ _, sv_log_potential_eq _ _⟩

/-- **C19** (`lgssm`): the proposals are drawn from the densities that the code subtracts. -/
theorem C19_lgssm_proper (ys : Traj (n + 1) d) {sigma : ℝ} (hs : 0 < sigma) :
    ProperFK (N := N) volume (lgFK ys sigma) where
  Gamma0_meas := by
    simp only [lgFK, lgM0_logpdf, sumNorm_eq hs]
    exact ((continuous_lg_log_potential _).add (continuous_normalLogpdf_comp _ continuous_const continuous_id)).measurable
  Gammat_meas y := by
    simp only [lgFK, lgMt_logpdf, sumNorm_eq hs]
    exact (((continuous_lg_log_potential _).comp continuous_snd).add
      (continuous_normalLogpdf_comp _ continuous_fst continuous_snd)).measurable
  init := ⟨normalLogpdf 0 (sigma ^ 2 • 1), 0, fun Xs i => by
      rw [add_zero]; exact sumNorm_eq hs _ _, fun key => by
    have h := samplesFrom_iso (k := N + 1) (d := d) hs (fun _ => 0) key
    simp only [zero_add] at h
    exact h⟩
  step y := ⟨fun x => normalLogpdf x (sigma ^ 2 • 1), 0, measurable_normalLogpdf (sigma ^ 2 • (1 : Mat d d)) measurable_fst measurable_snd,
    fun Ys Xs i => by rw [add_zero]; exact sumNorm_eq hs _ _,
    fun key => ⟨IsKer.bind (IsKer.normal2 _ _ _) (IsKer.pure (by fun_prop)), fun Ys =>
      samplesFrom_iso hs Ys key⟩⟩

/-- **C19** (stochastic volatility): the proposals are drawn from the densities that the code subtracts, which are only
evaluated up to a constant. -/
theorem C19_sv_proper (ys : Traj (n + 1) d) {D : SvDyn d} (hP : D.P0.PosDef) (hQ : D.Q.PosDef) :
    ProperFK (N := N) volume (svFK ys D) where
  Gamma0_meas := by
    simp only [svFK, svM0_logpdf, mvn_logpdf_invChol hP]
    exact ((continuous_sv_log_potential _).add
      (continuous_const.add (continuous_normalLogpdf_comp _ continuous_const continuous_id))).measurable
  Gammat_meas y := by
    simp only [svFK, svMt_logpdf, mvn_logpdf_invChol hQ]
    exact (((continuous_sv_log_potential _).comp continuous_snd).add
      (continuous_const.add (continuous_normalLogpdf_comp _ (by fun_prop) continuous_snd))).measurable
  init := ⟨normalLogpdf D.m0 D.P0, d / 2 * Real.log (2 * Real.pi) + Real.log D.P0.det / 2, fun Xs i => by
      rw [add_comm]; exact mvn_logpdf_invChol hP _ _, fun key => by
    have h := samplesFrom_normal (k := N + 1) (cholesky_det_pos hP).ne' (fun _ => D.m0) key
    rwa [(cholesky_spec hP).2] at h⟩
  step y := ⟨fun x => normalLogpdf (D.F *ᵥ x + D.b) D.Q, d / 2 * Real.log (2 * Real.pi) + Real.log D.Q.det / 2,
    measurable_normalLogpdf _ (by fun_prop) measurable_snd,
    fun Ys Xs i => by rw [add_comm]; exact mvn_logpdf_invChol hQ _ _,
    fun key => ⟨IsKer.bind (IsKer.normal2 _ _ _) (IsKer.pure (by fun_prop)), fun Ys => by
      have h := samplesFrom_normal (k := N + 1) (cholesky_det_pos hQ).ne' (fun i => D.F *ᵥ Ys i + D.b) key
      rw [(cholesky_spec hQ).2] at h
      simp only [add_right_comm _ D.b] at h
      exact h⟩⟩

example := C19_lgssm_proper (N := 25) (n := 9) (d := 2) (fun _ => ![1, -1]) one_pos
example := C19_sv_proper (N := 25) (n := 9) (d := 30) (D := get_dynamics 0 0.9 0.1 0.25 30) (fun _ _ => 1)
  (sv_P0_posDef 0 (by norm_num) (by norm_num) (by norm_num) (by norm_num) 30)
  (sv_Q_posDef 0 _ (by norm_num) (by norm_num) (by norm_num) 30)

/-! ## C55: targets -/

/-- **C55** (`lgssm`): the log-density given to MALA is the log-posterior. -/
theorem C55_lgssm_mala {sigma : ℝ} (hs : 0 < sigma) (ys x : Traj (n + 1) d) : lg_log_pdf x ys sigma = lgTarget sigma ys x := by
  rw [lgTarget, ← lg_log_likelihood_eq]
  refine congrArg₂ (· + ·) ?_ (Finset.sum_congr rfl fun t _ => ?_)
  · simp only [gaussPathLog, pathLogDensity, sumNorm_eq hs, one_mulVec, add_zero]
    rfl
  · rw [lg_log_potential, sumNorm, sumNorm]
    refine Finset.sum_congr rfl fun j _ => ?_
    simp only [norm_logpdf, if_true]
    ring

/-- **C55** (`lgssm`): the sum of `Gamma_0` and `Gamma_t` given to `csmc`, `mala_csmc` and `rw_csmc`. -/
theorem C55_lgssm_gamma {sigma : ℝ} (hs : 0 < sigma) (ys x : Traj (n + 1) d) :
    pathLogDensity (lgGamma_0 ys sigma) (fun t y x => lgGamma_t sigma y x (tailA ys t)) x = lgTarget sigma ys x ∧
      pathLogDensity (lgFK (m := m) (N := N) ys sigma).Gamma0
        (fun t y x => (lgFK (m := m) (N := N) ys sigma).Gammat y x (tailA ys t)) x = lgTarget sigma ys x := by
  have h : pathLogDensity (lgGamma_0 ys sigma) (fun t y x => lgGamma_t sigma y x (tailA ys t)) x =
      lgTarget sigma ys x := by
    rw [lgTarget, ← lg_log_likelihood_eq, lg_log_likelihood, gaussPathLog,
      ← pathLogDensity_add_obs _ _ (fun t x => lg_log_potential x (ys t))]
    unfold lgGamma_0 lgGamma_t
    simp only [sumNorm_eq hs, one_mulVec, add_zero, add_comm (lg_log_potential _ _)]
    rfl
  exact ⟨h, h⟩

/-- **C55** (`lgssm`): the models given to the kernels of `get_tp_csmc_kernel`. -/
theorem C55_lgssm_tp_csmc (sigma : ℝ) (stop : Bool) (ys x : Traj (n + 1) d) :
    gaussPath (lgGauss ys sigma stop) x = lgTarget sigma ys x ∧ linPath (lgLin ys sigma stop) x = lgTarget sigma ys x := by
  rw [lgTarget, ← lg_log_likelihood_eq, lg_log_likelihood, gaussPathLog,
    ← pathLogDensity_add_obs _ _ (fun t x => lg_log_potential x (ys t))]
  simp only [gaussPath, linPath, lgGauss, lgLin, one_mulVec, add_zero]
  exact ⟨rfl, rfl⟩

/-- **C55** (`lgssm`): prior and likelihood given to `get_tp_kernel` and `get_imh_kernel`. -/
theorem C55_lgssm_tp (sigma : ℝ) (ys x : Traj (n + 1) d) :
    let D := lgDyn sigma n d
    gaussPathLog D.m0 D.P0 D.Fs D.Qs D.bs x + lg_log_likelihood x ys = lgTarget sigma ys x := by
  simp only [lgTarget, lg_log_likelihood_eq, lgDyn]

/-- **C55** (stochastic volatility): the sum of `Gamma_0` and `Gamma_t` given to `csmc`, `mala_csmc` and `rw_csmc`. -/
theorem C55_sv_gamma {D : SvDyn d} (hP : D.P0.PosDef) (hQ : D.Q.PosDef) (ys : Traj (n + 1) d) :
    ∃ c : ℝ, ∀ x,
      pathLogDensity (svGamma_0 ys D) (fun t y x => svGamma_t D y x (tailA ys t)) x =
          svTarget D.m0 D.P0 D.F D.Q D.b ys x + c ∧
        pathLogDensity (svFK (m := m) (N := N) ys D).Gamma0
          (fun t y x => (svFK (m := m) (N := N) ys D).Gammat y x (tailA ys t)) x =
          svTarget D.m0 D.P0 D.F D.Q D.b ys x + c := by
  refine ⟨(d / 2 * Real.log (2 * Real.pi) + Real.log D.P0.det / 2) +
    ∑ _t : Fin n, (d / 2 * Real.log (2 * Real.pi) + Real.log D.Q.det / 2), fun x => ?_⟩
  have h : pathLogDensity (svGamma_0 ys D) (fun t y x => svGamma_t D y x (tailA ys t)) x =
      svTarget D.m0 D.P0 D.F D.Q D.b ys x + ((d / 2 * Real.log (2 * Real.pi) + Real.log D.P0.det / 2) +
        ∑ _t : Fin n, (d / 2 * Real.log (2 * Real.pi) + Real.log D.Q.det / 2)) := by
    rw [svTarget, ← sv_log_likelihood_eq, sv_log_likelihood, gaussPathLog,
      ← pathLogDensity_add_obs _ _ (fun t x => sv_log_potential x (ys t)),
      ← pathLogDensity_add_const _ _ (d / 2 * Real.log (2 * Real.pi) + Real.log D.P0.det / 2)
        (fun _ => d / 2 * Real.log (2 * Real.pi) + Real.log D.Q.det / 2)]
    unfold svGamma_0 svGamma_t
    simp only [mvn_logpdf_invChol hP, mvn_logpdf_invChol hQ, add_comm (sv_log_potential _ _), add_assoc]
    rfl
  exact ⟨h, h⟩

/-- **C55** (stochastic volatility): the models given to the kernels of `get_tp_csmc_kernel`. -/
theorem C55_sv_tp_csmc (D : SvDyn d) (stop : Bool) (ys x : Traj (n + 1) d) :
    gaussPath (svGauss ys D stop) x = svTarget D.m0 D.P0 D.F D.Q D.b ys x ∧
      linPath (svLin ys D stop) x = svTarget D.m0 D.P0 D.F D.Q D.b ys x := by
  rw [svTarget, ← sv_log_likelihood_eq, sv_log_likelihood, gaussPathLog,
    ← pathLogDensity_add_obs _ _ (fun t x => sv_log_potential x (ys t))]
  exact ⟨rfl, rfl⟩

/-- **C55** (stochastic volatility): prior and likelihood given to `get_tp_kernel`. -/
theorem C55_sv_tp (D : SvDyn d) (ys x : Traj (n + 1) d) :
    let E := svDyn D n
    gaussPathLog E.m0 E.P0 E.Fs E.Qs E.bs x + sv_log_likelihood x ys = svTarget D.m0 D.P0 D.F D.Q D.b ys x := by
  simp only [svTarget, sv_log_likelihood_eq, svDyn]

/-- **C55** (stochastic volatility, MALA): what `get_mala_kernel` targets is the model with `F` replaced by `diag(b) F`
and `b` by zero, since `einsum('...j,ij,i->...i', zs, F, b)` multiplies by `b`. -/
theorem C55_sv_mala_target {D : SvDyn d} (hP : D.P0.PosDef) (hQ : D.Q.PosDef) (ys : Traj (n + 1) d) :
    ∃ c : ℝ, ∀ x, svFullLogPdf ys D x = svTarget D.m0 D.P0 (diagonal D.b * D.F) D.Q 0 ys x + c := by
  refine ⟨(d / 2 * Real.log (2 * Real.pi) + Real.log D.P0.det / 2) +
    ∑ _t : Fin n, (d / 2 * Real.log (2 * Real.pi) + Real.log D.Q.det / 2), fun x => ?_⟩
  have hp : ∀ t : Fin n, (fun i => ∑ j, initA x t j * D.F i j * D.b i) = (diagonal D.b * D.F) *ᵥ x t.castSucc + 0 := by
    intro t
    ext i
    simp only [mulVec, dotProduct, diagonal_mul, Pi.add_apply, Pi.zero_apply, add_zero]
    exact Finset.sum_congr rfl fun j _ => by simp only [initA]; ring
  simp only [svFullLogPdf, sv_log_pdf, svTarget, gaussPathLog, pathLogDensity, mvn_logpdf_invChol hP,
    mvn_logpdf_invChol hQ, hp, sv_log_likelihood_eq, Finset.sum_add_distrib]
  simp only [tailA]
  ring

/-- **C55 is false** of the stochastic volatility experiment: at the value `NU = 0` used by `experiment.py` the
log-density given to MALA differs from the log-posterior by more than a constant, for all data, all dimensions and all
lengths `T ≥ 2`. -/
theorem C55_sv_mala_false {phi tau rho : ℝ} (hphi : phi ^ 2 < 1) (hphi0 : phi ≠ 0) (ht : 0 < tau) (h0 : 0 ≤ rho)
    (h1 : rho < 1) (hd : 0 < d) (hn : 0 < n) (ys : Traj (n + 1) d) :
    let D := get_dynamics 0 phi tau rho d
    ¬ ∃ c : ℝ, ∀ x, svFullLogPdf ys D x = svTarget D.m0 D.P0 D.F D.Q D.b ys x + c := by
  intro D ⟨c, hc⟩
  have hP : D.P0.PosDef := sv_P0_posDef 0 hphi ht h0 h1 d
  have hQ : D.Q.PosDef := sv_Q_posDef 0 phi ht h0 h1 d
  obtain ⟨c', hc'⟩ := C55_sv_mala_target hP hQ ys
  have hb : D.b = 0 := by
    show (fun _ => (0 : ℝ) * 1) + (phi • (1 : Mat d d)) *ᵥ (fun _ => (0 : ℝ) * 1) = 0
    rw [show (fun _ : Fin d => (0 : ℝ) * 1) = 0 from funext fun _ => zero_mul _, mulVec_zero, add_zero]
  have hF : D.F = phi • 1 := rfl
  have hdiff : ∀ x : Traj (n + 1) d, ∑ t : Fin n, normalLogpdf 0 D.Q (x t.succ) + c' =
      ∑ t : Fin n, normalLogpdf (phi • x t.castSucc) D.Q (x t.succ) + c := fun x => by
    have h := (hc' x).symm.trans (hc x)
    rw [hb, hF, show (diagonal 0 : Mat d d) = 0 from diagonal_zero, Matrix.zero_mul] at h
    simp only [svTarget, gaussPathLog, pathLogDensity, zero_mulVec, add_zero, smul_mulVec, one_mulVec] at h
    linarith
  obtain ⟨k, rfl⟩ : ∃ k, n = k + 1 := ⟨n - 1, by omega⟩
  have e0 := hdiff 0
  have e1 := hdiff (fun t => if t = 0 then fun _ => 1 else 0)
  simp only [Pi.zero_apply, smul_zero] at e0
  simp only [Fin.sum_univ_succ, Fin.castSucc_zero, ← Fin.succ_castSucc, Fin.succ_ne_zero, if_true, if_false, smul_zero]
    at e0 e1
  have hv : normalLogpdf 0 D.Q (0 : Vec d) = normalLogpdf (phi • fun _ => 1) D.Q (0 : Vec d) := by linarith
  have hpos := hQ.inv.dotProduct_mulVec_pos (x := phi • fun _ => (1 : ℝ)) fun h => by
    have := congrFun h ⟨0, hd⟩
    simp [hphi0] at this
  simp only [normalLogpdf, sub_self, zero_sub, mulVec_neg, mulVec_zero, dotProduct_neg, neg_dotProduct, neg_neg,
    dotProduct_zero] at hv
  rw [star_trivial] at hpos
  linarith

example (ys : Traj 128 30) := C55_sv_mala_false (phi := 0.9) (tau := 0.1) (rho := 0.25) (by norm_num) (by norm_num)
  (by norm_num) (by norm_num) (by norm_num) (by norm_num) (by norm_num) ys

end Verif.Props
