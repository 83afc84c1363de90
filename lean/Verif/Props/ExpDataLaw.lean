import Verif.Lemmas.SimulateExp
import Verif.Props.Ergodic

/-!
# The data of the experiments come from the model whose posterior is sampled (C69)
-/

open scoped ENNReal
open MeasureTheory Finset

namespace Verif.Props
open Verif Verif.Model Verif.Spec Matrix

variable {N n d : ℕ}

/-! ## Joint law of states and observations -/

/-- **C69** (`experiments/stochastic_volatility/model.py:get_data`): states and observations have the density whose logarithm, as a
function of the states, the kernels take as target. -/
theorem C69_sv_data (key : Key) (nu : ℝ) {phi tau rho : ℝ} (hphi : phi ^ 2 < 1) (ht : 0 < tau) (h0 : 0 ≤ rho) (h1 : rho < 1)
    {f : Traj (n + 1) d → Traj (n + 1) d → ℝ≥0∞} (hf : Measurable (Function.uncurry f)) :
    let D := get_dynamics nu phi tau rho d
    (sv_get_data key nu phi tau rho d (n + 1) : Ex _) (fun data => f data.xs data.ys) =
      ∫⁻ xs, ∫⁻ ys, ENNReal.ofReal (Real.exp (svTarget D.m0 D.P0 D.F D.Q D.b ys xs)) * f xs ys ∂trajVol (n + 1) d ∂trajVol (n + 1) d := by
  intro D
  have hP : D.P0.PosDef := sv_P0_posDef nu hphi ht h0 h1 d
  have hQ : D.Q.PosDef := sv_Q_posDef nu phi ht h0 h1 d
  have hΓ := measurable_trans D.F D.b D.Q
  have hbody : ∀ x i f, Measurable f → svDataBody (m := Ex) D (cholesky D.Q) x i f = ∫⁻ y, ENNReal.ofReal (Real.exp (sv_log_potential x y)) *
      ∫⁻ x', ENNReal.ofReal (Real.exp (normalLogpdf (D.F *ᵥ x + D.b) D.Q x')) * f (x', (x, y)) := by
    intro x i f hf
    have e : ∀ y, ∫⁻ z, f (D.F *ᵥ x + D.b + cholesky D.Q *ᵥ z, (x, y)) ∂gaussM d =
        ∫⁻ x', ENNReal.ofReal (Real.exp (normalLogpdf (D.F *ᵥ x + D.b) D.Q x')) * f (x', (x, y)) := fun y => by
      have h := gauss_draw (cholesky_det_pos hQ).ne' (D.F *ᵥ x + D.b) (F := fun x' => f (x', (x, y))) (by fun_prop)
      rwa [(cholesky_spec hQ).2] at h
    have hm : Measurable fun y => ∫⁻ x', ENNReal.ofReal (Real.exp (normalLogpdf (D.F *ᵥ x + D.b) D.Q x')) * f (x', (x, y)) := by
      refine Measurable.lintegral_prod_right' (f := fun p : Vec d × Vec d =>
        ENNReal.ofReal (Real.exp (normalLogpdf (D.F *ᵥ x + D.b) D.Q p.2)) * f (p.2, (x, p.1))) ?_
      have h2 : Measurable fun p : Vec d × Vec d => normalLogpdf (D.F *ᵥ x + D.b) D.Q p.2 :=
        hΓ.comp (f := fun p : Vec d × Vec d => (x, p.2)) (by fun_prop)
      fun_prop
    refine Eq.trans ?_ (sv_obs_draw x hm)
    exact lintegral_congr fun y => e _
  have hinit : ∀ f, Measurable f → ((normal1 (splitKey key 2 0) d : Ex (Vec d)) >>= fun e => pure (D.m0 + cholesky D.P0 *ᵥ e)) f =
      ∫⁻ x, ENNReal.ofReal (Real.exp (normalLogpdf D.m0 D.P0 x)) * f x := fun f hf => by
    have h := gauss_draw (cholesky_det_pos hP).ne' D.m0 hf
    rwa [(cholesky_spec hP).2] at h
  have h := simulate_path (lam := (volume : Measure (Vec d))) (mu := (volume : Measure (Vec d)))
    (continuous_normalLogpdf_comp D.P0 continuous_const continuous_id).measurable hΓ measurable_sv_pot
    (fun x => gauss_mass hQ _) hbody hinit (splitKey (splitKey key 2 1) (n + 1)) hf
  refine h.trans ?_
  simp only [svTarget, ← sv_log_likelihood_eq, sv_log_likelihood, gaussPathLog, id]

/-- **C69** (`experiments/lgssm_scaling/model.py:get_data`), the draws being independent (the code uses one key for both: C53). -/
theorem C69_lgssm_data (key : Key) {sigma : ℝ} (hs : 0 < sigma) {f : Traj (n + 1) d → Traj (n + 1) d → ℝ≥0∞}
    (hf : Measurable (Function.uncurry f)) :
    (lg_get_data key sigma d (n + 1) : Ex _) (fun data => f data.1 data.2) =
      ∫⁻ xs, ∫⁻ ys, ENNReal.ofReal (Real.exp (lgTarget sigma ys xs)) * f xs ys ∂trajVol (n + 1) d ∂trajVol (n + 1) d := by
  have hp : IsProbabilityMeasure (gaussM d) := by unfold gaussM; infer_instance
  have hb : Measurable fun p : Vec d × (Vec d × Vec d) => lgDataBody sigma p.1 p.2 := by
    simp only [lgDataBody]
    fun_prop
  have hF : Measurable fun r : Vec d × (Fin (n + 1) → Vec d × Vec d) => f (fun t => (r.2 t).1) fun t => (r.2 t).2 :=
    hf.comp (f := fun r : Vec d × (Fin (n + 1) → Vec d × Vec d) => (fun t => (r.2 t).1, fun t => (r.2 t).2)) (by fun_prop)
  have hΓ : Measurable (Function.uncurry fun x x' : Vec d => normalLogpdf x (sigma ^ 2 • 1) x') :=
    (continuous_normalLogpdf_comp _ continuous_fst continuous_snd).measurable
  have hg : Measurable (Function.uncurry fun x y : Vec d => normalLogpdf x (1 : Mat d d) y) :=
    (continuous_normalLogpdf_comp _ continuous_fst continuous_snd).measurable
  have h1 : (lg_get_data key sigma d (n + 1) : Ex _) (fun data => f data.1 data.2) =
      ((normal1 (splitKey key 2 0) d : Ex (Vec d)) >>= fun e => pure (sigma • e)) fun x0 =>
        scanM (m := Ex) (fun c (_ : Unit) f => ∫⁻ b, ∫⁻ a, f (lgDataBody sigma c (a, b)) ∂gaussM d ∂gaussM d) x0 (fun _ : Fin (n + 1) => ())
          (fun r => f (fun t => (r.2 t).1) fun t => (r.2 t).2) := by
    refine Ex.congr_fun' (normal1 (splitKey key 2 0) d : Ex (Vec d)) fun e => ?_
    refine Eq.trans ?_ (noise_scan hb (sigma • e) (fun _ => ()) hF)
    have hm : Measurable fun p : (Fin (n + 1) → Vec d) × (Fin (n + 1) → Vec d) =>
        (fun r : Vec d × (Fin (n + 1) → Vec d × Vec d) => f (fun t => (r.2 t).1) fun t => (r.2 t).2)
          (scan (lgDataBody sigma) (sigma • e) fun t => (p.1 t, p.2 t)) :=
      hF.comp (measurable_scan hb measurable_const (by fun_prop))
    have h2 := lintegral_pi_cons (M := 1) (fun _ => Measure.pi fun _ : Fin (n + 1) => gaussM d) (fun eps =>
        (fun r : Vec d × (Fin (n + 1) → Vec d × Vec d) => f (fun t => (r.2 t).1) fun t => (r.2 t).2)
          (scan (lgDataBody sigma) (sigma • e) fun t => (eps 0 t, eps 1 t)))
        (hm.comp (f := fun eps : Fin 2 → Fin (n + 1) → Vec d => (eps 0, eps 1)) (by fun_prop))
    refine h2.trans (lintegral_congr fun a => ?_)
    refine (lintegral_pi_cons (M := 0) (fun _ => Measure.pi fun _ : Fin (n + 1) => gaussM d) (fun eps =>
        (fun r : Vec d × (Fin (n + 1) → Vec d × Vec d) => f (fun t => (r.2 t).1) fun t => (r.2 t).2)
          (scan (lgDataBody sigma) (sigma • e) fun t => (a t, eps 0 t)))
        (hm.comp (f := fun eps : Fin 1 → Fin (n + 1) → Vec d => (a, eps 0)) (by fun_prop))).trans (lintegral_congr fun b => ?_)
    rw [Measure.pi_of_empty _ Fin.elim0, lintegral_dirac]
    rfl
  have hbody : ∀ x (i : Unit) f, Measurable f →
      (fun c (_ : Unit) f => ∫⁻ b, ∫⁻ a, f (lgDataBody sigma c (a, b)) ∂gaussM d ∂gaussM d : Vec d → Unit → Ex (Vec d × (Vec d × Vec d))) x i f =
      ∫⁻ y, ENNReal.ofReal (Real.exp (normalLogpdf x 1 y)) *
        ∫⁻ x', ENNReal.ofReal (Real.exp (normalLogpdf x (sigma ^ 2 • 1) x')) * f (x', (x, y)) := by
    intro x _ f hf
    have e : ∀ y, ∫⁻ z, f (x + sigma • z, (x, y)) ∂gaussM d =
        ∫⁻ x', ENNReal.ofReal (Real.exp (normalLogpdf x (sigma ^ 2 • 1) x')) * f (x', (x, y)) := fun y =>
      gauss_draw_smul hs x (F := fun x' => f (x', (x, y))) (by fun_prop)
    have hm : Measurable fun y => ∫⁻ x', ENNReal.ofReal (Real.exp (normalLogpdf x (sigma ^ 2 • 1) x')) * f (x', (x, y)) := by
      refine Measurable.lintegral_prod_right' (f := fun p : Vec d × Vec d =>
        ENNReal.ofReal (Real.exp (normalLogpdf x (sigma ^ 2 • 1) p.2)) * f (p.2, (x, p.1))) ?_
      have h2 : Measurable fun p : Vec d × Vec d => normalLogpdf x (sigma ^ 2 • 1) p.2 :=
        hΓ.comp (f := fun p : Vec d × Vec d => (x, p.2)) (by fun_prop)
      fun_prop
    have h3 := gauss_draw_smul (d := d) one_pos x hm
    rw [one_pow, one_smul] at h3
    refine Eq.trans ?_ h3
    refine lintegral_congr fun y => (e _).symm ▸ ?_
    rw [one_smul]
    rfl
  have hinit : ∀ f, Measurable f → ((normal1 (splitKey key 2 0) d : Ex (Vec d)) >>= fun e => pure (sigma • e)) f =
      ∫⁻ x, ENNReal.ofReal (Real.exp (normalLogpdf 0 (sigma ^ 2 • 1) x)) * f x := fun f hf => by
    have h := gauss_draw_smul hs 0 hf
    simp only [zero_add] at h
    exact h
  rw [h1]
  refine (simulate_path (lam := (volume : Measure (Vec d))) (mu := (volume : Measure (Vec d)))
    (continuous_normalLogpdf_comp (sigma ^ 2 • (1 : Mat d d)) continuous_const continuous_id).measurable hΓ hg
    (fun x => gauss_mass (posDef_smul_one (pow_pos hs 2)) _) hbody hinit (fun _ => ()) hf).trans ?_
  simp only [lgTarget, obsLog, gaussPathLog, one_mulVec, add_zero, id]

/-! ## The posterior is the conditional law of the states given the observations -/

theorem measurable_svTarget_pair (D : SvDyn d) :
    Measurable fun p : Traj (n + 1) d × Traj (n + 1) d => svTarget D.m0 D.P0 D.F D.Q D.b p.2 p.1 := by
  simp only [svTarget, ← sv_log_likelihood_eq, sv_log_likelihood, gaussPathLog, pathLogDensity]
  have h0 : Measurable fun x : Vec d => normalLogpdf D.m0 D.P0 x :=
    (continuous_normalLogpdf_comp D.P0 continuous_const continuous_id).measurable
  refine Measurable.add (Measurable.add (h0.comp (by fun_prop)) (Finset.measurable_sum _ fun t _ => ?_)) (Finset.measurable_sum _ fun t _ => ?_)
  · exact (measurable_trans D.F D.b D.Q).comp (f := fun p : Traj (n + 1) d × Traj (n + 1) d => (p.1 t.castSucc, p.1 t.succ)) (by fun_prop)
  · exact measurable_sv_pot.comp (f := fun p : Traj (n + 1) d × Traj (n + 1) d => (p.1 t, p.2 t)) (by fun_prop)

theorem measurable_lgTarget_pair (sigma : ℝ) :
    Measurable fun p : Traj (n + 1) d × Traj (n + 1) d => lgTarget sigma p.2 p.1 := by
  simp only [lgTarget, obsLog, gaussPathLog, pathLogDensity]
  have h : ∀ (C : Mat d d) {a b : Traj (n + 1) d × Traj (n + 1) d → Vec d}, Continuous a → Continuous b → Measurable fun p => normalLogpdf (a p) C (b p) :=
    fun C _ _ ha hb => (continuous_normalLogpdf_comp C ha hb).measurable
  refine Measurable.add (Measurable.add (h _ (by fun_prop) (by fun_prop)) (Finset.measurable_sum _ fun t _ => h _ (by fun_prop) (by fun_prop)))
    (Finset.measurable_sum _ fun t _ => h _ (by fun_prop) (by fun_prop))

/-- Almost no vector has a zero entry. -/
theorem ae_entry_ne_zero {n d : ℕ} : ∀ᵐ ys ∂trajVol (n + 1) d, ∀ t j, ys t j ≠ 0 := by
  rw [ae_all_iff]
  refine fun t => ?_
  rw [ae_all_iff]
  refine fun j => ?_
  have h0 : ∀ᵐ y : ℝ, y ≠ 0 := by
    rw [ae_iff]
    simp
  have h1 : ∀ᵐ y : Vec d, y j ≠ 0 := (Measure.quasiMeasurePreserving_eval (μ := fun _ : Fin d => (volume : Measure ℝ)) j).ae h0
  exact (Measure.quasiMeasurePreserving_eval (μ := fun _ : Fin (n + 1) => (volume : Measure (Vec d))) t).ae h1

/-- **C69** (posterior): given the observations, the law of the true states of the stochastic volatility experiment is the
posterior that the kernels other than `MALA` sample from; almost surely no observation is zero, so that the convergence
results (C68) apply to almost all data sets. -/
theorem C69_sv_posterior (key : Key) {tau : ℤ} (ht : 0 < tau) (d n : ℕ) {k : SvType} (hk : k ≠ .MALA) :
    ∃ eta : Measure (Traj (n + 1) d), IsProbabilityMeasure eta ∧ (∀ᵐ ys ∂eta, ∀ t j, ys t j ≠ 0) ∧
      CondLaw ((sv_get_data key 0 0.90 ((tau : ℝ) / 100) 0.25 d (n + 1) : Ex _) >>= fun data => pure (data.xs, data.ys)) eta
        (svPosterior k tau) := by
  have ht' : (0 : ℝ) < (tau : ℝ) / 100 := by positivity
  have hp : IsProbabilityMeasure (gaussM d) := by unfold gaussM; infer_instance
  have e : ∀ ys : Traj (n + 1) d, svSampled k tau ys = svTarget (svDynArgs tau d).m0 (svDynArgs tau d).P0 (svDynArgs tau d).F (svDynArgs tau d).Q
      (svDynArgs tau d).b ys := fun ys => by simp only [svSampled, if_neg hk]
  obtain ⟨eta, h1, h2, h3⟩ := condLaw_of (lam := trajVol (n + 1) d) (mu := trajVol (n + 1) d)
    (l := fun ys xs => svTarget (svDynArgs tau d).m0 (svDynArgs tau d).P0 (svDynArgs tau d).F (svDynArgs tau d).Q (svDynArgs tau d).b ys xs)
    (measurable_svTarget_pair (svDynArgs tau d)) (fun ys => by have := (svSampled_mass k ht ys).2; rwa [e] at this)
    (P := (sv_get_data key 0 0.90 ((tau : ℝ) / 100) 0.25 d (n + 1) : Ex _) >>= fun data => pure (data.xs, data.ys))
    (fun f hf => C69_sv_data key 0 (by norm_num) ht' (by norm_num) (by norm_num) (f := fun x y => f (x, y)) hf) (by
      have hb : ∀ x i, (svDataBody (svDynArgs tau d) (cholesky (svDynArgs tau d).Q) x i : Ex _) (fun _ => 1) = 1 := fun x i => by
        show ∫⁻ _, ∫⁻ _, 1 ∂gaussM d ∂gaussM d = 1
        simp
      show ∫⁻ _, scanM (m := Ex) _ _ _ (fun _ => 1) ∂gaussM d = 1
      exact (lintegral_congr fun _ => scanM_mass hb _ _).trans (by simp))
  refine ⟨eta, h1, h2.ae_le ae_entry_ne_zero, ?_⟩
  have e2 : (svPosterior k tau : Traj (n + 1) d → _) = fun ys => lawOf (trajVol (n + 1) d) fun xs => svTarget (svDynArgs tau d).m0 (svDynArgs tau d).P0
      (svDynArgs tau d).F (svDynArgs tau d).Q (svDynArgs tau d).b ys xs := funext fun ys => by rw [svPosterior, e]
  rw [e2]
  exact h3

/-- **C69** (posterior, linear Gaussian experiment): same, with the exact posterior from which `init` draws (C60). -/
theorem C69_lgssm_posterior (key : Key) {sigma : ℝ} (hs : 0 < sigma) (d n : ℕ) :
    ∃ eta : Measure (Traj (n + 1) d), IsProbabilityMeasure eta ∧
      CondLaw (lg_get_data key sigma d (n + 1) : Ex (Traj (n + 1) d × Traj (n + 1) d)) eta (lgPosterior sigma) := by
  have hp : IsProbabilityMeasure (gaussM d) := by unfold gaussM; infer_instance
  obtain ⟨eta, h1, h2, h3⟩ := condLaw_of (lam := trajVol (n + 1) d) (mu := trajVol (n + 1) d)
    (l := fun ys xs => lgTarget sigma ys xs) (measurable_lgTarget_pair sigma) (lgTarget_mass hs)
    (P := (lg_get_data key sigma d (n + 1) : Ex (Traj (n + 1) d × Traj (n + 1) d)))
    (fun f hf => C69_lgssm_data key hs (f := fun x y => f (x, y)) hf) (by
      show ∫⁻ _, ∫⁻ _, 1 ∂(Measure.pi fun _ => Measure.pi fun _ => gaussM d) ∂gaussM d = 1
      simp)
  exact ⟨eta, h1, h3⟩

/-- **C69** (data sets): for almost every data set that the script can draw, from every initial state, the bootstrap conditional SMC
chain approaches the conditional law of the true states. -/
theorem C69_sv_converges {tau : ℤ} (ht : 0 < tau) {resampling last_step style : String} {backward : Bool} {R : Resampling Ex N}
    {mv : AncestorMove Ex N} (hR : sel_resampling resampling = .ok R) (hm : sel_last_step last_step = .ok mv)
    (hk : SvType.CSMC.kernel_maker svd (svDynArgs tau d) style target_stat R mv backward = .ok make) (key : Key) :
    ∃ (eta : Measure (Traj (n + 1) d)) (post : Traj (n + 1) d → Measure (Traj (n + 1) d)),
      CondLaw ((sv_get_data key 0 0.90 ((tau : ℝ) / 100) 0.25 d (n + 1) : Ex _) >>= fun data => pure (data.xs, data.ys)) eta post ∧
      ∀ᵐ ys ∂eta, ∀ delta, ApproachesLaw (1 - svRate N resampling last_step backward tau ys) (svErr .CSMC last_step) (post ys) (make ys) delta := by
  obtain ⟨eta, -, h0, h⟩ := C69_sv_posterior key ht d n (k := .CSMC) (by simp)
  exact ⟨eta, _, h, h0.mono fun ys hy delta => C68_sv ht hR hm hk hy delta⟩

/-! ## Instances -/

/-- The settings of the script (`tau` is given in percent). -/
example : ∃ eta : Measure (Traj 50 30), IsProbabilityMeasure eta ∧ (∀ᵐ ys ∂eta, ∀ t j, ys t j ≠ 0) ∧
    CondLaw ((sv_get_data [4] 0 0.90 (((10 : ℤ) : ℝ) / 100) 0.25 30 50 : Ex _) >>= fun data => pure (data.xs, data.ys)) eta
      (svPosterior .CSMC 10) :=
  C69_sv_posterior [4] (by norm_num) 30 49 (by simp)

/-- The defaults of the script with `barker`. -/
example : ∃ make, SvType.kernel_maker (m := Ex) (N := 31) (n := 49) (diagSvd 30) .CSMC (svDynArgs 10 30) "bootstrap"
    (.level 0.5) (fun key w i j c => killing key w i j c) (fun key w k => barker_move key w k) false = .ok make ∧
    ∃ (eta : Measure (Traj 50 30)) (post : Traj 50 30 → Measure (Traj 50 30)),
      CondLaw ((sv_get_data [4] 0 0.90 (((10 : ℤ) : ℝ) / 100) 0.25 30 50 : Ex _) >>= fun data => pure (data.xs, data.ys)) eta post ∧
      ∀ᵐ ys ∂eta, ∀ delta, ApproachesLaw (1 - svRate 31 "killing" "barker" false 10 ys) (svErr .CSMC "barker") (post ys) (make ys) delta :=
  ⟨_, rfl, C69_sv_converges (N := 31) (svd := diagSvd 30) (style := "bootstrap") (target_stat := .level 0.5) (by norm_num) rfl rfl rfl [4]⟩

example : ∃ eta : Measure (Traj 128 5), IsProbabilityMeasure eta ∧
    CondLaw (lg_get_data [4] 2 5 128 : Ex (Traj 128 5 × Traj 128 5)) eta (lgPosterior 2) :=
  C69_lgssm_posterior [4] (by norm_num) 5 127

/-- The probability that the first observation has a negative first component, under the model with parameters
`nu = 1`, `phi = 1/2`, `tau = 2`, `rho = 1/2`. -/
example : (sv_get_data [4] 1 (1/2) 2 (1/2) 3 4 : Ex _) (fun data => if data.ys 0 0 < 0 then 1 else 0) =
    ∫⁻ xs, ∫⁻ ys, ENNReal.ofReal (Real.exp (svTarget (get_dynamics 1 (1/2) 2 (1/2) 3).m0 (get_dynamics 1 (1/2) 2 (1/2) 3).P0
      (get_dynamics 1 (1/2) 2 (1/2) 3).F (get_dynamics 1 (1/2) 2 (1/2) 3).Q (get_dynamics 1 (1/2) 2 (1/2) 3).b ys xs)) *
        (if ys 0 0 < 0 then 1 else 0) ∂trajVol 4 3 ∂trajVol 4 3 :=
  C69_sv_data [4] 1 (by norm_num) (by norm_num) (by norm_num) (by norm_num) (f := fun _ ys => if ys 0 0 < 0 then 1 else 0)
    (Measurable.ite (measurableSet_lt (by fun_prop) measurable_const) measurable_const measurable_const)

end Verif.Props
