import Verif.Lemmas.SmcKernel
import Verif.Lemmas.ErgodicExp
import Verif.Props.MixingRuns

/-!
# C95: sequential Monte Carlo without a reference trajectory

`csmc.kernel` with `conditional=False` is a particle filter followed by a backward pass. Weighted by its evidence estimate, the trajectory
that it returns represents the target exactly, for every number of particles. The stochastic volatility experiment starts all its chains
from such a trajectory.
-/

open scoped ENNReal
open MeasureTheory ProbabilityTheory

namespace Verif.Props
open Verif Verif.Model Verif.Spec

variable {X P G : Type} [MeasurableSpace X] {N n : ℕ}

/-- `csmc.kernel` with `conditional=False`, which also returns the particles and ancestors. -/
noncomputable def smcRun (key : Key) (x : Fin (n + 1) → X) (b : Fin (n + 1) → Fin (N + 1)) (M : FK Ex X P G N) (Mparams : Fin n → P)
    (Gparams : Fin n → G) (R : Resampling Ex N) (mv : AncestorMove Ex N) (backward : Bool) : Ex (FwdOut X N n × (Fin (n + 1) → X)) := do
  let F ← forward_pass key x b M Mparams Gparams R false
  let r ← if backward then backward_sampling_pass F.key_backward M.Gammat Gparams (lastA b) F.xs F.log_ws mv false
    else backward_scanning_pass F.key_backward F.As (lastA b) F.xs (lastA F.log_ws) mv
  pure (F, r.1)

omit [MeasurableSpace X] in
/-- **C95** (same program): the trajectory is that of `csmc.kernel`. -/
theorem C95_same (key : Key) (x : Fin (n + 1) → X) (b : Fin (n + 1) → Fin (N + 1)) (M : FK Ex X P G N) (Mparams : Fin n → P)
    (Gparams : Fin n → G) (R : Resampling Ex N) (mv : AncestorMove Ex N) (backward : Bool) :
    ((csmc_kernel key x b M Mparams Gparams R mv backward false : Ex _) >>= fun r => pure r.xs) =
      smcRun key x b M Mparams Gparams R mv backward >>= fun r => pure r.2 := by
  cases backward <;> rfl

/-- The average over the trajectory, given the particles. -/
noncomputable def smcMean (S : Sys X N n) (Γ : Fin n → X → X → ℝ) (backward : Bool) (f : (Fin (n + 1) → X) → ℝ≥0∞) (h : Hist X N n) : ℝ≥0∞ :=
  ∑ k, ENNReal.ofReal (S.wLast h k) * if backward then S.bs Γ h k (fun r => f r.1) else f (h.tracex k)

/-- The moves that can be used: any one with backward sampling, `barker_move` without. -/
def MoveFree (backward : Bool) (mv : AncestorMove Ex N) : Prop := backward = true ∨ mv = fun key w k => barker_move key w k

omit [MeasurableSpace X] in
theorem smcRun_eq (key : Key) (x : Fin (n + 1) → X) (b : Fin (n + 1) → Fin (N + 1)) (M : FK Ex X P G N) (Mparams : Fin n → P)
    (Gparams : Fin n → G) (R : Resampling Ex N) {mv : AncestorMove Ex N} {backward : Bool} (hmv : MoveFree backward mv) (G0 : Ex X)
    (Gt : Fin n → X → Ex X)
    (g : (Fin (n + 1) → Fin (N + 1) → X) → (Fin n → Fin (N + 1) → Fin (N + 1)) → (Fin (n + 1) → X) → ℝ≥0∞) :
    smcRun key x b M Mparams Gparams R mv backward (fun r => g r.1.xs r.1.As r.2) =
      (freeSys key M Mparams Gparams R G0 Gt).fwd b x fun h =>
        smcMean (freeSys key M Mparams Gparams R G0 Gt) (fun t y x => M.Gammat y x (Gparams t)) backward (g h.2 h.1) h := by
  have h1 := forward_pass_free key M Mparams Gparams R G0 Gt x b (fun F => do
    let r ← if backward then backward_sampling_pass F.key_backward M.Gammat Gparams (lastA b) F.xs F.log_ws mv false
      else backward_scanning_pass F.key_backward F.As (lastA b) F.xs (lastA F.log_ws) mv
    (pure (F, r.1) : Ex (FwdOut X N n × (Fin (n + 1) → X))))
  refine (congrFun h1 _).trans ?_
  refine Ex.congr_fun' ((freeSys key M Mparams Gparams R G0 Gt).fwd b x) fun h => ?_
  cases backward with
  | true => exact backward_sampling_free (freeSys key M Mparams Gparams R G0 Gt) h (splitKey key 3 2) M.Gammat Gparams (lastA b) mv fun r => g h.2 h.1 r.1
  | false =>
    rcases hmv with hmv | rfl
    · cases hmv
    · exact backward_scanning_free (freeSys key M Mparams Gparams R G0 Gt) h (splitKey key 3 2) (lastA b) fun r => g h.2 h.1 r.1

section proper
variable {lam : Measure X} [SigmaFinite lam] {M : FK Ex X P G N} {Mparams : Fin n → P} {Gparams : Fin n → G}
  {R : Resampling Ex N} {mv : AncestorMove Ex N} {backward : Bool} {m0 : X → ℝ} {m : Fin n → X → X → ℝ}

theorem smcMean_mul (S : Sys X N n) (Γ : Fin n → X → X → ℝ) (hS : SysMeas fun _ : Unit => S) (hΓ : ∀ t, Measurable fun p : X × X => Γ t p.1 p.2)
    {f : (Fin (n + 1) → X) → ℝ≥0∞} (hf : Measurable f) (c : ℝ≥0∞) (h : Hist X N n) :
    smcMean S Γ backward (fun x => c * f x) h = c * smcMean S Γ backward f h := by
  have hk := (hS.bs_ker (Γ := fun _ => Γ) fun t => (hΓ t).comp measurable_snd).comp (g := fun k : Fin (N + 1) => ((), h, k)) (by fun_prop)
  unfold smcMean
  rw [Finset.mul_sum]
  refine Finset.sum_congr rfl fun k _ => ?_
  cases backward with
  | true =>
    simp only [if_true]
    rw [hk.const_mul k c (f := fun r => f r.1) (by fun_prop), ← mul_assoc, mul_comm _ c, mul_assoc]
  | false =>
    simp only [Bool.false_eq_true, if_false]
    rw [← mul_assoc, mul_comm _ c, mul_assoc]

theorem measurable_smcMean (S : Sys X N n) (Γ : Fin n → X → X → ℝ) (hS : SysMeas fun _ : Unit => S) (hΓ : ∀ t, Measurable fun p : X × X => Γ t p.1 p.2)
    {f : (Fin (n + 1) → X) → ℝ≥0∞} (hf : Measurable f) : Measurable (smcMean S Γ backward f) := by
  have hk := (hS.bs_ker (Γ := fun _ => Γ) fun t => (hΓ t).comp measurable_snd)
  refine Finset.measurable_fun_sum _ fun k _ => Measurable.mul ?_ ?_
  · exact ENNReal.measurable_ofReal.comp ((measurable_pi_apply k).comp (hS.measurable_wLast.comp (by fun_prop : Measurable fun h : Hist X N n => ((), h))))
  · cases backward with
    | true => exact (hk.comp (g := fun h : Hist X N n => ((), h, k)) (by fun_prop)).measurable' (f := fun r => f r.1) (by fun_prop)
    | false => exact hf.comp (by fun_prop : Measurable fun h : Hist X N n => h.tracex k)

/-- The identity behind C95. -/
theorem smc_identity (key : Key) (x : Fin (n + 1) → X) (b : Fin (n + 1) → Fin (N + 1)) (hM : ProperFK lam M)
    (hm : ProposalLogs lam M Mparams m0 m) (hR : ∀ key, UnbiasedResampling fun w i j => R key w i j false)
    {f : (Fin (n + 1) → X) → ℝ≥0∞} (hf : Measurable f) :
    (freeDSys lam key M Mparams Gparams R).fwd b x (fun h =>
      ENNReal.ofReal (evidence M.Gamma0 (fun t y x => M.Gammat y x (Gparams t)) m0 m h.2 h.1) *
        smcMean (freeDSys lam key M Mparams Gparams R) (fun t y x => M.Gammat y x (Gparams t)) backward f h) =
      ∫⁻ x, ENNReal.ofReal (Real.exp (pathLogDensity M.Gamma0 (fun t y x => M.Gammat y x (Gparams t)) x)) * f x ∂(Measure.pi fun _ => lam) := by
  obtain ⟨c0, hc0⟩ := hm.init_log
  choose c hc using hm.step_log
  have hS := freeDSys_free (Gparams := Gparams) key hM hR hm hc0 hc
  have hd : (freeDSys lam key M Mparams Gparams R).Density lam (fun t y x => M.Gammat y x (Gparams t)) :=
    ⟨fun t => hM.Gammat_meas _, fun t y f hf => rfl⟩
  simp only [← zhat_evidence (lam := lam) (Gparams := Gparams) (resampling := R) key hc0 hc]
  rw [← hS.path_eq hM.Gamma0_meas (fun f hf => rfl) hd f hf]
  cases backward with
  | true => exact hS.sampling hd b x f hf
  | false => exact hS.scan b x f hf

/-- **C95** (proper weighting): weighted by the evidence estimate, the trajectory returned by `csmc.kernel` with `conditional=False`
represents the target `exp (Γ_0(x_0) + Σ_t Γ_t(x_{t-1}, x_t))`, whatever the number of particles, the key, and the reference (which is
ignored), with unbiased resampling, and with backward sampling or with the Barker move. -/
theorem C95_proper (key : Key) (x : Fin (n + 1) → X) (b : Fin (n + 1) → Fin (N + 1)) (hM : ProperFK lam M)
    (hm : ProposalLogs lam M Mparams m0 m) (hR : ∀ key, UnbiasedResampling fun w i j => R key w i j false) (hmv : MoveFree backward mv) :
    ProperlyWeighted lam (pathLogDensity M.Gamma0 (fun t y x => M.Gammat y x (Gparams t)))
      (evidence M.Gamma0 (fun t y x => M.Gammat y x (Gparams t)) m0 m) (smcRun key x b M Mparams Gparams R mv backward) := by
  intro f hf
  have hS := freeDSys_meas (Mparams := Mparams) (Gparams := Gparams) key hM hR
  refine (smcRun_eq key x b M Mparams Gparams R hmv (freeDSys lam key M Mparams Gparams R).G0 (freeDSys lam key M Mparams Gparams R).G (fun xs As z => ENNReal.ofReal (evidence M.Gamma0 (fun t y x => M.Gammat y x (Gparams t))
    m0 m xs As) * f z)).trans ?_
  refine Eq.trans ?_ (smc_identity key x b hM hm hR hf (backward := backward))
  exact Ex.congr_fun' _ fun h => smcMean_mul _ _ hS (fun t => hM.Gammat_meas _) hf _ h

/-- **C95** (evidence): the evidence estimate is unbiased. -/
theorem C95_evidence (key : Key) (x : Fin (n + 1) → X) (b : Fin (n + 1) → Fin (N + 1)) (hM : ProperFK lam M)
    (hm : ProposalLogs lam M Mparams m0 m) (hR : ∀ key, UnbiasedResampling fun w i j => R key w i j false) :
    (forward_pass key x b M Mparams Gparams R false : Ex _)
      (fun F => ENNReal.ofReal (evidence M.Gamma0 (fun t y x => M.Gammat y x (Gparams t)) m0 m F.xs F.As)) =
    ∫⁻ x, ENNReal.ofReal (Real.exp (pathLogDensity M.Gamma0 (fun t y x => M.Gammat y x (Gparams t)) x)) ∂(Measure.pi fun _ => lam) := by
  have h1 := smc_identity (backward := false) (Gparams := Gparams) key x b hM hm hR (f := fun _ => 1) measurable_const
  simp only [mul_one] at h1
  rw [← h1]
  have h2 := congrFun (forward_pass_free (β := FwdOut X N n) key M Mparams Gparams R
    (fun f => ∫⁻ x, ENNReal.ofReal (Real.exp (M.Gamma0 x)) * f x ∂lam)
    (fun t y f => ∫⁻ x, ENNReal.ofReal (Real.exp (M.Gammat y x (Gparams t))) * f x ∂lam) x b fun F => pure F)
    (fun F => ENNReal.ofReal (evidence M.Gamma0 (fun t y x => M.Gammat y x (Gparams t)) m0 m F.xs F.As))
  refine h2.trans (Ex.congr_fun' ((freeDSys lam key M Mparams Gparams R).fwd b x) fun h => ?_)
  have : smcMean (freeDSys lam key M Mparams Gparams R) (fun t y x => M.Gammat y x (Gparams t)) false (fun _ => 1) h = 1 := by
    simp only [smcMean, Bool.false_eq_true, if_false, mul_one]
    exact sum_ofReal_of_isProb (normalize_isProb _)
  rw [this, mul_one]
  rfl

omit [SigmaFinite lam] in
theorem properFK_logs (hM : ProperFK lam M) (Mparams : Fin n → P) : ∃ m0 m, ProposalLogs lam M Mparams m0 m := by
  obtain ⟨m0, c0, hm0, h0⟩ := hM.init
  choose m c hm hl hk using hM.step
  exact ⟨m0, fun t => m (Mparams t), h0, ⟨c0, hm0⟩, fun t key Ys => (hk _ key).2 Ys, fun t => ⟨c (Mparams t), hl _⟩⟩

omit [MeasurableSpace X] in
theorem evidence_pos (Γ0 : X → ℝ) (Γ : Fin n → X → X → ℝ) (m0 : X → ℝ) (m : Fin n → X → X → ℝ)
    (xs : Fin (n + 1) → Fin (N + 1) → X) (As : Fin n → Fin (N + 1) → Fin (N + 1)) : 0 < evidence Γ0 Γ m0 m xs As :=
  mul_pos (div_pos (Finset.sum_pos (fun _ _ => Real.exp_pos _) Finset.univ_nonempty) (by positivity))
    (Finset.prod_pos fun _ _ => div_pos (Finset.sum_pos (fun _ _ => Real.exp_pos _) Finset.univ_nonempty) (by positivity))

omit [MeasurableSpace X] in
theorem free_fwd_mass {n : ℕ} {S : Sys X N n} (h0 : ∀ b x, S.Q0 b x (fun _ => 1) = 1) (h : ∀ t Y b x, S.Q t Y b x (fun _ => 1) = 1)
    (hR : ∀ t w i j, IsProb w → S.R t w i j (fun _ => 1) = 1) (b : Fin (n + 1) → Fin (N + 1)) (x : Fin (n + 1) → X) :
    S.fwd b x (fun _ => 1) = 1 := by
  induction n with
  | zero => exact h0 _ _
  | succ n ih =>
    have h2 : ∀ h : Hist X N n, S.R (Fin.last n) (S.init.wLast h) (b (Fin.last n).castSucc)
        (b (Fin.last (n + 1))) (fun a => S.Q (Fin.last n) (take (lastA h.2) a) (b (Fin.last (n + 1)))
          (x (Fin.last (n + 1))) (fun _ => 1)) = 1 := by
      intro h'
      simp only [h]
      exact hR _ _ _ _ (normalize_isProb _)
    show S.init.fwd (initA b) (initA x) (fun h => S.R (Fin.last n) (S.init.wLast h)
      (b (Fin.last n).castSucc) (b (Fin.last (n + 1))) (fun a => S.Q (Fin.last n) (take (lastA h.2) a)
        (b (Fin.last (n + 1))) (x (Fin.last (n + 1))) (fun _ => 1))) = 1
    simp only [h2]
    exact ih (S := S.init) h0 (fun t => h t.castSucc) (fun t => hR t.castSucc) _ _

/-- **C95** (law): the trajectory has a law, a probability measure with the same null sets as the target: it has a density, and it
reaches every set that the target charges, however few particles there are. -/
theorem C95_law (key : Key) (x : Fin (n + 1) → X) (b : Fin (n + 1) → Fin (N + 1)) (hM : ProperFK lam M)
    (hR : ∀ key, UnbiasedResampling fun w i j => R key w i j false) (hmv : MoveFree backward mv) :
    ∃ ν : Measure (Fin (n + 1) → X), IsProbabilityMeasure ν ∧ ν ≪ (Measure.pi fun _ => lam) ∧ (Measure.pi fun _ => lam) ≪ ν ∧
      ∀ f, Measurable f → (csmc_kernel key x b M Mparams Gparams R mv backward false : Ex _) (fun r => f r.xs) = ∫⁻ z, f z ∂ν := by
  obtain ⟨m0, m, hm⟩ := properFK_logs hM Mparams
  have hS := freeDSys_meas (Mparams := Mparams) (Gparams := Gparams) key hM hR
  set S := freeDSys lam key M Mparams Gparams R with hSd
  have hΓ : ∀ t, Measurable fun p : X × X => M.Gammat p.1 p.2 (Gparams t) := fun t => hM.Gammat_meas _
  set Γ : Fin n → X → X → ℝ := fun t y x => M.Gammat y x (Gparams t)
  -- the program
  have hK : ∀ f, (csmc_kernel key x b M Mparams Gparams R mv backward false : Ex _) (fun r => f r.xs) = S.fwd b x (smcMean S Γ backward f) := fun f =>
    (congrFun (C95_same key x b M Mparams Gparams R mv backward) f).trans (smcRun_eq key x b M Mparams Gparams R hmv _ _ fun _ _ => f)
  obtain ⟨κ, _, hκ⟩ := hS.fwd_ker
  let μ := κ ((), b, x)
  have hμ : ∀ g, Measurable g → S.fwd b x g = ∫⁻ h, g h ∂μ := fun g hg => hκ ((), b, x) g hg
  -- trajectories given the history, as a kernel
  have hT : IsKer fun h : Hist X N n => (fun f => smcMean S Γ backward f h : Ex (Fin (n + 1) → X)) := by
    have hw : Measurable fun h : Hist X N n => S.wLast h := hS.measurable_wLast.comp (by fun_prop : Measurable fun h : Hist X N n => ((), h))
    have h2 : IsKer (fun p : Hist X N n × Fin (N + 1) => if backward = true then S.bs Γ p.1 p.2 >>= fun r => pure r.1
        else (pure (p.1.tracex p.2) : Ex _)) := by
      cases backward with
      | true =>
        simpa using ((hS.bs_ker (Γ := fun _ => Γ) fun t => (hΓ t).comp measurable_snd).comp
          (g := fun p : Hist X N n × Fin (N + 1) => ((), p.1, p.2)) (by fun_prop)).bind (F := fun _ r => pure r.1) (IsKer.pure (by fun_prop))
      | false => simpa using IsKer.pure (by fun_prop : Measurable fun p : Hist X N n × Fin (N + 1) => p.1.tracex p.2)
    refine ((IsKer.choice [] hw).bind (F := fun h k => if backward = true then S.bs Γ h k >>= fun r => pure r.1
        else (pure (h.tracex k) : Ex _)) h2).congr fun h f hf => ?_
    show ∑ k, catP (S.wLast h) k * _ = _
    refine Finset.sum_congr rfl fun k _ => ?_
    rw [Sys.wLast, catP_normalize]
    cases backward <;> rfl
  obtain ⟨κ', _, hκ'⟩ := hT
  have hlaw : ∀ f, Measurable f → (csmc_kernel key x b M Mparams Gparams R mv backward false : Ex _) (fun r => f r.xs) =
      ∫⁻ z, f z ∂(κ' ∘ₘ μ) := fun f hf => by
    rw [hK, hμ _ (measurable_smcMean S Γ hS hΓ hf), Measure.lintegral_bind (by fun_prop) (by fun_prop)]
    exact lintegral_congr fun h => hκ' h f hf
  have hone : S.fwd b x (smcMean S Γ backward fun _ => 1) = 1 := by
    have : ∀ h, smcMean S Γ backward (fun _ => 1) h = 1 := fun h => by
      unfold smcMean
      simp only [Sys.bs_mass, ite_self, mul_one]
      exact sum_ofReal_of_isProb (normalize_isProb _)
    rw [funext this]
    exact free_fwd_mass (S := S) (fun b x => (hm.init _).mass) (fun t Y b x => (hm.step t _ Y).mass) (fun t w i j hw => (hR _).mass w hw i j) b x
  have key0 : ∀ A, MeasurableSet A → ((κ' ∘ₘ μ) A = 0 ↔ (Measure.pi fun _ => lam) A = 0) := by
    intro A hA
    have hf : Measurable (A.indicator fun _ => (1 : ℝ≥0∞)) := measurable_const.indicator hA
    have e1 : (κ' ∘ₘ μ) A = ∫⁻ h, smcMean S Γ backward (A.indicator fun _ => 1) h ∂μ := by
      rw [← lintegral_indicator_one hA, show (A.indicator 1 : (Fin (n + 1) → X) → ℝ≥0∞) = A.indicator fun _ => 1 from rfl, ← hlaw _ hf, hK,
        hμ _ (measurable_smcMean S Γ hS hΓ hf)]
    have e2 := smc_identity (backward := backward) (Gparams := Gparams) key x b hM hm hR hf
    have hmm := measurable_smcMean (backward := backward) S Γ hS hΓ hf
    have hev : Measurable fun h : Hist X N n => ENNReal.ofReal (evidence M.Gamma0 Γ m0 m h.2 h.1) := by
      obtain ⟨c0, hc0⟩ := hm.init_log
      choose c hc using hm.step_log
      have := hS.measurable_zhat c0 c
      rwa [show S.zhat c0 c = fun h => ENNReal.ofReal (evidence M.Gamma0 Γ m0 m h.2 h.1) from
        funext fun h => zhat_evidence (lam := lam) (Gparams := Gparams) (resampling := R) key hc0 hc h] at this
    replace e2 := (hμ _ (hev.mul hmm)).symm.trans e2
    have hl : Measurable (pathLogDensity M.Gamma0 Γ) := measurable_pathLogDensity hM.Gamma0_meas hΓ
    have e3 : (∫⁻ x, ENNReal.ofReal (Real.exp (pathLogDensity M.Gamma0 Γ x)) * A.indicator (fun _ => 1) x ∂(Measure.pi fun _ => lam)) = 0 ↔
        (Measure.pi fun _ => lam) A = 0 := by
      refine (lintegral_eq_zero_iff ((measurable_expR hl).mul hf)).trans ?_
      constructor
      · intro h
        have h2 : (A.indicator fun _ => (1 : ℝ≥0∞)) =ᵐ[Measure.pi fun _ => lam] 0 := by
          filter_upwards [h] with z hz
          exact (mul_eq_zero.mp hz).resolve_left (ENNReal.ofReal_pos.mpr (Real.exp_pos _)).ne'
        have := lintegral_congr_ae h2
        simpa [lintegral_indicator hA] using this
      · intro h
        have h2 : ∀ᵐ z ∂(Measure.pi fun _ : Fin (n + 1) => lam), z ∉ A := measure_eq_zero_iff_ae_notMem.mp h
        filter_upwards [h2] with z hz
        simp [hz]
    rw [e1, ← e3, ← e2, lintegral_eq_zero_iff hmm]
    refine Iff.trans ?_ (lintegral_eq_zero_iff (hev.mul hmm)).symm
    constructor
    · intro h
      filter_upwards [h] with z hz
      exact mul_eq_zero.mpr (.inr hz)
    · intro h
      filter_upwards [h] with z hz
      exact (mul_eq_zero.mp hz).resolve_left (ENNReal.ofReal_pos.mpr (evidence_pos _ _ _ _ _ _)).ne'
  refine ⟨κ' ∘ₘ μ, ⟨?_⟩, Measure.AbsolutelyContinuous.mk fun A hA h => (key0 A hA).mpr h, Measure.AbsolutelyContinuous.mk fun A hA h => (key0 A hA).mp h, hlaw⟩
  have := hlaw (fun _ => 1) measurable_const
  rw [hK fun _ => 1, hone, lintegral_one] at this
  exact this.symm

/-- **C95** (how far from the target): if the weights are at most `exp (B t)`, every function has an average over the returned trajectory
of at least `exp (-Σ_t B t)` times its integral over the target. -/
theorem C95_bounded (key : Key) (x : Fin (n + 1) → X) (b : Fin (n + 1) → Fin (N + 1)) (hM : ProperFK lam M) {B : Fin (n + 1) → ℝ}
    (hB : BoundedFK lam M Mparams Gparams B) (hR : ∀ key, UnbiasedResampling fun w i j => R key w i j false) (hmv : MoveFree backward mv)
    {f : (Fin (n + 1) → X) → ℝ≥0∞} (hf : Measurable f) :
    ∫⁻ x, ENNReal.ofReal (Real.exp (pathLogDensity M.Gamma0 (fun t y x => M.Gammat y x (Gparams t)) x)) * f x ∂(Measure.pi fun _ => lam) ≤
      ENNReal.ofReal (Real.exp (∑ t, B t)) *
        (csmc_kernel key x b M Mparams Gparams R mv backward false : Ex _) (fun r => f r.xs) := by
  obtain ⟨m0, c0, hl0, hs0, hb0⟩ := hB.init
  choose m c hl hs hb using hB.step
  have hm : ProposalLogs lam M Mparams m0 m := ⟨hs0, ⟨c0, hl0⟩, hs, fun t => ⟨c t, hl t⟩⟩
  have hmean : ∀ (g : Fin (N + 1) → ℝ) (C : ℝ), (∀ i, g i ≤ C) → (∑ i, Real.exp (g i)) / (N + 1) ≤ Real.exp C := fun g C h => by
    rw [div_le_iff₀ (by positivity)]
    refine (Finset.sum_le_sum fun i _ => Real.exp_le_exp.mpr (h i)).trans (le_of_eq ?_)
    simp [mul_comm]
  have hev : ∀ (xs : Fin (n + 1) → Fin (N + 1) → X) As, evidence M.Gamma0 (fun t y x => M.Gammat y x (Gparams t)) m0 m xs As ≤ Real.exp (∑ t, B t) := by
    intro xs As
    rw [Fin.sum_univ_succ, Real.exp_add, Real.exp_sum]
    refine mul_le_mul (hmean _ _ fun i => hb0 _) (Finset.prod_le_prod (fun t _ => by positivity) fun t _ => hmean _ _ fun i => hb t _ _)
      (by positivity) (by positivity)
  rw [← C95_proper (mv := mv) (backward := backward) (Gparams := Gparams) key x b hM hm hR hmv f hf]
  have hS := freeDSys_meas (Mparams := Mparams) (Gparams := Gparams) key hM hR
  have e := fun g => smcRun_eq key x b M Mparams Gparams R hmv (freeDSys lam key M Mparams Gparams R).G0
    (freeDSys lam key M Mparams Gparams R).G g
  have hK : (csmc_kernel key x b M Mparams Gparams R mv backward false : Ex _) (fun r => f r.xs) =
      (freeDSys lam key M Mparams Gparams R).fwd b x (smcMean (freeDSys lam key M Mparams Gparams R) (fun t y x => M.Gammat y x (Gparams t)) backward f) :=
    (congrFun (C95_same key x b M Mparams Gparams R mv backward) f).trans (e fun _ _ => f)
  rw [hK, e fun xs As z => ENNReal.ofReal (evidence M.Gamma0 (fun t y x => M.Gammat y x (Gparams t)) m0 m xs As) * f z]
  obtain ⟨κ, _, hκ⟩ := hS.fwd_ker
  have hmm := measurable_smcMean (backward := backward) _ (fun t y x => M.Gammat y x (Gparams t)) hS (fun t => hM.Gammat_meas (Gparams t)) hf
  have hev' : Measurable fun h : Hist X N n => ENNReal.ofReal (evidence M.Gamma0 (fun t y x => M.Gammat y x (Gparams t)) m0 m h.2 h.1) := by
    have := hS.measurable_zhat c0 c
    rwa [show (freeDSys lam key M Mparams Gparams R).zhat c0 c = fun h => ENNReal.ofReal (evidence M.Gamma0 (fun t y x => M.Gammat y x (Gparams t)) m0 m h.2 h.1) from
      funext fun h => zhat_evidence (lam := lam) (Gparams := Gparams) (resampling := R) key hl0 hl h] at this
  have h1 : ∀ h : Hist X N n, smcMean (freeDSys lam key M Mparams Gparams R) (fun t y x => M.Gammat y x (Gparams t)) backward
      (fun z => ENNReal.ofReal (evidence M.Gamma0 (fun t y x => M.Gammat y x (Gparams t)) m0 m h.2 h.1) * f z) h =
      ENNReal.ofReal (evidence M.Gamma0 (fun t y x => M.Gammat y x (Gparams t)) m0 m h.2 h.1) *
        smcMean (freeDSys lam key M Mparams Gparams R) (fun t y x => M.Gammat y x (Gparams t)) backward f h :=
    fun h => smcMean_mul _ _ hS (fun t => hM.Gammat_meas _) hf _ h
  refine ((Ex.congr_fun' ((freeDSys lam key M Mparams Gparams R).fwd b x) h1).trans (hκ ((), b, x) _ (hev'.mul hmm))).trans_le ?_
  rw [show (freeDSys lam key M Mparams Gparams R).fwd b x (smcMean (freeDSys lam key M Mparams Gparams R) (fun t y x => M.Gammat y x (Gparams t)) backward f) =
    ∫⁻ h, _ ∂κ ((), b, x) from hκ ((), b, x) _ hmm, ← lintegral_const_mul _ hmm]
  exact lintegral_mono fun h => mul_le_mul_left (ENNReal.ofReal_le_ofReal (hev _ _)) _

end proper

/-! ## The experiments -/

section experiments
variable {d : ℕ} {resampling : String} {R : Resampling Ex N} {mv mv' : AncestorMove Ex N}

theorem sel_unbiased (hR : sel_resampling resampling = .ok R) (key : Key) : UnbiasedResampling fun w i j => R key w i j false := by
  unfold sel_resampling at hR
  split_ifs at hR <;> cases hR
  · exact killing_unbiased key
  · exact multinomial_unbiased key

/-- The hypotheses of C95 are met, with the default options of the experiments. -/
example (y : Fin 7 → Fin 2 → ℝ) (x : Fin 8 → Fin 2 → ℝ) := C95_law (n := 7) (lam := volume) (M := exampleFK 2 25) (Mparams := fun _ => ())
  (Gparams := y) (R := fun key w i j c => killing key w i j c) (mv := fun key w k => force_move key w k) (backward := true) [] x (fun _ => 0)
  (exampleFK_proper 2 25) (fun key => killing_unbiased key) (.inl rfl)

example (y : Fin 7 → Fin 2 → ℝ) (x : Fin 8 → Fin 2 → ℝ) := C95_proper (n := 7) (lam := volume) (M := exampleFK 2 25) (Mparams := fun _ => ())
  (Gparams := y) (R := fun key w i j c => multinomial key w i j c) (mv := fun key w k => barker_move key w k) (backward := false)
  (m0 := stdLogpdf) (m := fun _ y x => stdLogpdf (x - y)) [] x (fun _ => 0)
  (exampleFK_proper 2 25) (by
    have h := exampleFK_proper 2 25
    refine ⟨fun key => ?_, ⟨0, fun _ _ => (add_zero _).symm⟩, fun t key Ys => ?_, fun t => ⟨0, fun _ _ _ => (add_zero _).symm⟩⟩
    · have h := gauss_samplesFrom (k := 26) (d := 2) (L := 1) (by simp) (fun _ => 0) key
      have e : (fun (_ : Fin 26) (x : Fin 2 → ℝ) => stdLogpdf x) = fun _ x =>
          stdLogpdf ((1 : Matrix (Fin 2) (Fin 2) ℝ)⁻¹.mulVec (x - 0)) -
            Real.log |(1 : Matrix (Fin 2) (Fin 2) ℝ).det| := by simp
      rw [← e] at h
      exact h
    · have h := gauss_samplesFrom (k := 26) (d := 2) (L := 1) (by simp) Ys key
      have e : (fun (i : Fin 26) (x : Fin 2 → ℝ) => stdLogpdf (x - Ys i)) = fun i x =>
          stdLogpdf ((1 : Matrix (Fin 2) (Fin 2) ℝ)⁻¹.mulVec (x - Ys i)) -
            Real.log |(1 : Matrix (Fin 2) (Fin 2) ℝ).det| := by simp
      rw [← e] at h
      exact h) (fun key => multinomial_unbiased key) (.inr rfl)

/-- **C95** (start of the stochastic volatility experiment): the first trajectory is drawn without looking at the true one, with one law for
all keys, which is a probability measure with a positive density. -/
theorem C95_sv_start {tau : ℤ} (ht : 0 < tau) (hR : sel_resampling resampling = .ok R) (ys : Traj (n + 1) d) :
    ∃ ν : Measure (Traj (n + 1) d), IsProbabilityMeasure ν ∧ ν ≪ trajVol (n + 1) d ∧ trajVol (n + 1) d ≪ ν ∧
      ∀ (init_key : Key) (mv : AncestorMove Ex N) (true_xs : Traj (n + 1) d) f, Measurable f →
        (sv_init init_key ys (svDynArgs tau d) R mv true_xs : Ex _) f = ∫⁻ x, f x ∂ν := by
  have hP := svDynArgs_P0 ht d
  have hQ := svDynArgs_Q ht d
  obtain ⟨ν, h1, h2, h3, h4⟩ := C95_law (Mparams := tailA ys) (Gparams := tailA ys) (mv := fun key w k => force_move key w k) (backward := true) [] (fun _ _ => 0) (fun _ => 0)
    (C19_sv_proper (N := N) ys hP hQ) (sel_unbiased hR) (.inl rfl)
  refine ⟨ν, h1, h2, h3, fun init_key mv true_xs f hf => ?_⟩
  rw [← h4 f hf]
  have e : ∀ key x b mv, (csmc_kernel key x b (svFK ys (svDynArgs tau d)) (tailA ys) (tailA ys) R mv true false : Ex _) (fun r => f r.xs) =
      (freeSys key (svFK ys (svDynArgs tau d)) (tailA ys) (tailA ys) R (pure 0) (fun _ _ => pure 0)).fwd b x
        (smcMean (freeSys key (svFK ys (svDynArgs tau d)) (tailA ys) (tailA ys) R (pure 0) (fun _ _ => pure 0))
          (fun t y x => (svFK (m := Ex) (N := N) ys (svDynArgs tau d)).Gammat y x (tailA ys t)) true f) := fun key x b mv =>
    (congrFun (C95_same key x b _ _ _ R mv true) f).trans (smcRun_eq key x b _ _ _ R (.inl rfl) _ _ fun _ _ => f)
  have h5 : ∀ (key : Key) (w : Fin (N + 1) → ℝ) (i j i' j' : Fin (N + 1)), R key w i j false = R key w i' j' false := by
    intro key w i j i' j'
    unfold sel_resampling at hR
    split_ifs at hR <;> cases hR
    · exact (C17_resampling_ignores key w i j i' j').2
    · exact (C17_resampling_ignores key w i j i' j').1
  have h6 := C17_unconditional_ignores init_key true_xs (fun _ _ => 0) (fun _ => 0) (fun _ => 0) (svFK ys (svDynArgs tau d)) (tailA ys) (tailA ys)
    R h5 mv fun key w k => force_move key w k
  refine (congrArg (fun K => K fun r => f r.xs) h6).trans ?_
  rw [e, e]
  obtain ⟨R0, rfl⟩ := sel_free hR
  rfl

end experiments

end Verif.Props
