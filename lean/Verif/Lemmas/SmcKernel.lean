import Verif.Lemmas.Smc
import Verif.Lemmas.MovePairs
import Verif.Spec.Smc

/-!
# `csmc.kernel` without a reference as an unconditional particle system
-/

open scoped ENNReal
open MeasureTheory ProbabilityTheory Finset

namespace Verif
open Verif.Spec Verif.Model

/-! ### Resampling -/

section resampling
variable {N : ℕ}

theorem Spec.UnbiasedResampling.sum {R : (Fin (N + 1) → ℝ) → Fin (N + 1) → Fin (N + 1) → Ex (Fin (N + 1) → Fin (N + 1))}
    (hR : UnbiasedResampling R) {w : Fin (N + 1) → ℝ} (hw : IsProb w) (i j : Fin (N + 1)) (g : Fin (N + 1) → ℝ≥0∞) :
    R w i j (fun a => ∑ k, g (a k)) = (N + 1) * ∑ i, ENNReal.ofReal (w i) * g i := by
  have hk : IsKer fun _ : Unit => R w i j := hR.ker.comp (g := fun _ : Unit => (w, i, j)) measurable_const
  have e : (fun a : Fin (N + 1) → Fin (N + 1) => ∑ k, g (a k)) = fun a => ∑ l, g l * ∑ t, if a t = l then 1 else 0 := by
    funext a
    simp only [mul_sum, mul_ite, mul_one, mul_zero]
    rw [sum_comm]
    exact sum_congr rfl fun t _ => by simp
  rw [e, hk.sum () _ fun l _ => measurable_of_countable _, mul_sum]
  refine sum_congr rfl fun l _ => ?_
  rw [hk.const_mul () _ (measurable_of_countable _), hR.children w hw, ENNReal.ofReal_mul (by positivity),
    ENNReal.ofReal_add (by positivity) zero_le_one, ENNReal.ofReal_natCast, ENNReal.ofReal_one]
  ring

theorem multinomial_unbiased (key : Key) : UnbiasedResampling (fun w i j => (multinomial (n := N) key w i j false : Ex _)) where
  ker := by
    have h : IsKer (fun p : ResArg N => (choices key (N + 1) p.1 : Ex _) >>=
        (fun (_ : ResArg N) (a : Fin (N + 1) → Fin (N + 1)) => (pure a : Ex _)) p) :=
      IsKer.bind (IsKer.choices key (N + 1) (by fun_prop)) (IsKer.pure (by fun_prop))
    exact h
  mass w hw i j := by
    have : ∑ k, catP w k = 1 := by simp only [catP_of_isProb hw, sum_ofReal_of_isProb hw]
    have h := sum_prod_eq_one (fun _ : Fin (N + 1) => catP w) fun _ => this
    show ∑ a, _ * (1 : ℝ≥0∞) = 1
    simpa using h
  children w hw i j l := by
    show ∑ a : Fin (N + 1) → Fin (N + 1), (∏ t, catP w (a t)) * (∑ t, if a t = l then 1 else 0) = _
    simp only [mul_sum]
    rw [sum_comm]
    have hs : ∑ k, catP w k = 1 := by simp only [catP_of_isProb hw, sum_ofReal_of_isProb hw]
    have : ∀ t : Fin (N + 1), ∑ a : Fin (N + 1) → Fin (N + 1), (∏ s, catP w (a s)) * (if a t = l then (1 : ℝ≥0∞) else 0) =
        ENNReal.ofReal (w l) := fun t => by
      refine (sum_prod_marginal (fun _ : Fin (N + 1) => catP w) t (fun _ => hs) (fun k => if k = l then 1 else 0)).trans ?_
      simp [catP_of_isProb hw]
    rw [sum_congr rfl fun t _ => this t, sum_const, card_univ, Fintype.card_fin, nsmul_eq_mul, ENNReal.ofReal_mul (by positivity),
      ENNReal.ofReal_add (by positivity) zero_le_one, ENNReal.ofReal_natCast, ENNReal.ofReal_one]
    push_cast
    rfl

theorem killing_unbiased (key : Key) : UnbiasedResampling (fun w i j => (killing (n := N) key w i j false : Ex _)) where
  ker := by
    have h2 : IsKer (fun q : ResArg N × (Fin (N + 1) → ℝ) =>
        (choices (splitKey key 3 1) (N + 1) q.1.1 : Ex (Fin (N + 1) → Fin (N + 1))) >>=
        fun repl => (pure (killIdx q.1.1 q.2 repl) : Ex _)) :=
      IsKer.bind (IsKer.choices _ (N + 1) (by fun_prop)) (IsKer.pure (measurable_killIdx (by fun_prop) (by fun_prop) (by fun_prop)))
    have h1 : IsKer (fun p : ResArg N => (uniforms (splitKey key 3 0) (N + 1) : Ex (Fin (N + 1) → ℝ)) >>=
        fun us => (choices (splitKey key 3 1) (N + 1) p.1 : Ex (Fin (N + 1) → Fin (N + 1))) >>=
        fun repl => (pure (killIdx p.1 us repl) : Ex _)) := IsKer.bind (IsKer.uniforms _ (N + 1)) h2
    exact h1
  mass w hw i j := by
    rw [killing_law_false hw]
    simp only [mul_one]
    refine sum_prod_eq_one (fun t l => ENNReal.ofReal (killK w t l)) fun t => ?_
    rw [← ENNReal.ofReal_sum_of_nonneg fun l _ => killK_nonneg hw _ l, killK_sum hw, ENNReal.ofReal_one]
  children w hw i j l := Props.C04_killing_unbiased hw key i j l

end resampling

section csmc
variable {X P G : Type} {N n : ℕ}

/-- The abstract system behind `csmc.kernel` with `conditional=False`. -/
noncomputable def freeSys (key : Key) (M : FK Ex X P G N) (Mparams : Fin n → P) (Gparams : Fin n → G)
    (resampling : Resampling Ex N) (G0 : Ex X) (Gt : Fin n → X → Ex X) : Sys X N n where
  G0 := G0
  G := Gt
  Q0 _ _ := M.M0_rvs (splitKey key 3 0)
  LW0 Xs i := M.Gamma0 (Xs i) - M.M0_logpdf Xs i
  Q t Y _ _ := M.Mt_rvs (splitKey (splitKey (splitKey key 3 1) n t) 2 0) Y (Mparams t)
  LW t Y Xs i := M.Gammat (Y i) (Xs i) (Gparams t) - M.Mt_logpdf Y Xs (Mparams t) i
  R t w i j := resampling (splitKey (splitKey (splitKey key 3 1) n t) 2 1) w i j false
  Z0 := fun _ => 0
  Z := fun _ _ _ => 0

/-- The forward pass of `csmc.py` with `conditional=False`. -/
theorem forward_pass_free {β : Type} (key : Key) (M : FK Ex X P G N) (Mparams : Fin n → P)
    (Gparams : Fin n → G) (resampling : Resampling Ex N) (G0 : Ex X) (Gt : Fin n → X → Ex X) (x : Fin (n + 1) → X)
    (b : Fin (n + 1) → Fin (N + 1)) (k : FwdOut X N n → Ex β) :
    let S := freeSys key M Mparams Gparams resampling G0 Gt
    ((forward_pass key x b M Mparams Gparams resampling false : Ex _) >>= k) =
      S.fwd b x >>= fun h => k ⟨h.1, splitKey key 3 2, fun t => normalizeLog (S.lws h t), h.2⟩ := by
  intro S
  have h1 := scan_eq_fwd (β := β) S b x (fwdBody M resampling false)
    (fwdInputs (splitKey key 3 1) x b Mparams Gparams)
    (fun t y a Xs => (normalizeLog (S.LW t (take y a) Xs), a, Xs)) (fun t w y => rfl)
    (fun x0 r => k ⟨fun t => (r.2 t).2.1, splitKey key 3 2,
      insert0 (normalizeLog (S.LW0 x0)) (fun t => (r.2 t).1), insert0 x0 (fun t => (r.2 t).2.2)⟩)
  have h2 : ((forward_pass key x b M Mparams Gparams resampling false : Ex _) >>= k) = (do
      let x0 ← S.Q0 (b 0) (x 0)
      let r ← scanM (fwdBody M resampling false) (normalizeW (S.LW0 x0), x0)
        (fwdInputs (splitKey key 3 1) x b Mparams Gparams)
      k ⟨fun t => (r.2 t).2.1, splitKey key 3 2,
      insert0 (normalizeLog (S.LW0 x0)) (fun t => (r.2 t).1), insert0 x0 (fun t => (r.2 t).2.2)⟩) := rfl
  rw [h2, h1]
  congr 1
  funext h
  have e1 : (insert0 (normalizeLog (S.LW0 (h.2 0))) fun t =>
      normalizeLog (S.LW t (take (h.2 t.castSucc) (h.1 t)) (h.2 t.succ))) =
      fun t => normalizeLog (S.lws h t) := by
    funext t
    refine Fin.cases ?_ (fun s => ?_) t
    · rw [insert0_zero, S.lws_zero]
    · rw [insert0_succ, S.lws_succ]
  have e2 : (insert0 (h.2 0) fun t : Fin n => h.2 t.succ) = h.2 := insert0_tailA h.2
  rw [e1, e2]

/-- The backward sampling pass of `csmc.py` with `conditional=False`. -/
theorem backward_sampling_free (S : Sys X N n) (h : Hist X N n) (key : Key) (Gam : X → X → G → ℝ) (Gparams : Fin n → G)
    (bT : Fin (N + 1)) (mv : AncestorMove Ex N) (f : (Fin (n + 1) → X) × (Fin (n + 1) → Fin (N + 1)) → ℝ≥0∞) :
    (backward_sampling_pass key Gam Gparams bT h.2 (fun t => normalizeLog (S.lws h t)) mv false : Ex _) f =
      ∑ k, ENNReal.ofReal (S.wLast h k) * S.bs (fun t y x => Gam y x (Gparams t)) h k f := by
  have hw : normalizeW (normalizeLog (S.lws h (Fin.last n))) = S.wLast h := by
    rw [normalize_normalizeLog]
    exact congrArg normalizeW (S.lws_last h)
  have hl : SameWeights (fun t => normalizeLog (S.lws h t)) (S.lws h) := fun t =>
    ⟨-logsumexp (S.lws h t), fun i => rfl⟩
  have h3 := fun k => bs_eq S Gam Gparams h _ hl (initA (splitKey key (n + 1))) k
  have h4 : (backward_sampling_pass key Gam Gparams bT h.2 (fun t => normalizeLog (S.lws h t)) mv false : Ex _) =
      moveIndex (fun key w k => barker_move key w k) (lastA (splitKey key (n + 1))) (S.wLast h) 0 >>= fun k =>
        S.bs (fun t y x => Gam y x (Gparams t)) h k := by
    simp only [← h3]
    rw [← hw]
    rfl
  rw [h4]
  exact barker_law _ (normalize_isProb _) _ _

/-- The backward scanning pass of `csmc.py` with the Barker move. -/
theorem backward_scanning_free (S : Sys X N n) (h : Hist X N n) (key : Key) (bT : Fin (N + 1))
    (f : (Fin (n + 1) → X) × (Fin (n + 1) → Fin (N + 1)) → ℝ≥0∞) :
    (backward_scanning_pass key h.1 bT h.2 (normalizeLog (S.lws h (Fin.last n))) (fun key w k => barker_move key w k) : Ex _) f =
      ∑ k, ENNReal.ofReal (S.wLast h k) * f (h.tracex k, h.trace k) := by
  have hw : normalizeW (normalizeLog (S.lws h (Fin.last n))) = S.wLast h := by
    rw [normalize_normalizeLog]
    exact congrArg normalizeW (S.lws_last h)
  have h4 : (backward_scanning_pass key h.1 bT h.2 (normalizeLog (S.lws h (Fin.last n))) (fun key w k => barker_move key w k) : Ex _) =
      moveIndex (fun key w k => barker_move key w k) key (S.wLast h) bT >>= fun k => pure (h.tracex k, h.trace k) := by
    have h5 := fun k => bscan_eq h k
    simp only at h5
    have h6 : ∀ k, (pure (h.tracex k, h.trace k) : Ex _) = pure _ := fun k => by
      rw [← (h5 k).1, ← (h5 k).2]
    simp only [h6]
    rw [← hw]
    rfl
  rw [h4]
  exact barker_law _ (normalize_isProb _) _ _

end csmc

section proper
variable {X P G : Type} [MeasurableSpace X] {N n : ℕ} {lam : Measure X} {M : FK Ex X P G N} {Mparams : Fin n → P} {Gparams : Fin n → G}
  {m0 : X → ℝ} {m : Fin n → X → X → ℝ}

/-- The system of a model with proposals given by densities. -/
noncomputable def freeDSys (lam : Measure X) (key : Key) (M : FK Ex X P G N) (Mparams : Fin n → P) (Gparams : Fin n → G)
    (resampling : Resampling Ex N) : Sys X N n :=
  freeSys key M Mparams Gparams resampling
    (fun f => ∫⁻ x, ENNReal.ofReal (Real.exp (M.Gamma0 x)) * f x ∂lam)
    (fun t y f => ∫⁻ x, ENNReal.ofReal (Real.exp (M.Gammat y x (Gparams t))) * f x ∂lam)

theorem Spec.SamplesFrom.one {q : Fin (N + 1) → X → ℝ} {Pr : Ex (Fin (N + 1) → X)} (h : SamplesFrom lam q Pr) {g : X → ℝ}
    (hg : Measurable g) (k : Fin (N + 1)) (f : X → ℝ≥0∞) (hf : Measurable f) :
    Pr (fun Xs => ENNReal.ofReal (Real.exp (g (Xs k) - q k (Xs k))) * f (Xs k)) = ∫⁻ x, ENNReal.ofReal (Real.exp (g x)) * f x ∂lam := by
  rw [← h.conditional hg k (fun x _ => f x) (by unfold Function.uncurry; fun_prop)]
  refine lintegral_congr fun x => ?_
  rw [(h.isKer (β := Unit)).const_fun (), h.mass, mul_one]

theorem freeDSys_meas [SFinite lam] (key : Key) (hM : ProperFK lam M) {resampling : Resampling Ex N}
    (hR : ∀ key, UnbiasedResampling (fun w i j => resampling key w i j false)) :
    SysMeas fun _ : Unit => freeDSys lam key M Mparams Gparams resampling := by
  obtain ⟨m0, c0, hm0, h0⟩ := hM.init
  choose m c hm hl hk using hM.step
  refine { Q0_ker := (h0 _).isKer, Q_ker := fun t => ?_, LW0_meas := ?_, LW_meas := fun t => ?_, R_ker := fun t => ?_ }
  · exact (hk (Mparams t) _).1.comp (g := fun p : Unit × PA X N × Fin (N + 1) × X => p.2.1) (by fun_prop)
  · refine measurable_pi_lambda _ fun i => ?_
    have : (fun p : Unit × PA X N => (freeDSys lam key M Mparams Gparams resampling).LW0 p.2 i) =
        fun p => M.Gamma0 (p.2 i) - (m0 (p.2 i) + c0) := funext fun p => congrArg (fun z => M.Gamma0 (p.2 i) - z) (hm0 _ _)
    rw [this]
    exact (hM.Gamma0_meas.comp (by fun_prop)).sub ((((h0 key).meas i).comp (by fun_prop)).add measurable_const)
  · refine measurable_pi_lambda _ fun i => ?_
    have : (fun p : Unit × PA X N × PA X N => (freeDSys lam key M Mparams Gparams resampling).LW t p.2.1 p.2.2 i) =
        fun p => M.Gammat (p.2.1 i) (p.2.2 i) (Gparams t) - (m (Mparams t) (p.2.1 i) (p.2.2 i) + c (Mparams t)) :=
      funext fun p => congrArg (fun z => M.Gammat (p.2.1 i) (p.2.2 i) (Gparams t) - z) (hl _ _ _ _)
    rw [this]
    exact ((hM.Gammat_meas _).sub ((hm _).add measurable_const)).comp
      (by fun_prop : Measurable fun p : Unit × PA X N × PA X N => (p.2.1 i, p.2.2 i))
  · exact (hR _).ker.comp (g := fun p : Unit × (Fin (N + 1) → ℝ) × Fin (N + 1) × Fin (N + 1) => p.2) (by fun_prop)

theorem freeDSys_free [SFinite lam] (key : Key) (hM : ProperFK lam M) {resampling : Resampling Ex N}
    (hR : ∀ key, UnbiasedResampling (fun w i j => resampling key w i j false)) (hm : ProposalLogs lam M Mparams m0 m)
    {c0 : ℝ} (hc0 : ∀ Xs i, M.M0_logpdf Xs i = m0 (Xs i) + c0) {c : Fin n → ℝ}
    (hc : ∀ t Ys Xs i, M.Mt_logpdf Ys Xs (Mparams t) i = m t (Ys i) (Xs i) + c t) :
    (freeDSys lam key M Mparams Gparams resampling).Uncond c0 c := by
  have hS := freeDSys_meas (Mparams := Mparams) (Gparams := Gparams) key hM hR
  refine
    { G0_ker := isKer_density (g := fun _ : Unit => M.Gamma0) (hM.Gamma0_meas.comp measurable_snd)
      G_ker := fun t => isKer_density (g := fun y x => M.Gammat y x (Gparams t)) (hM.Gammat_meas _)
      meas := hS
      unb := fun t w i j hw g => (hR _).sum hw i j g
      id0 := fun b x k g hg => ?_
      idt := fun t Y b x k g hg => ?_ }
  · show _ * M.M0_rvs _ (fun Xs => ENNReal.ofReal (Real.exp (M.Gamma0 (Xs k) - M.M0_logpdf Xs k)) * g (Xs k)) =
      ∫⁻ x, ENNReal.ofReal (Real.exp (M.Gamma0 x)) * g x ∂lam
    rw [← (hm.init (splitKey key 3 0)).one hM.Gamma0_meas k g hg, ← ((hm.init (splitKey key 3 0)).isKer (β := Unit)).const_mul ()]
    · refine Ex.congr_fun' _ fun Xs => ?_
      rw [hc0, ← mul_assoc, ← ofReal_exp_add]
      congr 3
      ring
    · simp only [hc0]
      have h1 := (hm.init key).meas k
      have h2 := hM.Gamma0_meas
      exact (measurable_expR (by fun_prop)).mul (by fun_prop)
  · show _ * M.Mt_rvs _ Y (Mparams t) (fun Xs => ENNReal.ofReal (Real.exp (M.Gammat (Y k) (Xs k) (Gparams t) -
        M.Mt_logpdf Y Xs (Mparams t) k)) * g (Xs k)) =
      ∫⁻ x, ENNReal.ofReal (Real.exp (M.Gammat (Y k) x (Gparams t))) * g x ∂lam
    have h2 : Measurable fun x => M.Gammat (Y k) x (Gparams t) :=
      (hM.Gammat_meas (Gparams t)).comp (by fun_prop : Measurable fun x : X => (Y k, x))
    have hs := hm.step t (splitKey (splitKey (splitKey key 3 1) n t) 2 0) Y
    rw [← hs.one h2 k g hg, ← (hs.isKer (β := Unit)).const_mul ()]
    · refine Ex.congr_fun' _ fun Xs => ?_
      rw [hc, ← mul_assoc, ← ofReal_exp_add]
      congr 3
      ring
    · simp only [hc]
      have h1 := hs.meas k
      exact (measurable_expR (by fun_prop)).mul (by fun_prop)

theorem meanW_eq (c : ℝ) (lw : Fin (N + 1) → ℝ) : meanW c lw = ENNReal.ofReal ((∑ i, Real.exp (lw i + c)) / (N + 1)) := by
  have h : (0 : ℝ) < N + 1 := by positivity
  rw [meanW, sumExp_eq, ← ENNReal.ofReal_mul (Real.exp_pos _).le, ENNReal.ofReal_div_of_pos h, ENNReal.ofReal_add (by positivity) zero_le_one,
    ENNReal.ofReal_natCast, ENNReal.ofReal_one]
  congr 2
  rw [mul_sum]
  exact sum_congr rfl fun i _ => by rw [← Real.exp_add, add_comm]

theorem zhat_evidence (key : Key) {resampling : Resampling Ex N} {c0 : ℝ} (hc0 : ∀ Xs i, M.M0_logpdf Xs i = m0 (Xs i) + c0) {c : Fin n → ℝ}
    (hc : ∀ t Ys Xs i, M.Mt_logpdf Ys Xs (Mparams t) i = m t (Ys i) (Xs i) + c t) (h : Hist X N n) :
    (freeDSys lam key M Mparams Gparams resampling).zhat c0 c h =
      ENNReal.ofReal (evidence M.Gamma0 (fun t y x => M.Gammat y x (Gparams t)) m0 m h.2 h.1) := by
  have h0 : ∀ lw : Fin (N + 1) → ℝ, 0 ≤ (∑ i, Real.exp (lw i)) / ((N : ℝ) + 1) := fun lw => by positivity
  rw [Sys.zhat_eq, evidence, ENNReal.ofReal_mul (h0 _), ENNReal.ofReal_prod_of_nonneg fun t _ => h0 _, Sys.lws_zero, meanW_eq]
  congr 1
  · congr 2
    refine sum_congr rfl fun i _ => ?_
    show Real.exp (M.Gamma0 (h.2 0 i) - M.M0_logpdf (h.2 0) i + c0) = _
    rw [hc0]
    congr 1
    ring
  · refine prod_congr rfl fun t _ => ?_
    rw [Sys.lws_succ, meanW_eq]
    congr 2
    refine sum_congr rfl fun i _ => ?_
    show Real.exp (M.Gammat (h.2 t.castSucc (h.1 t i)) (h.2 t.succ i) (Gparams t) -
      M.Mt_logpdf (take (h.2 t.castSucc) (h.1 t)) (h.2 t.succ) (Mparams t) i + c t) = _
    rw [hc]
    congr 1
    show _ - (m t (h.2 t.castSucc (h.1 t i)) _ + c t) + c t = _
    ring

/-- The path measure of an unconditional system with transition densities. -/
theorem Sys.Uncond.path_eq {n : ℕ} {S : Sys X N n} {c0 : ℝ} {c : Fin n → ℝ} (hS : S.Uncond c0 c) [SigmaFinite lam]
    {Γ0 : X → ℝ} {Γ : Fin n → X → X → ℝ} (h0 : Measurable Γ0)
    (hG0 : ∀ f, Measurable f → S.G0 f = ∫⁻ x, ENNReal.ofReal (Real.exp (Γ0 x)) * f x ∂lam)
    (hd : S.Density lam Γ) (f : (Fin (n + 1) → X) → ℝ≥0∞) (hf : Measurable f) :
    S.path f = ∫⁻ x, ENNReal.ofReal (Real.exp (pathLogDensity Γ0 Γ x)) * f x
      ∂(Measure.pi fun _ => lam) := by
  have hm : ∀ {n : ℕ} {Γ : Fin n → X → X → ℝ}, (∀ t, Measurable fun p : X × X => Γ t p.1 p.2) →
      Measurable fun x => ENNReal.ofReal (Real.exp (pathLogDensity Γ0 Γ x)) := fun h =>
    ENNReal.measurable_ofReal.comp (Real.measurable_exp.comp (measurable_pathLogDensity h0 h))
  induction n with
  | zero =>
    have hmf : Measurable fun x => ENNReal.ofReal (Real.exp (pathLogDensity Γ0 Γ x)) * f x :=
      (hm hd.meas).mul hf
    rw [lintegral_pi_fin_one _ _ hmf]
    have : S.path f = S.G0 (fun x => f (fun _ => x)) := rfl
    rw [this, hG0 _ (by fun_prop)]
    refine lintegral_congr fun x => ?_
    simp [pathLogDensity]
  | succ n ih =>
    have h1 : S.path f = S.init.path (fun x => S.G (Fin.last n) (lastA x) (fun xl => f (snocA x xl))) :=
      rfl
    have hm1 : Measurable fun x : Fin (n + 1) → X =>
        S.G (Fin.last n) (lastA x) (fun xl => f (snocA x xl)) :=
      ((hS.G_ker _).comp (g := fun x : Fin (n + 1) → X => lastA x) (by fun_prop)).measurable
        (f := fun x xl => f (snocA x xl)) (by unfold Function.uncurry; fun_prop)
    have hmf : Measurable fun x => ENNReal.ofReal (Real.exp (pathLogDensity Γ0 Γ x)) * f x :=
      (hm hd.meas).mul hf
    rw [h1, ih hS.init hG0 hd.init _ hm1, lintegral_pi_snoc _ _ hmf]
    refine lintegral_congr fun x => ?_
    rw [hd.eq _ _ _ (by fun_prop)]
    have hΓm : Measurable fun xl => ENNReal.ofReal (Real.exp (Γ (Fin.last n) (lastA x) xl)) *
        f (snocA x xl) := by
      refine Measurable.mul ?_ (by fun_prop)
      exact ENNReal.measurable_ofReal.comp (Real.measurable_exp.comp ((hd.meas _).comp
        (by fun_prop : Measurable fun xl : X => (lastA x, xl))))
    rw [← lintegral_const_mul _ hΓm]
    refine lintegral_congr fun xl => ?_
    rw [pathLogDensity_snoc, Real.exp_add, ENNReal.ofReal_mul (Real.exp_pos _).le, mul_assoc]

end proper

end Verif
