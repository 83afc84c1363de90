import Verif.Lemmas.CsmcReduce
import Verif.Lemmas.PiMeasure
import Verif.Lemmas.Schemes

/-!
# `csmc.kernel` as an abstract conditional particle system
-/

open scoped ENNReal
open MeasureTheory ProbabilityTheory Finset

namespace Verif
open Verif.Spec Verif.Model

/-- The whole conditional kernel: forward pass, move of the last index, backward pass. -/
noncomputable def Sys.kernel {X : Type} {N n : ℕ} (S : Sys X N n) (Γ : Fin n → X → X → ℝ)
    (move : (Fin (N + 1) → ℝ) → Fin (N + 1) → Ex (Fin (N + 1))) (backward : Bool)
    (x : Fin (n + 1) → X) (b : Fin (n + 1) → Fin (N + 1)) :
    Ex ((Fin (n + 1) → X) × (Fin (n + 1) → Fin (N + 1))) := do
  let h ← S.fwd b x
  let k ← move (S.wLast h) (lastA b)
  if backward then S.bs Γ h k else pure (h.tracex k, h.trace k)

section path
variable {X : Type} [MeasurableSpace X] {N n : ℕ}

omit [MeasurableSpace X] in
theorem pathLogDensity_snoc (Γ0 : X → ℝ) (Γ : Fin (n + 1) → X → X → ℝ) (x : Fin (n + 1) → X) (xl : X) :
    pathLogDensity Γ0 Γ (snocA x xl) =
      pathLogDensity Γ0 (initA Γ) x + Γ (Fin.last n) (lastA x) xl := by
  unfold pathLogDensity
  rw [Fin.sum_univ_castSucc]
  have h0 : (snocA x xl) 0 = x 0 := snocA_castSucc x xl 0
  have hl : (snocA x xl) (Fin.last n).castSucc = lastA x := snocA_castSucc _ _ _
  have hs : (snocA x xl) (Fin.last n).succ = xl := by rw [Fin.succ_last]; exact snocA_last _ _
  rw [h0, hl, hs, ← add_assoc]
  congr 2
  refine Finset.sum_congr rfl fun t _ => ?_
  rw [snocA_castSucc, ← Fin.castSucc_succ, snocA_castSucc]
  rfl

theorem measurable_pathLogDensity {Γ0 : X → ℝ} {Γ : Fin n → X → X → ℝ} (h0 : Measurable Γ0)
    (h : ∀ t, Measurable fun p : X × X => Γ t p.1 p.2) : Measurable (pathLogDensity Γ0 Γ) := by
  unfold pathLogDensity
  refine Measurable.add (h0.comp (measurable_pi_apply 0)) ?_
  refine Finset.measurable_fun_sum _ fun t _ => ?_
  exact (h t).comp (by fun_prop : Measurable fun x : Fin (n + 1) → X => (x t.castSucc, x t.succ))

/-- The path measure of a system with transition densities is an integral against a product. -/
theorem Sys.OK.path_eq {n : ℕ} {S : Sys X N n} (hS : S.OK) {lam : Measure X} [SigmaFinite lam]
    {Γ0 : X → ℝ} {Γ : Fin n → X → X → ℝ} (h0 : Measurable Γ0)
    (hG0 : ∀ f, Measurable f → S.G0 f = ∫⁻ x, ENNReal.ofReal (Real.exp (Γ0 x)) * f x ∂lam)
    (hd : S.Density lam Γ) (f : (Fin (n + 1) → X) → ℝ≥0∞) (hf : Measurable f) :
    S.path f = ∫⁻ x, ENNReal.ofReal (Real.exp (pathLogDensity Γ0 Γ x)) * f x
      ∂(Measure.pi fun _ => lam) := by
  have hm : ∀ {n : ℕ} {Γ : Fin n → X → X → ℝ}, (∀ t, Measurable fun p : X × X => Γ t p.1 p.2) →
      Measurable fun x => ENNReal.ofReal (Real.exp (pathLogDensity Γ0 Γ x)) := fun h =>
    ENNReal.measurable_ofReal.comp (Real.measurable_exp.comp (measurable_pathLogDensity h0 h))
  induction n with
  | zero =>
    have hmf : Measurable fun x => ENNReal.ofReal (Real.exp (pathLogDensity Γ0 Γ x)) * f x :=
      (hm hd.meas).mul hf
    rw [lintegral_pi_fin_one _ _ hmf]
    have : S.path f = S.G0 (fun x => f (fun _ => x)) := rfl
    rw [this, hG0 _ (by fun_prop)]
    refine lintegral_congr fun x => ?_
    simp [pathLogDensity]
  | succ n ih =>
    have h1 : S.path f = S.init.path (fun x => S.G (Fin.last n) (lastA x) (fun xl => f (snocA x xl))) :=
      rfl
    have hm1 : Measurable fun x : Fin (n + 1) → X =>
        S.G (Fin.last n) (lastA x) (fun xl => f (snocA x xl)) :=
      ((hS.G_ker _).comp (g := fun x : Fin (n + 1) → X => lastA x) (by fun_prop)).measurable
        (f := fun x xl => f (snocA x xl)) (by unfold Function.uncurry; fun_prop)
    have hmf : Measurable fun x => ENNReal.ofReal (Real.exp (pathLogDensity Γ0 Γ x)) * f x :=
      (hm hd.meas).mul hf
    rw [h1, ih hS.init hG0 hd.init _ hm1, lintegral_pi_snoc _ _ hmf]
    refine lintegral_congr fun x => ?_
    rw [hd.eq _ _ _ (by fun_prop)]
    have hΓm : Measurable fun xl => ENNReal.ofReal (Real.exp (Γ (Fin.last n) (lastA x) xl)) *
        f (snocA x xl) := by
      refine Measurable.mul ?_ (by fun_prop)
      exact ENNReal.measurable_ofReal.comp (Real.measurable_exp.comp ((hd.meas _).comp
        (by fun_prop : Measurable fun xl : X => (lastA x, xl))))
    rw [← lintegral_const_mul _ hΓm]
    refine lintegral_congr fun xl => ?_
    rw [pathLogDensity_snoc, Real.exp_add, ENNReal.ofReal_mul (Real.exp_pos _).le, mul_assoc]

/-- The kernel of an abstract conditional particle system denotes a kernel. -/
theorem Sys.OK.kernel_ker {S : Sys X N n} (hS : S.OK) {Γ : Fin n → X → X → ℝ}
    (hΓ : ∀ t, Measurable fun p : X × X => Γ t p.1 p.2)
    {move : (Fin (N + 1) → ℝ) → Fin (N + 1) → Ex (Fin (N + 1))} (hm : MoveKer move)
    (backward : Bool) :
    IsKer (fun p : (Fin (n + 1) → X) × (Fin (n + 1) → Fin (N + 1)) =>
      S.kernel Γ move backward p.1 p.2) := by
  have hw : Measurable fun p : ((Fin (n + 1) → X) × (Fin (n + 1) → Fin (N + 1))) × Hist X N n =>
      S.wLast p.2 := hS.measurable_wLast.comp measurable_snd
  have h2 : IsKer (fun p : (((Fin (n + 1) → X) × (Fin (n + 1) → Fin (N + 1))) × Hist X N n) ×
      Fin (N + 1) => if backward = true then S.bs Γ p.1.2 p.2
        else (pure (p.1.2.tracex p.2, p.1.2.trace p.2) : Ex _)) := by
    cases backward with
    | true =>
      simpa using (hS.bs_ker hΓ).comp (by fun_prop : Measurable fun p : (((Fin (n + 1) → X) ×
        (Fin (n + 1) → Fin (N + 1))) × Hist X N n) × Fin (N + 1) => (p.1.2, p.2))
    | false =>
      simpa using IsKer.pure (by fun_prop : Measurable fun p : (((Fin (n + 1) → X) ×
        (Fin (n + 1) → Fin (N + 1))) × Hist X N n) × Fin (N + 1) => (p.1.2.tracex p.2, p.1.2.trace p.2))
  have h1 : IsKer (fun p : ((Fin (n + 1) → X) × (Fin (n + 1) → Fin (N + 1))) × Hist X N n =>
      move (S.wLast p.2) (lastA p.1.2) >>= fun k => if backward = true then S.bs Γ p.2 k
        else (pure (p.2.tracex k, p.2.trace k) : Ex _)) :=
    IsKer.bind (hm.comp (g := fun p : ((Fin (n + 1) → X) × (Fin (n + 1) → Fin (N + 1))) ×
      Hist X N n => (S.wLast p.2, lastA p.1.2)) (hw.prodMk (by fun_prop))) h2
  exact IsKer.bind (hS.fwd_ker.comp (g := fun p : (Fin (n + 1) → X) × (Fin (n + 1) → Fin (N + 1)) =>
    (p.2, p.1)) (by fun_prop)) h1

/-- **Invariance** of the kernel of an abstract conditional particle system. -/
theorem Sys.OK.kernel_invariant {S : Sys X N n} (hS : S.OK) {lam : Measure X} [SigmaFinite lam]
    {Γ0 : X → ℝ} {Γ : Fin n → X → X → ℝ} (h0 : Measurable Γ0)
    (hG0 : ∀ f, Measurable f → S.G0 f = ∫⁻ x, ENNReal.ofReal (Real.exp (Γ0 x)) * f x ∂lam)
    (hd : S.Density lam Γ) {move : (Fin (N + 1) → ℝ) → Fin (N + 1) → Ex (Fin (N + 1))}
    (hm : MoveInvariant move) (backward : Bool) :
    LeavesInvariant lam (pathLogDensity Γ0 Γ) (S.kernel Γ move backward) := by
  intro f hf
  have hK := hS.kernel_ker hd.meas hm.ker backward
  have hKm : ∀ b, Measurable fun x => S.kernel Γ move backward x b f := fun b =>
    (hK.measurable' hf).comp (by fun_prop : Measurable fun x : Fin (n + 1) → X => (x, b))
  have h1 : ∀ b, ∫⁻ x, ENNReal.ofReal (Real.exp (pathLogDensity Γ0 Γ x)) *
      S.kernel Γ move backward x b f ∂(Measure.pi fun _ => lam) =
      S.path (fun x => S.kernel Γ move backward x b f) := fun b =>
    (hS.path_eq h0 hG0 hd _ (hKm b)).symm
  have h2 : ∀ b, ∫⁻ x, ENNReal.ofReal (Real.exp (pathLogDensity Γ0 Γ x)) *
      f (x, b) ∂(Measure.pi fun _ => lam) = S.path (fun x => f (x, b)) := fun b =>
    (hS.path_eq h0 hG0 hd _ (by fun_prop)).symm
  simp only [h1, h2]
  cases backward with
  | true => exact hS.sampling_invariant hd hm f hf
  | false => exact hS.scanning_invariant hm (fun x b => f (x, b)) hf

end path

section csmc
variable {X P G : Type} {N n : ℕ}

/-- The abstract system behind `csmc.kernel`; the target (`G0`, `G`) and the unconditional laws of the
particles (`Z0`, `Z`) are free parameters. -/
noncomputable def csmcSys (key : Key) (M : FK Ex X P G N) (Mparams : Fin n → P) (Gparams : Fin n → G)
    (resampling : Resampling Ex N) (G0 : Ex X) (Gt : Fin n → X → Ex X) (Z0 : Ex (PA X N))
    (Z : Fin n → PA X N → Ex (PA X N)) : Sys X N n where
  G0 := G0
  G := Gt
  Q0 b x := do
    let Xs ← M.M0_rvs (splitKey key 3 0)
    pure (atSet Xs b x)
  LW0 Xs i := M.Gamma0 (Xs i) - M.M0_logpdf Xs i
  Q t Y b x := do
    let Xs ← M.Mt_rvs (splitKey (splitKey (splitKey key 3 1) n t) 2 0) Y (Mparams t)
    pure (atSet Xs b x)
  LW t Y Xs i := M.Gammat (Y i) (Xs i) (Gparams t) - M.Mt_logpdf Y Xs (Mparams t) i
  R t w i j := resampling (splitKey (splitKey (splitKey key 3 1) n t) 2 1) w i j true
  Z0 := Z0
  Z := Z

/-- The forward pass of `csmc.py` is the abstract one. -/
theorem forward_pass_eq {β : Type} (key : Key) (M : FK Ex X P G N) (Mparams : Fin n → P)
    (Gparams : Fin n → G) (resampling : Resampling Ex N) (G0 : Ex X) (Gt : Fin n → X → Ex X)
    (Z0 : Ex (PA X N)) (Z : Fin n → PA X N → Ex (PA X N)) (x : Fin (n + 1) → X)
    (b : Fin (n + 1) → Fin (N + 1)) (k : FwdOut X N n → Ex β) :
    let S := csmcSys key M Mparams Gparams resampling G0 Gt Z0 Z
    ((forward_pass key x b M Mparams Gparams resampling true : Ex _) >>= k) =
      S.fwd b x >>= fun h => k ⟨h.1, splitKey key 3 2, fun t => normalizeLog (S.lws h t), h.2⟩ := by
  intro S
  have h1 := scan_eq_fwd (β := β) S b x (fwdBody M resampling true)
    (fwdInputs (splitKey key 3 1) x b Mparams Gparams)
    (fun t y a Xs => (normalizeLog (S.LW t (take y a) Xs), a, Xs)) (fun t w y => rfl)
    (fun x0 r => k ⟨fun t => (r.2 t).2.1, splitKey key 3 2,
      insert0 (normalizeLog (S.LW0 x0)) (fun t => (r.2 t).1), insert0 x0 (fun t => (r.2 t).2.2)⟩)
  have h2 : ((forward_pass key x b M Mparams Gparams resampling true : Ex _) >>= k) = (do
      let x0 ← S.Q0 (b 0) (x 0)
      let r ← scanM (fwdBody M resampling true) (normalizeW (S.LW0 x0), x0)
        (fwdInputs (splitKey key 3 1) x b Mparams Gparams)
      k ⟨fun t => (r.2 t).2.1, splitKey key 3 2,
      insert0 (normalizeLog (S.LW0 x0)) (fun t => (r.2 t).1), insert0 x0 (fun t => (r.2 t).2.2)⟩) := rfl
  rw [h2, h1]
  congr 1
  funext h
  have e1 : (insert0 (normalizeLog (S.LW0 (h.2 0))) fun t =>
      normalizeLog (S.LW t (take (h.2 t.castSucc) (h.1 t)) (h.2 t.succ))) =
      fun t => normalizeLog (S.lws h t) := by
    funext t
    refine Fin.cases ?_ (fun s => ?_) t
    · rw [insert0_zero, S.lws_zero]
    · rw [insert0_succ, S.lws_succ]
  have e2 : (insert0 (h.2 0) fun t : Fin n => h.2 t.succ) = h.2 := insert0_tailA h.2
  rw [e1, e2]

/-- `csmc.kernel` is the kernel of the abstract system. -/
theorem csmc_kernel_eq (key : Key) (M : FK Ex X P G N) (Mparams : Fin n → P)
    (Gparams : Fin n → G) (resampling : Resampling Ex N) (mv : AncestorMove Ex N) (backward : Bool)
    (G0 : Ex X) (Gt : Fin n → X → Ex X)
    (Z0 : Ex (PA X N)) (Z : Fin n → PA X N → Ex (PA X N)) (x : Fin (n + 1) → X)
    (b : Fin (n + 1) → Fin (N + 1)) :
    let S := csmcSys key M Mparams Gparams resampling G0 Gt Z0 Z
    ((csmc_kernel key x b M Mparams Gparams resampling mv backward true : Ex _) >>=
      fun r => pure (r.xs, r.Bs)) =
      S.kernel (fun t y x => M.Gammat y x (Gparams t))
        (moveIndex mv (if backward then lastA (splitKey (splitKey key 3 2) (n + 1)) else splitKey key 3 2))
        backward x b := by
  intro S
  have h1 := forward_pass_eq key M Mparams Gparams resampling G0 Gt Z0 Z x b (fun F => do
    let r ← if backward then
        backward_sampling_pass F.key_backward M.Gammat Gparams (lastA b) F.xs F.log_ws mv true
      else
        backward_scanning_pass F.key_backward F.As (lastA b) F.xs (lastA F.log_ws) mv
    (pure (r.1, r.2) : Ex _))
  have h2 : ((csmc_kernel key x b M Mparams Gparams resampling mv backward true : Ex _) >>=
      fun r => pure (r.xs, r.Bs)) =
      ((forward_pass key x b M Mparams Gparams resampling true : Ex _) >>= fun F => do
    let r ← if backward then
        backward_sampling_pass F.key_backward M.Gammat Gparams (lastA b) F.xs F.log_ws mv true
      else
        backward_scanning_pass F.key_backward F.As (lastA b) F.xs (lastA F.log_ws) mv
    (pure (r.1, r.2) : Ex _)) := by cases backward <;> rfl
  rw [h2, h1]
  show (S.fwd b x >>= fun h => _) = (S.fwd b x >>= fun h => _)
  congr 1
  funext h
  have hw : normalizeW (normalizeLog (S.lws h (Fin.last n))) = S.wLast h := by
    rw [normalize_normalizeLog]
    exact congrArg normalizeW (S.lws_last h)
  cases backward with
  | true =>
    have hl : SameWeights (fun t => normalizeLog (S.lws h t)) (S.lws h) := fun t =>
      ⟨-logsumexp (S.lws h t), fun i => rfl⟩
    have h3 := fun k => bs_eq S M.Gammat Gparams h _ hl (initA (splitKey (splitKey key 3 2) (n + 1))) k
    have h4 : (backward_sampling_pass (splitKey key 3 2) M.Gammat Gparams (lastA b) h.2
        (fun t => normalizeLog (S.lws h t)) mv true : Ex _) =
        moveIndex mv (lastA (splitKey (splitKey key 3 2) (n + 1))) (S.wLast h) (lastA b) >>= fun k =>
          S.bs (fun t y x => M.Gammat y x (Gparams t)) h k := by
      simp only [← h3]
      rw [← hw]
      rfl
    show (backward_sampling_pass (splitKey key 3 2) M.Gammat Gparams (lastA b) h.2
        (fun t => normalizeLog (S.lws h t)) mv true : Ex _) = _
    rw [h4]
    rfl
  | false =>
    have h4 : (backward_scanning_pass (splitKey key 3 2) h.1 (lastA b) h.2
        (normalizeLog (S.lws h (Fin.last n))) mv : Ex _) =
        moveIndex mv (splitKey key 3 2) (S.wLast h) (lastA b) >>= fun k =>
          pure (h.tracex k, h.trace k) := by
      have h5 := fun k => bscan_eq h k
      simp only at h5
      have h6 : ∀ k, (pure (h.tracex k, h.trace k) : Ex _) = pure _ := fun k => by
        rw [← (h5 k).1, ← (h5 k).2]
      simp only [h6]
      rw [← hw]
      rfl
    show (backward_scanning_pass (splitKey key 3 2) h.1 (lastA b) h.2
        (normalizeLog (S.lws h (Fin.last n))) mv : Ex _) = _
    rw [h4]
    rfl

end csmc

end Verif
