import Verif.Lemmas.AuxFamily

/-!
# Conditional particle systems for models with memory two

The particles are pairs (value of the parent, own value).  The backward sampling pass chooses the particle of time `t`
given the already chosen values at times `t + 1` and `t + 2`.
-/

open scoped ENNReal
open MeasureTheory ProbabilityTheory

namespace Verif
open Verif.Spec Verif.Model

section defs
variable {V : Type} {N n : ℕ}

/-- The trajectory of pairs (previous value, value); the first pair is completed with `c`. -/
def lift2 (c : V) (x : Fin (n + 1) → V) : Fin (n + 1) → V × V :=
  insert0 (c, x 0) (fun t => (x t.castSucc, x t.succ))

theorem lift2_snd (c : V) (x : Fin (n + 1) → V) (t : Fin (n + 1)) : (lift2 c x t).2 = x t := by
  refine Fin.cases rfl (fun t => rfl) t

theorem lift2_snoc (c : V) (x : Fin (n + 1) → V) (v : V) :
    lift2 c (snocA x v) = snocA (lift2 c x) (lastA x, v) := by
  have h0 : (snocA x v) 0 = x 0 := snocA_castSucc x v 0
  have h1 : (fun t : Fin (n + 1) => ((snocA x v) t.castSucc, (snocA x v) t.succ)) =
      snocA (fun t : Fin n => (x t.castSucc, x t.succ)) (lastA x, v) := by
    funext t
    refine Fin.lastCases ?_ (fun s => ?_) t
    · rw [snocA_last, snocA_castSucc, Fin.succ_last, snocA_last]; rfl
    · rw [snocA_castSucc, snocA_castSucc, ← Fin.castSucc_succ, snocA_castSucc]
  unfold lift2
  rw [h0, h1, insert0_snocA]

/-- Path log-density of a model with memory two. -/
def pathLogDensity2 (c : V) (Γ0 : V → ℝ) (Γ : Fin n → V × V → V → ℝ) (x : Fin (n + 1) → V) : ℝ :=
  Γ0 (x 0) + ∑ t : Fin n, Γ t (lift2 c x t.castSucc) (x t.succ)

theorem pathLogDensity2_snoc (c : V) (Γ0 : V → ℝ) (Γ : Fin (n + 1) → V × V → V → ℝ) (x : Fin (n + 1) → V) (v : V) :
    pathLogDensity2 c Γ0 Γ (snocA x v) =
      pathLogDensity2 c Γ0 (initA Γ) x + Γ (Fin.last n) (lastA (lift2 c x)) v := by
  unfold pathLogDensity2
  rw [Fin.sum_univ_castSucc]
  have h0 : (snocA x v) 0 = x 0 := snocA_castSucc x v 0
  have hs : (snocA x v) (Fin.last n).succ = v := by rw [Fin.succ_last]; exact snocA_last _ _
  rw [h0, hs, ← add_assoc, lift2_snoc, snocA_castSucc]
  congr 2
  refine Finset.sum_congr rfl fun t _ => ?_
  rw [snocA_castSucc, ← Fin.castSucc_succ, snocA_castSucc]
  rfl

/-- Backward sampling from particle `k` of the last time step; `τ` is the log-weight of the value at the time step
before it that comes from the values chosen already. -/
noncomputable def Sys.bs2 : {n : ℕ} → Sys (V × V) N n → (Fin n → V × V → V → ℝ) → (V → ℝ) →
    Hist (V × V) N n → Fin (N + 1) → Ex ((Fin (n + 1) → V) × (Fin (n + 1) → Fin (N + 1)))
  | 0, _, _, _, h, k => pure (fun _ => (h.2 0 k).2, fun _ => k)
  | n + 1, S, Γ, τ, h, k => do
    let i ← choice [] (normalizeW (fun i => S.init.lwLast h.init i +
      Γ (Fin.last n) (lastA h.init.2 i) (lastA h.2 k).2 + τ (lastA h.init.2 i).2))
    let r ← S.init.bs2 (initA Γ) (fun y => Γ (Fin.last n) (y, (lastA h.init.2 i).2) (lastA h.2 k).2) h.init i
    pure (snocA r.1 (lastA h.2 k).2, snocA r.2 k)

/-- The whole conditional kernel for a model with memory two. -/
noncomputable def Sys.kernel2 (S : Sys (V × V) N n) (c : V) (Γ : Fin n → V × V → V → ℝ)
    (move : (Fin (N + 1) → ℝ) → Fin (N + 1) → Ex (Fin (N + 1))) (backward : Bool)
    (x : Fin (n + 1) → V) (b : Fin (n + 1) → Fin (N + 1)) :
    Ex ((Fin (n + 1) → V) × (Fin (n + 1) → Fin (N + 1))) := do
  let h ← S.fwd b (lift2 c x)
  let k ← move (S.wLast h) (lastA b)
  if backward then S.bs2 Γ (fun _ => 0) h k else pure (fun t => (h.tracex k t).2, h.trace k)

theorem Sys.bs2_last {n : ℕ} (S : Sys (V × V) N n) (Γ : Fin n → V × V → V → ℝ) (τ : V → ℝ) (h : Hist (V × V) N n)
    (k : Fin (N + 1)) (f : V → (Fin (n + 1) → V) × (Fin (n + 1) → Fin (N + 1)) → ℝ≥0∞) :
    S.bs2 Γ τ h k (fun r => f (lastA r.1) r) = S.bs2 Γ τ h k (fun r => f (lastA h.2 k).2 r) := by
  cases n with
  | zero => rfl
  | succ n =>
    show (∑ i, _ * S.init.bs2 (initA Γ) _ h.init i _) = (∑ i, _ * S.init.bs2 (initA Γ) _ h.init i _)
    simp only [Ex.pure_def, lastA_snocA]

end defs

variable {V : Type} [MeasurableSpace V] {N n : ℕ}

@[fun_prop] theorem measurable_lift2 (c : V) {β : Type} [MeasurableSpace β] {x : β → Fin (n + 1) → V}
    (hx : Measurable x) : Measurable fun p => lift2 c (x p) := by
  refine measurable_pi_lambda _ fun t => ?_
  refine Fin.cases ?_ (fun t => ?_) t
  · show Measurable fun p => (c, x p 0)
    fun_prop
  · show Measurable fun p => (x p t.castSucc, x p t.succ)
    fun_prop

theorem measurable_pathLogDensity2 (c : V) {Γ0 : V → ℝ} {Γ : Fin n → V × V → V → ℝ} (h0 : Measurable Γ0)
    (h : ∀ t, Measurable fun p : (V × V) × V => Γ t p.1 p.2) : Measurable (pathLogDensity2 c Γ0 Γ) := by
  unfold pathLogDensity2
  refine Measurable.add (h0.comp (measurable_pi_apply 0)) ?_
  refine Finset.measurable_fun_sum _ fun t _ => ?_
  have h1 : Measurable fun x : Fin (n + 1) → V => lift2 c x := measurable_lift2 c measurable_id
  exact (h t).comp (((measurable_pi_apply t.castSucc).comp h1).prodMk (measurable_pi_apply t.succ))

/-- The target of the system of pairs has density `exp Γ`. -/
structure Sys.Density2 (S : Sys (V × V) N n) (lam : Measure V) (Γ : Fin n → V × V → V → ℝ) : Prop where
  meas : ∀ t, Measurable fun p : (V × V) × V => Γ t p.1 p.2
  eq : ∀ t y f, Measurable f → S.G t y f = ∫⁻ x, ENNReal.ofReal (Real.exp (Γ t y x)) * f (y.2, x) ∂lam

theorem Sys.Density2.init {lam : Measure V} {S : Sys (V × V) N (n + 1)} {Γ : Fin (n + 1) → V × V → V → ℝ}
    (h : S.Density2 lam Γ) : S.init.Density2 lam (initA Γ) :=
  ⟨fun t => h.meas t.castSucc, fun t => h.eq t.castSucc⟩

/-- The path measure of the system of pairs. -/
theorem Sys.OK.path_eq2 {n : ℕ} {S : Sys (V × V) N n} (hS : S.OK) {lam : Measure V} [SigmaFinite lam] {c : V}
    {Γ0 : V → ℝ} {Γ : Fin n → V × V → V → ℝ} (h0 : Measurable Γ0)
    (hG0 : ∀ f, Measurable f → S.G0 f = ∫⁻ x, ENNReal.ofReal (Real.exp (Γ0 x)) * f (c, x) ∂lam)
    (hd : S.Density2 lam Γ) (f : (Fin (n + 1) → V × V) → ℝ≥0∞) (hf : Measurable f) :
    S.path f = ∫⁻ x, ENNReal.ofReal (Real.exp (pathLogDensity2 c Γ0 Γ x)) * f (lift2 c x)
      ∂(Measure.pi fun _ => lam) := by
  induction n with
  | zero =>
    have hmf : Measurable fun x => ENNReal.ofReal (Real.exp (pathLogDensity2 c Γ0 Γ x)) * f (lift2 c x) :=
      measurable_expR_mul (measurable_pathLogDensity2 c h0 hd.meas) (by fun_prop)
    rw [lintegral_pi_fin_one _ _ hmf]
    have : S.path f = S.G0 (fun x => f (fun _ => x)) := rfl
    rw [this, hG0 _ (by fun_prop)]
    refine lintegral_congr fun x => ?_
    have e : lift2 c (fun _ : Fin 1 => x) = fun _ => (c, x) := by
      funext t; rw [Fin.fin_one_eq_zero t]; rfl
    rw [e]
    simp [pathLogDensity2]
  | succ n ih =>
    have h1 : S.path f = S.init.path (fun x => S.G (Fin.last n) (lastA x) (fun xl => f (snocA x xl))) :=
      rfl
    have hm1 : Measurable fun x : Fin (n + 1) → V × V =>
        S.G (Fin.last n) (lastA x) (fun xl => f (snocA x xl)) :=
      ((hS.G_ker _).comp (g := fun x : Fin (n + 1) → V × V => lastA x) (by fun_prop)).measurable
        (f := fun x xl => f (snocA x xl)) (by unfold Function.uncurry; fun_prop)
    have hmf : Measurable fun x => ENNReal.ofReal (Real.exp (pathLogDensity2 c Γ0 Γ x)) * f (lift2 c x) :=
      measurable_expR_mul (measurable_pathLogDensity2 c h0 hd.meas) (by fun_prop)
    rw [h1, ih hS.init hG0 hd.init _ hm1, lintegral_pi_snoc _ _ hmf]
    refine lintegral_congr fun x => ?_
    rw [hd.eq _ _ _ (by fun_prop)]
    have hl : (lastA (lift2 c x)).2 = lastA x := lift2_snd c x _
    have hΓm : Measurable fun xl => ENNReal.ofReal (Real.exp (Γ (Fin.last n) (lastA (lift2 c x)) xl)) *
        f (snocA (lift2 c x) (lastA x, xl)) := by
      refine measurable_expR_mul ((hd.meas _).comp (by fun_prop : Measurable fun xl : V => (lastA (lift2 c x), xl))) ?_
      fun_prop
    rw [hl, ← lintegral_const_mul _ hΓm]
    refine lintegral_congr fun xl => ?_
    rw [pathLogDensity2_snoc, Real.exp_add, ENNReal.ofReal_mul (Real.exp_pos _).le, mul_assoc, lift2_snoc]

/-! ### Families of systems -/

section families

theorem SysMeas.comp {X Θ Θ' : Type} [MeasurableSpace X] [MeasurableSpace Θ] [MeasurableSpace Θ'] {n : ℕ}
    {S : Θ → Sys X N n} (h : SysMeas S) {g : Θ' → Θ} (hg : Measurable g) : SysMeas (fun θ => S (g θ)) where
  Q0_ker := h.Q0_ker.comp (by fun_prop : Measurable fun p : Θ' × Fin (N + 1) × X => (g p.1, p.2))
  Q_ker t := (h.Q_ker t).comp (by fun_prop : Measurable fun p : Θ' × PA X N × Fin (N + 1) × X => (g p.1, p.2))
  LW0_meas := h.LW0_meas.comp (by fun_prop : Measurable fun p : Θ' × PA X N => (g p.1, p.2))
  LW_meas t := (h.LW_meas t).comp (by fun_prop : Measurable fun p : Θ' × PA X N × PA X N => (g p.1, p.2))
  R_ker t := (h.R_ker t).comp (by fun_prop :
    Measurable fun p : Θ' × (Fin (N + 1) → ℝ) × Fin (N + 1) × Fin (N + 1) => (g p.1, p.2))

theorem SysMeas.bs2_ker {n : ℕ} : ∀ {Θ : Type} [MeasurableSpace Θ] {S : Θ → Sys (V × V) N n} (_ : SysMeas S)
    {Γ : Θ → Fin n → V × V → V → ℝ} (_ : ∀ t, Measurable fun p : Θ × (V × V) × V => Γ p.1 t p.2.1 p.2.2)
    {τ : Θ → V → ℝ} (_ : Measurable fun p : Θ × V => τ p.1 p.2),
    IsKer (fun p : Θ × Hist (V × V) N n × Fin (N + 1) => (S p.1).bs2 (Γ p.1) (τ p.1) p.2.1 p.2.2) := by
  induction n with
  | zero =>
    intro Θ _ S hS Γ hΓ τ hτ
    refine IsKer.pure (g := fun p : Θ × Hist (V × V) N 0 × Fin (N + 1) =>
      ((fun _ : Fin 1 => (p.2.1.2 0 p.2.2).2), fun _ : Fin 1 => p.2.2)) ?_
    have hx : Measurable fun p : Θ × Hist (V × V) N 0 × Fin (N + 1) => p.2.1.2 0 p.2.2 :=
      measurable_index (a := fun p : Θ × Hist (V × V) N 0 × Fin (N + 1) => p.2.1.2 0) (by fun_prop) (by fun_prop)
    exact Measurable.prodMk (measurable_pi_lambda _ fun _ => hx.snd) (by fun_prop)
  | succ n ih =>
    intro Θ _ S hS Γ hΓ τ hτ
    have hx : Measurable fun p : Θ × Hist (V × V) N (n + 1) × Fin (N + 1) => (lastA p.2.1.2 p.2.2).2 :=
      (measurable_index (a := fun p : Θ × Hist (V × V) N (n + 1) × Fin (N + 1) => lastA p.2.1.2) (by fun_prop)
        (by fun_prop)).snd
    have h1 : Measurable fun p : Θ × Hist (V × V) N (n + 1) × Fin (N + 1) => normalizeW (fun i =>
        (S p.1).init.lwLast p.2.1.init i +
          Γ p.1 (Fin.last n) (lastA p.2.1.init.2 i) (lastA p.2.1.2 p.2.2).2 + τ p.1 (lastA p.2.1.init.2 i).2) := by
      refine measurable_normalizeW (measurable_pi_lambda _ fun i => Measurable.add (Measurable.add ?_ ?_) ?_)
      · have h2 : Measurable fun p : Θ × Hist (V × V) N (n + 1) × Fin (N + 1) =>
            (S p.1).init.lwLast p.2.1.init :=
          hS.init.measurable_lwLast.comp (by fun_prop :
            Measurable fun p : Θ × Hist (V × V) N (n + 1) × Fin (N + 1) => (p.1, p.2.1.init))
        exact (measurable_pi_apply i).comp h2
      · exact (hΓ (Fin.last n)).comp (Measurable.prodMk (by fun_prop) (Measurable.prodMk (by fun_prop) hx))
      · exact hτ.comp (by fun_prop : Measurable fun p : Θ × Hist (V × V) N (n + 1) × Fin (N + 1) =>
          (p.1, (lastA p.2.1.init.2 i).2))
    refine (IsKer.choice [] h1).bind (F := fun p i => do
      let r ← (S p.1).init.bs2 (initA (Γ p.1)) (fun y => Γ p.1 (Fin.last n) (y, (lastA p.2.1.init.2 i).2)
        (lastA p.2.1.2 p.2.2).2) p.2.1.init i
      pure (snocA r.1 ((lastA p.2.1.2 : PA (V × V) N) p.2.2).2, snocA r.2 p.2.2)) ?_
    have hy : Measurable fun q : ((Θ × Hist (V × V) N (n + 1) × Fin (N + 1)) × Fin (N + 1)) × V =>
        (lastA q.1.1.2.1.init.2 q.1.2).2 :=
      (measurable_index (a := fun q : ((Θ × Hist (V × V) N (n + 1) × Fin (N + 1)) × Fin (N + 1)) × V =>
        lastA q.1.1.2.1.init.2) (by fun_prop) (by fun_prop)).snd
    have h3 := ih (Θ := (Θ × Hist (V × V) N (n + 1) × Fin (N + 1)) × Fin (N + 1))
      (S := fun p => (S p.1.1).init) (hS.init.comp (by fun_prop)) (Γ := fun p => initA (Γ p.1.1))
      (fun t => (hΓ t.castSucc).comp (by fun_prop : Measurable fun q :
        ((Θ × Hist (V × V) N (n + 1) × Fin (N + 1)) × Fin (N + 1)) × (V × V) × V => (q.1.1.1, q.2)))
      (τ := fun p y => Γ p.1.1 (Fin.last n) (y, (lastA p.1.2.1.init.2 p.2).2) (lastA p.1.2.1.2 p.1.2.2).2)
      ((hΓ (Fin.last n)).comp (Measurable.prodMk (by fun_prop) (Measurable.prodMk (Measurable.prodMk (by fun_prop) hy)
        (hx.comp (measurable_fst.comp measurable_fst)))))
    refine (h3.comp (g := fun p : (Θ × Hist (V × V) N (n + 1) × Fin (N + 1)) × Fin (N + 1) =>
      (p, p.1.2.1.init, p.2)) (by fun_prop)).bind (F := fun p r =>
        pure (snocA r.1 ((lastA p.1.2.1.2 : PA (V × V) N) p.1.2.2).2, snocA r.2 p.1.2.2)) ?_
    have hx' : Measurable fun p : ((Θ × Hist (V × V) N (n + 1) × Fin (N + 1)) × Fin (N + 1)) ×
        ((Fin (n + 1) → V) × (Fin (n + 1) → Fin (N + 1))) => ((lastA p.1.1.2.1.2 : PA (V × V) N) p.1.1.2.2).2 :=
      hx.comp (measurable_fst.comp measurable_fst)
    exact IsKer.pure ((measurable_snocA (by fun_prop) hx').prodMk (by fun_prop))

theorem SysMeas.kernel2_ker {n : ℕ} {Θ : Type} [MeasurableSpace Θ] {S : Θ → Sys (V × V) N n} (hS : SysMeas S) (c : V)
    {Γ : Θ → Fin n → V × V → V → ℝ} (hΓ : ∀ t, Measurable fun p : Θ × (V × V) × V => Γ p.1 t p.2.1 p.2.2)
    {move : (Fin (N + 1) → ℝ) → Fin (N + 1) → Ex (Fin (N + 1))} (hm : MoveKer move) (backward : Bool) :
    IsKer (fun p : Θ × (Fin (n + 1) → V) × (Fin (n + 1) → Fin (N + 1)) =>
      (S p.1).kernel2 c (Γ p.1) move backward p.2.1 p.2.2) := by
  have hw : Measurable fun p : (Θ × (Fin (n + 1) → V) × (Fin (n + 1) → Fin (N + 1))) × Hist (V × V) N n =>
      (S p.1.1).wLast p.2 := hS.measurable_wLast.comp (by fun_prop : Measurable
        fun p : (Θ × (Fin (n + 1) → V) × (Fin (n + 1) → Fin (N + 1))) × Hist (V × V) N n => (p.1.1, p.2))
  have h2 : IsKer (fun p : ((Θ × (Fin (n + 1) → V) × (Fin (n + 1) → Fin (N + 1))) × Hist (V × V) N n) ×
      Fin (N + 1) => if backward = true then (S p.1.1.1).bs2 (Γ p.1.1.1) (fun _ => 0) p.1.2 p.2
        else (pure (fun t => (p.1.2.tracex p.2 t).2, p.1.2.trace p.2) : Ex _)) := by
    cases backward with
    | true =>
      simpa using (hS.bs2_ker hΓ (τ := fun _ _ => 0) measurable_const).comp (by fun_prop : Measurable fun p :
        ((Θ × (Fin (n + 1) → V) × (Fin (n + 1) → Fin (N + 1))) × Hist (V × V) N n) × Fin (N + 1) =>
          (p.1.1.1, p.1.2, p.2))
    | false =>
      simpa using IsKer.pure (by fun_prop : Measurable fun p : ((Θ × (Fin (n + 1) → V) ×
        (Fin (n + 1) → Fin (N + 1))) × Hist (V × V) N n) × Fin (N + 1) =>
          ((fun t => (p.1.2.tracex p.2 t).2), p.1.2.trace p.2))
  have h1 : IsKer (fun p : (Θ × (Fin (n + 1) → V) × (Fin (n + 1) → Fin (N + 1))) × Hist (V × V) N n =>
      move ((S p.1.1).wLast p.2) (lastA p.1.2.2) >>= fun k =>
        if backward = true then (S p.1.1).bs2 (Γ p.1.1) (fun _ => 0) p.2 k
        else (pure (fun t => (p.2.tracex k t).2, p.2.trace k) : Ex _)) :=
    IsKer.bind (hm.comp (g := fun p : (Θ × (Fin (n + 1) → V) × (Fin (n + 1) → Fin (N + 1))) ×
      Hist (V × V) N n => ((S p.1.1).wLast p.2, lastA p.1.2.2)) (hw.prodMk (by fun_prop))) h2
  exact IsKer.bind (hS.fwd_ker.comp (g := fun p : Θ × (Fin (n + 1) → V) × (Fin (n + 1) → Fin (N + 1)) =>
    (p.1, p.2.2, lift2 c p.2.1)) (by fun_prop)) h1

/-- A single system as a constant family. -/
theorem Sys.OK.sysMeas {X Θ : Type} [MeasurableSpace X] [MeasurableSpace Θ] {S : Sys X N n} (hS : S.OK) :
    SysMeas (fun _ : Θ => S) where
  Q0_ker := hS.Q0_ker.comp measurable_snd
  Q_ker t := (hS.Q_ker t).comp measurable_snd
  LW0_meas := hS.LW0_meas.comp measurable_snd
  LW_meas t := (hS.LW_meas t).comp measurable_snd
  R_ker t := (hS.R_ok t).ker.comp measurable_snd

end families

end Verif
