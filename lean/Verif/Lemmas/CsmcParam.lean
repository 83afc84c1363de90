import Verif.Lemmas.CsmcKernel

/-!
# Families of conditional particle systems, and proposals drawn in advance
-/

open scoped ENNReal
open MeasureTheory ProbabilityTheory Finset

namespace Verif
open Verif.Spec Verif.Model

variable {X : Type} [MeasurableSpace X] {N : ℕ} {Θ : Type} [MeasurableSpace Θ]

/-- A measurable family of particle systems. -/
structure SysMeas {n : ℕ} (S : Θ → Sys X N n) : Prop where
  Q0_ker : IsKer (fun p : Θ × Fin (N + 1) × X => (S p.1).Q0 p.2.1 p.2.2)
  Q_ker : ∀ t, IsKer (fun p : Θ × PA X N × Fin (N + 1) × X => (S p.1).Q t p.2.1 p.2.2.1 p.2.2.2)
  LW0_meas : Measurable fun p : Θ × PA X N => (S p.1).LW0 p.2
  LW_meas : ∀ t, Measurable (fun p : Θ × PA X N × PA X N => (S p.1).LW t p.2.1 p.2.2)
  R_ker : ∀ t, IsKer (fun p : Θ × (Fin (N + 1) → ℝ) × Fin (N + 1) × Fin (N + 1) =>
    (S p.1).R t p.2.1 p.2.2.1 p.2.2.2)

namespace SysMeas

theorem init {n : ℕ} {S : Θ → Sys X N (n + 1)} (h : SysMeas S) : SysMeas (fun θ => (S θ).init) where
  Q0_ker := h.Q0_ker
  Q_ker t := h.Q_ker t.castSucc
  LW0_meas := h.LW0_meas
  LW_meas t := h.LW_meas t.castSucc
  R_ker t := h.R_ker t.castSucc

theorem measurable_lwLast {n : ℕ} {S : Θ → Sys X N n} (h : SysMeas S) :
    Measurable fun p : Θ × Hist X N n => (S p.1).lwLast p.2 := by
  cases n with
  | zero => exact h.LW0_meas.comp (by fun_prop : Measurable fun p : Θ × Hist X N 0 => (p.1, p.2.2 0))
  | succ n =>
    refine (h.LW_meas (Fin.last n)).comp (measurable_fst.prodMk (Measurable.prodMk ?_ ?_))
    · exact measurable_take (a := fun p : Θ × Hist X N (n + 1) => p.2.2 (Fin.last n).castSucc)
        (by fun_prop) (by fun_prop)
    · fun_prop

theorem measurable_wLast {n : ℕ} {S : Θ → Sys X N n} (h : SysMeas S) :
    Measurable fun p : Θ × Hist X N n => (S p.1).wLast p.2 :=
  measurable_normalizeW h.measurable_lwLast

theorem step_ker {n : ℕ} {S : Θ → Sys X N n} (hS : SysMeas S) (t : Fin n) {β : Type} [MeasurableSpace β]
    {θ : β → Θ} {w : β → Fin (N + 1) → ℝ} {y : β → PA X N} {i j : β → Fin (N + 1)} {x : β → X}
    (hθ : Measurable θ) (hw : Measurable w) (hy : Measurable y) (hi : Measurable i) (hj : Measurable j)
    (hx : Measurable x) : IsKer (fun b => do
      let a ← (S (θ b)).R t (w b) (i b) (j b)
      let Xs ← (S (θ b)).Q t (take (y b) a) (j b) (x b)
      (pure (a, Xs) : Ex (Anc N × PA X N))) := by
  refine ((hS.R_ker t).comp (hθ.prodMk (hw.prodMk (hi.prodMk hj)))).bind (F := fun b a => do
    let Xs ← (S (θ b)).Q t (take (y b) a) (j b) (x b)
    pure (a, Xs)) ?_
  refine IsKer.bind (P := fun p : β × Anc N => (S (θ p.1)).Q t (take (y p.1) p.2) (j p.1) (x p.1))
    (F := fun p Xs => pure (p.2, Xs)) ?_ (IsKer.pure (by fun_prop))
  exact (hS.Q_ker t).comp (by fun_prop : Measurable fun p : β × Anc N =>
    (θ p.1, take (y p.1) p.2, j p.1, x p.1))

theorem fwd_ker {n : ℕ} {S : Θ → Sys X N n} (hS : SysMeas S) :
    IsKer (fun p : Θ × (Fin (n + 1) → Fin (N + 1)) × (Fin (n + 1) → X) =>
      (S p.1).fwd p.2.1 p.2.2) := by
  induction n with
  | zero =>
    refine IsKer.bind (P := fun p : Θ × (Fin 1 → Fin (N + 1)) × (Fin 1 → X) =>
        (S p.1).Q0 (p.2.1 0) (p.2.2 0))
      (F := fun _ x0 => pure ((Fin.elim0, fun _ => x0) : Hist X N 0)) ?_ (IsKer.pure ?_)
    · exact hS.Q0_ker.comp (by fun_prop : Measurable fun p : Θ × (Fin 1 → Fin (N + 1)) × (Fin 1 → X) =>
        (p.1, p.2.1 0, p.2.2 0))
    · fun_prop
  | succ n ih =>
    have h1 := (ih hS.init).comp (g := fun p : Θ × (Fin (n + 2) → Fin (N + 1)) × (Fin (n + 2) → X) =>
      (p.1, initA p.2.1, initA p.2.2)) (by fun_prop)
    have hw : Measurable fun p : (Θ × (Fin (n + 2) → Fin (N + 1)) × (Fin (n + 2) → X)) × Hist X N n =>
      (S p.1.1).init.wLast p.2 := hS.init.measurable_wLast.comp (by fun_prop :
        Measurable fun p : (Θ × (Fin (n + 2) → Fin (N + 1)) × (Fin (n + 2) → X)) × Hist X N n =>
          (p.1.1, p.2))
    refine IsKer.congr (h1.bind (F := fun p h => do
      let r ← (do
        let a ← (S p.1).R (Fin.last n) ((S p.1).init.wLast h) (p.2.1 (Fin.last n).castSucc)
          (p.2.1 (Fin.last (n + 1)))
        let Xs ← (S p.1).Q (Fin.last n) (take (lastA h.2) a) (p.2.1 (Fin.last (n + 1)))
          (p.2.2 (Fin.last (n + 1)))
        pure (a, Xs))
      pure (h.snoc r.1 r.2)) ?_) (fun p f hf => rfl)
    refine IsKer.bind (β := (Θ × (Fin (n + 2) → Fin (N + 1)) × (Fin (n + 2) → X)) × Hist X N n)
      (F := fun p r => pure (p.2.snoc r.1 r.2)) (hS.step_ker (Fin.last n) (θ := fun p => p.1.1)
        (w := fun p => (S p.1.1).init.wLast p.2) (y := fun p => lastA p.2.2)
        (i := fun p => p.1.2.1 (Fin.last n).castSucc) (j := fun p => p.1.2.1 (Fin.last (n + 1)))
        (x := fun p => p.1.2.2 (Fin.last (n + 1))) (by fun_prop) hw
        (by fun_prop) (by fun_prop) (by fun_prop) (by fun_prop))
        (IsKer.pure (by fun_prop))

theorem bs_ker {n : ℕ} {S : Θ → Sys X N n} (hS : SysMeas S) {Γ : Θ → Fin n → X → X → ℝ}
    (hΓ : ∀ t, Measurable fun p : Θ × X × X => Γ p.1 t p.2.1 p.2.2) :
    IsKer (fun p : Θ × Hist X N n × Fin (N + 1) => (S p.1).bs (Γ p.1) p.2.1 p.2.2) := by
  induction n with
  | zero =>
    refine IsKer.pure (g := fun p : Θ × Hist X N 0 × Fin (N + 1) =>
      ((fun _ : Fin 1 => p.2.1.2 0 p.2.2), fun _ : Fin 1 => p.2.2)) ?_
    refine Measurable.prodMk (measurable_pi_lambda _ fun _ => ?_) (by fun_prop)
    exact measurable_index (a := fun p : Θ × Hist X N 0 × Fin (N + 1) => p.2.1.2 0) (by fun_prop)
      (by fun_prop)
  | succ n ih =>
    have hx : Measurable fun p : Θ × Hist X N (n + 1) × Fin (N + 1) => lastA p.2.1.2 p.2.2 :=
      measurable_index (a := fun p : Θ × Hist X N (n + 1) × Fin (N + 1) => lastA p.2.1.2) (by fun_prop)
        (by fun_prop)
    have h1 : Measurable fun p : Θ × Hist X N (n + 1) × Fin (N + 1) => normalizeW (fun i =>
        (S p.1).init.lwLast p.2.1.init i +
          Γ p.1 (Fin.last n) (lastA p.2.1.init.2 i) (lastA p.2.1.2 p.2.2)) := by
      refine measurable_normalizeW (measurable_pi_lambda _ fun i => Measurable.add ?_ ?_)
      · have h2 : Measurable fun p : Θ × Hist X N (n + 1) × Fin (N + 1) =>
            (S p.1).init.lwLast p.2.1.init :=
          hS.init.measurable_lwLast.comp (by fun_prop :
            Measurable fun p : Θ × Hist X N (n + 1) × Fin (N + 1) => (p.1, p.2.1.init))
        exact (measurable_pi_apply i).comp h2
      · exact (hΓ (Fin.last n)).comp (Measurable.prodMk (by fun_prop) (Measurable.prodMk (by fun_prop) hx))
    refine (IsKer.choice [] h1).bind (F := fun p i => do
      let r ← (S p.1).init.bs (initA (Γ p.1)) p.2.1.init i
      pure (snocA r.1 ((lastA p.2.1.2 : PA X N) p.2.2), snocA r.2 p.2.2)) ?_
    refine ((ih hS.init (Γ := fun θ => initA (Γ θ)) (fun t => hΓ t.castSucc)).comp
      (g := fun p : (Θ × Hist X N (n + 1) × Fin (N + 1)) × Fin (N + 1) => (p.1.1, p.1.2.1.init, p.2))
      (by fun_prop)).bind
        (F := fun p r => pure (snocA r.1 ((lastA p.1.2.1.2 : PA X N) p.1.2.2), snocA r.2 p.1.2.2)) ?_
    have hx' : Measurable fun p : ((Θ × Hist X N (n + 1) × Fin (N + 1)) × Fin (N + 1)) ×
        ((Fin (n + 1) → X) × (Fin (n + 1) → Fin (N + 1))) => (lastA p.1.1.2.1.2 : PA X N) p.1.1.2.2 :=
      hx.comp (measurable_fst.comp measurable_fst)
    exact IsKer.pure ((measurable_snocA (by fun_prop) hx').prodMk (by fun_prop))

theorem kernel_ker {n : ℕ} {S : Θ → Sys X N n} (hS : SysMeas S) {Γ : Θ → Fin n → X → X → ℝ}
    (hΓ : ∀ t, Measurable fun p : Θ × X × X => Γ p.1 t p.2.1 p.2.2)
    {move : (Fin (N + 1) → ℝ) → Fin (N + 1) → Ex (Fin (N + 1))} (hm : MoveKer move)
    (backward : Bool) :
    IsKer (fun p : Θ × (Fin (n + 1) → X) × (Fin (n + 1) → Fin (N + 1)) =>
      (S p.1).kernel (Γ p.1) move backward p.2.1 p.2.2) := by
  have hw : Measurable fun p : (Θ × (Fin (n + 1) → X) × (Fin (n + 1) → Fin (N + 1))) × Hist X N n =>
      (S p.1.1).wLast p.2 := hS.measurable_wLast.comp (by fun_prop : Measurable
        fun p : (Θ × (Fin (n + 1) → X) × (Fin (n + 1) → Fin (N + 1))) × Hist X N n => (p.1.1, p.2))
  have h2 : IsKer (fun p : ((Θ × (Fin (n + 1) → X) × (Fin (n + 1) → Fin (N + 1))) × Hist X N n) ×
      Fin (N + 1) => if backward = true then (S p.1.1.1).bs (Γ p.1.1.1) p.1.2 p.2
        else (pure (p.1.2.tracex p.2, p.1.2.trace p.2) : Ex _)) := by
    cases backward with
    | true =>
      simpa using (hS.bs_ker hΓ).comp (by fun_prop : Measurable fun p : ((Θ × (Fin (n + 1) → X) ×
        (Fin (n + 1) → Fin (N + 1))) × Hist X N n) × Fin (N + 1) => (p.1.1.1, p.1.2, p.2))
    | false =>
      simpa using IsKer.pure (by fun_prop : Measurable fun p : ((Θ × (Fin (n + 1) → X) ×
        (Fin (n + 1) → Fin (N + 1))) × Hist X N n) × Fin (N + 1) => (p.1.2.tracex p.2, p.1.2.trace p.2))
  have h1 : IsKer (fun p : (Θ × (Fin (n + 1) → X) × (Fin (n + 1) → Fin (N + 1))) × Hist X N n =>
      move ((S p.1.1).wLast p.2) (lastA p.1.2.2) >>= fun k =>
        if backward = true then (S p.1.1).bs (Γ p.1.1) p.2 k
        else (pure (p.2.tracex k, p.2.trace k) : Ex _)) :=
    IsKer.bind (hm.comp (g := fun p : (Θ × (Fin (n + 1) → X) × (Fin (n + 1) → Fin (N + 1))) ×
      Hist X N n => ((S p.1.1).wLast p.2, lastA p.1.2.2)) (hw.prodMk (by fun_prop))) h2
  exact IsKer.bind (hS.fwd_ker.comp (g := fun p : Θ × (Fin (n + 1) → X) × (Fin (n + 1) → Fin (N + 1)) =>
    (p.1, p.2.2, p.2.1)) (by fun_prop)) h1

end SysMeas

/-! ### Proposals with noise drawn in advance -/

/-- Two functions that agree where the resampling can land have the same expectation. -/
theorem Spec.CondResampling.pinned {R : (Fin (N + 1) → ℝ) → Fin (N + 1) → Fin (N + 1) → Ex (Anc N)}
    (hR : CondResampling R) {w : Fin (N + 1) → ℝ} (hw : IsProb w) (hp : ∀ i, 0 < w i)
    (i j : Fin (N + 1)) {f g : Anc N → ℝ≥0∞} (h : ∀ a, a j = i → f a = g a) : R w i j f = R w i j g := by
  obtain ⟨U, hU⟩ := hR.law
  have h1 : ENNReal.ofReal (w i) * R w i j f = ENNReal.ofReal (w i) * R w i j g := by
    rw [hU w hw hp, hU w hw hp]
    refine Finset.sum_congr rfl fun a _ => ?_
    by_cases ha : a j = i
    · rw [if_pos ha, if_pos ha, h a ha]
    · rw [if_neg ha, if_neg ha]
  exact (ENNReal.mul_right_inj (by simpa using hp i) ENNReal.ofReal_ne_top).mp h1

/-- Conditional proposals given a noise variable: `Q0 e b x`, and `Q t e y Y b x` where `y` is the previous
state of the reference. -/
structure Noise (X E : Type) (N n : ℕ) where
  Q0 : E → Fin (N + 1) → X → Ex (PA X N)
  Q : Fin n → E → X → PA X N → Fin (N + 1) → X → Ex (PA X N)

/-- The noise variables of all steps but the last. -/
def Noise.init {E : Type} {n : ℕ} (U : Noise X E N (n + 1)) : Noise X E N n := ⟨U.Q0, initA U.Q⟩

/-- The system in which the noise is fixed and the previous state of the reference is read from `x`. -/
def Sys.at {E : Type} {n : ℕ} (S : Sys X N n) (U : Noise X E N n) (p : (Fin (n + 1) → X) × (Fin (n + 1) → E)) :
    Sys X N n :=
  { S with
    Q0 := U.Q0 (p.2 0)
    Q := fun t Y b x' => U.Q t (p.2 t.succ) (p.1 t.castSucc) Y b x' }

/-- The conditional proposals of `S` are those of `U` with the noise integrated out. -/
structure Sys.HasNoise {E : Type} [MeasurableSpace E] {n : ℕ} (S : Sys X N n) (U : Noise X E N n)
    (ν : Measure E) : Prop where
  Q0_eq : ∀ b x f, Measurable f → S.Q0 b x f = ∫⁻ e, U.Q0 e b x f ∂ν
  Q_eq : ∀ t Y b x f, Measurable f → S.Q t Y b x f = ∫⁻ e, U.Q t e (Y b) Y b x f ∂ν
  Q0_ker : IsKer (fun p : E × Fin (N + 1) × X => U.Q0 p.1 p.2.1 p.2.2)
  Q_ker : ∀ t, IsKer (fun p : E × X × PA X N × Fin (N + 1) × X =>
    U.Q t p.1 p.2.1 p.2.2.1 p.2.2.2.1 p.2.2.2.2)
  Q0_pin : ∀ e b x f g, (∀ Xs : PA X N, Xs b = x → f Xs = g Xs) → U.Q0 e b x f = U.Q0 e b x g
  Q_pin : ∀ t e y Y b x f g, (∀ Xs : PA X N, Xs b = x → f Xs = g Xs) →
    U.Q t e y Y b x f = U.Q t e y Y b x g

section noise
variable {E : Type} [MeasurableSpace E] {ν : Measure E} [IsProbabilityMeasure ν]

omit [IsProbabilityMeasure ν] in
theorem Sys.HasNoise.init {n : ℕ} {S : Sys X N (n + 1)} {U : Noise X E N (n + 1)} (h : S.HasNoise U ν) :
    S.init.HasNoise U.init ν where
  Q0_eq := h.Q0_eq
  Q_eq t := h.Q_eq t.castSucc
  Q0_ker := h.Q0_ker
  Q_ker t := h.Q_ker t.castSucc
  Q0_pin := h.Q0_pin
  Q_pin t := h.Q_pin t.castSucc

omit [IsProbabilityMeasure ν] in
theorem Sys.HasNoise.at_meas {n : ℕ} {S : Sys X N n} {U : Noise X E N n} (h : S.HasNoise U ν)
    (hS : S.OK) : SysMeas (fun p => S.at U p) where
  Q0_ker := h.Q0_ker.comp (by fun_prop : Measurable fun p : ((Fin (n + 1) → X) × (Fin (n + 1) → E)) ×
    Fin (N + 1) × X => (p.1.2 0, p.2))
  Q_ker t := (h.Q_ker t).comp (by fun_prop : Measurable fun p : ((Fin (n + 1) → X) × (Fin (n + 1) → E)) ×
    PA X N × Fin (N + 1) × X => (p.1.2 t.succ, p.1.1 t.castSucc, p.2))
  LW0_meas := hS.LW0_meas.comp measurable_snd
  LW_meas t := (hS.LW_meas t).comp measurable_snd
  R_ker t := (hS.R_ok t).ker.comp measurable_snd

omit [IsProbabilityMeasure ν] in
/-- Two functions that agree on histories retaining the last state of the reference have the same
expectation. -/
theorem Sys.HasNoise.fwd_pin {n : ℕ} {S : Sys X N n} {U : Noise X E N n} (h : S.HasNoise U ν)
    (b : Fin (n + 1) → Fin (N + 1)) (x : Fin (n + 1) → X)
    {f g : Hist X N n → ℝ≥0∞} (hf : Measurable f) (hg : Measurable g)
    (hfg : ∀ k : Hist X N n, lastA k.2 (lastA b) = lastA x → f k = g k) : S.fwd b x f = S.fwd b x g := by
  cases n with
  | zero =>
    show S.Q0 (b 0) (x 0) (fun x0 => f (Fin.elim0, fun _ => x0)) =
      S.Q0 (b 0) (x 0) (fun x0 => g (Fin.elim0, fun _ => x0))
    rw [h.Q0_eq _ _ _ (by fun_prop), h.Q0_eq _ _ _ (by fun_prop)]
    refine lintegral_congr fun e => h.Q0_pin _ _ _ _ _ fun Xs hX => hfg _ hX
  | succ n =>
    show S.init.fwd (initA b) (initA x) (fun k => S.R (Fin.last n) (S.init.wLast k) _ _ (fun a =>
        S.Q (Fin.last n) (take (lastA k.2) a) _ _ (fun Xs => f (k.snoc a Xs)))) =
      S.init.fwd (initA b) (initA x) (fun k => S.R (Fin.last n) (S.init.wLast k) _ _ (fun a =>
        S.Q (Fin.last n) (take (lastA k.2) a) _ _ (fun Xs => g (k.snoc a Xs))))
    refine Ex.congr_fun' _ fun k => Ex.congr_fun' _ fun a => ?_
    rw [h.Q_eq _ _ _ _ _ (by fun_prop), h.Q_eq _ _ _ _ _ (by fun_prop)]
    refine lintegral_congr fun e => h.Q_pin _ _ _ _ _ _ _ _ fun Xs hX => hfg _ ?_
    simp only [Hist.snoc, lastA_snocA]
    exact hX

/-- The forward pass with noise drawn in advance. -/
theorem Sys.HasNoise.fwd_eq {n : ℕ} {S : Sys X N n} {U : Noise X E N n} (h : S.HasNoise U ν)
    (hS : S.OK) (b : Fin (n + 1) → Fin (N + 1)) (x : Fin (n + 1) → X)
    (f : Hist X N n → ℝ≥0∞) (hf : Measurable f) :
    S.fwd b x f = ∫⁻ e, (S.at U (x, e)).fwd b x f ∂(Measure.pi fun _ => ν) := by
  induction n with
  | zero =>
    have hm : Measurable fun e : Fin 1 → E => (S.at U (x, e)).fwd b x f :=
      ((h.at_meas hS).fwd_ker.measurable' hf).comp (by fun_prop : Measurable fun e : Fin 1 → E =>
        ((x, e), b, x))
    rw [lintegral_pi_fin_one _ _ hm]
    have h0 := h.Q0_eq (b 0) (x 0) (fun x0 => f (Fin.elim0, fun _ => x0)) (by fun_prop)
    exact h0
  | succ n ih =>
    have hm : Measurable fun e : Fin (n + 2) → E => (S.at U (x, e)).fwd b x f :=
      ((h.at_meas hS).fwd_ker.measurable' hf).comp (by fun_prop : Measurable fun e : Fin (n + 2) → E =>
        ((x, e), b, x))
    rw [lintegral_pi_snoc _ _ hm]
    set yl := x (Fin.last n).castSucc with hyl
    set bl := b (Fin.last n).castSucc with hbl
    set b' := b (Fin.last (n + 1)) with hb'
    set x' := x (Fin.last (n + 1)) with hx'
    -- one step, given the noise
    let step : E → Hist X N n → ℝ≥0∞ := fun e k => S.R (Fin.last n) (S.init.wLast k) bl b' (fun a =>
      U.Q (Fin.last n) e yl (take (lastA k.2) a) b' x' (fun Xs => f (k.snoc a Xs)))
    have hstepm : Measurable (Function.uncurry step) := by
      refine ((hS.R_ok (Fin.last n)).ker.comp (g := fun p : E × Hist X N n =>
        (S.init.wLast p.2, bl, b')) ?_).measurable (f := fun p a =>
          U.Q (Fin.last n) p.1 yl (take (lastA p.2.2) a) b' x' (fun Xs => f (p.2.snoc a Xs))) ?_
      · exact (hS.init.measurable_wLast.comp measurable_snd).prodMk (by fun_prop)
      · have := ((h.Q_ker (Fin.last n)).comp (g := fun p : (E × Hist X N n) × Anc N =>
          (p.1.1, yl, take (lastA p.1.2.2) p.2, b', x')) (by fun_prop)).measurable
            (f := fun p Xs => f (p.1.2.snoc p.2 Xs)) (by unfold Function.uncurry; fun_prop)
        exact this
    have hfub : ∀ (e' : Fin (n + 1) → E) (el : E),
        (S.at U (x, snocA e' el)).fwd b x f = (S.init.at U.init (initA x, e')).fwd (initA b) (initA x)
          (step el) := by
      intro e' el
      have h1 : (S.at U (x, snocA e' el)).init = S.init.at U.init (initA x, e') := by
        have e0 : (snocA e' el) 0 = e' 0 := snocA_castSucc e' el 0
        have e1 : ∀ t : Fin n, (snocA e' el) t.castSucc.succ = e' t.succ := fun t => by
          rw [← Fin.castSucc_succ, snocA_castSucc]
        unfold Sys.at Sys.init Noise.init
        simp only [e0]
        congr 1
        funext t Y b x'
        simp only [initA_apply, e1]
      have h2 : (snocA e' el) (Fin.last n).succ = el := by rw [Fin.succ_last, snocA_last]
      show ((S.at U (x, snocA e' el)).init.fwd (initA b) (initA x)) (fun k =>
        S.R (Fin.last n) ((S.at U (x, snocA e' el)).init.wLast k) bl b' (fun a =>
          U.Q (Fin.last n) ((snocA e' el) (Fin.last n).succ) yl (take (lastA k.2) a) b' x'
            (fun Xs => f (k.snoc a Xs)))) = _
      rw [h1, h2]
      refine Ex.congr_fun' _ fun k => ?_
      have h3 : (S.init.at U.init (initA x, e')).wLast k = S.init.wLast k := by
        cases n <;> rfl
      rw [h3]
    simp only [hfub]
    -- the retained parent
    have hret : S.fwd b x f = S.init.fwd (initA b) (initA x) (fun k => ∫⁻ e, step e k ∂ν) := by
      have hl : S.fwd b x f = S.init.fwd (initA b) (initA x) (fun k =>
          S.R (Fin.last n) (S.init.wLast k) bl b' (fun a => S.Q (Fin.last n) (take (lastA k.2) a) b' x'
            (fun Xs => f (k.snoc a Xs)))) := rfl
      rw [hl]
      refine h.init.fwd_pin (initA b) (initA x) ?_ ?_ ?_
      · refine ((hS.R_ok (Fin.last n)).ker.comp (g := fun k : Hist X N n =>
          (S.init.wLast k, bl, b')) (hS.init.measurable_wLast.prodMk (by fun_prop))).measurable
            (f := fun k a => S.Q (Fin.last n) (take (lastA k.2) a) b' x' (fun Xs => f (k.snoc a Xs))) ?_
        exact ((hS.Q_ker (Fin.last n)).comp (g := fun p : Hist X N n × Anc N =>
          (take (lastA p.1.2) p.2, b', x')) (by fun_prop)).measurable
            (f := fun p Xs => f (p.1.snoc p.2 Xs)) (by unfold Function.uncurry; fun_prop)
      · exact hstepm.lintegral_prod_left'
      · intro k hk
        have hsw := (hS.R_ok (Fin.last n)).ker.lintegral_swap (S.init.wLast k, bl, b') ν
          (f := fun a e => U.Q (Fin.last n) e yl (take (lastA k.2) a) b' x' (fun Xs => f (k.snoc a Xs)))
          (by
            have := ((h.Q_ker (Fin.last n)).comp (g := fun p : Anc N × E =>
              (p.2, yl, take (lastA k.2) p.1, b', x')) (by fun_prop)).measurable
                (f := fun p Xs => f (k.snoc p.1 Xs)) (by unfold Function.uncurry; fun_prop)
            exact this)
        refine Eq.trans ?_ hsw
        refine (hS.R_ok (Fin.last n)).pinned (normalize_isProb _) (normalize_pos _) _ _ fun a ha => ?_
        rw [h.Q_eq _ _ _ _ _ (by fun_prop)]
        refine lintegral_congr fun e => ?_
        have : take (lastA k.2) a b' = yl := by
          rw [take_apply, ha]; exact hk
        rw [this]
    rw [hret]
    have hsw := hS.init.fwd_ker.lintegral_swap (initA b, initA x) ν (f := fun k e => step e k)
      (hstepm.comp measurable_swap)
    refine Eq.trans hsw ?_
    have h5 : ∀ e, S.init.fwd (initA b) (initA x) (fun k => step e k) =
        ∫⁻ e', (S.init.at U.init (initA x, e')).fwd (initA b) (initA x) (step e)
          ∂(Measure.pi fun _ => ν) := fun e =>
      ih h.init hS.init (initA b) (initA x) (step e) (hstepm.comp (by fun_prop :
        Measurable fun k : Hist X N n => (e, k)))
    simp only [h5]
    refine lintegral_lintegral_swap ?_
    have hm2 := ((h.init.at_meas hS.init).fwd_ker.comp (g := fun p : E × (Fin (n + 1) → E) =>
      ((initA x, p.2), initA b, initA x)) (by fun_prop)).measurable (f := fun p k => step p.1 k)
        (hstepm.comp (by fun_prop : Measurable fun q : (E × (Fin (n + 1) → E)) × Hist X N n =>
          (q.1.1, q.2)))
    exact hm2.aemeasurable

/-- The kernel with noise drawn in advance. -/
theorem Sys.HasNoise.kernel_eq {n : ℕ} {S : Sys X N n} {U : Noise X E N n} (h : S.HasNoise U ν)
    (hS : S.OK) {Γ : Fin n → X → X → ℝ} (hΓ : ∀ t, Measurable fun p : X × X => Γ t p.1 p.2)
    {move : (Fin (N + 1) → ℝ) → Fin (N + 1) → Ex (Fin (N + 1))} (hm : MoveKer move)
    (backward : Bool) (x : Fin (n + 1) → X) (b : Fin (n + 1) → Fin (N + 1))
    (f : (Fin (n + 1) → X) × (Fin (n + 1) → Fin (N + 1)) → ℝ≥0∞) (hf : Measurable f) :
    S.kernel Γ move backward x b f =
      ∫⁻ e, (S.at U (x, e)).kernel Γ move backward x b f ∂(Measure.pi fun _ => ν) := by
  have hw : ∀ e k, (S.at U (x, e)).wLast k = S.wLast k := fun e k => by cases n <;> rfl
  have hlw : ∀ {n : ℕ} (S : Sys X N n) (U : Noise X E N n) e (k : Hist X N n),
      (S.at U e).lwLast k = S.lwLast k := fun {n} S U e k => by cases n <;> rfl
  have hbs : ∀ {n : ℕ} (S S' : Sys X N n) (Γ : Fin n → X → X → ℝ), S.LW0 = S'.LW0 → S.LW = S'.LW →
      ∀ k i, S.bs Γ k i = S'.bs Γ k i := by
    intro n
    induction n with
    | zero => intro S S' Γ h0 h k i; rfl
    | succ n ih =>
      intro S S' Γ h0 h k i
      have hi : ∀ l, S.init.lwLast l = S'.init.lwLast l := fun l => by
        cases n with
        | zero => exact congrFun h0 _
        | succ n =>
          show initA S.LW _ _ _ = initA S'.LW _ _ _
          rw [h]
      show (choice [] (normalizeW (fun i => S.init.lwLast k.init i + _)) >>= fun i =>
        S.init.bs (initA Γ) k.init i >>= _) = (choice [] (normalizeW (fun i => S'.init.lwLast k.init i + _))
          >>= fun i => S'.init.bs (initA Γ) k.init i >>= _)
      rw [hi]
      have := fun j => ih S.init S'.init (initA Γ) h0 (by unfold Sys.init; simp only [h]) k.init j
      simp only [this]
  let cont : Hist X N n → ℝ≥0∞ := fun k => move (S.wLast k) (lastA b) (fun i =>
    (if backward then S.bs Γ k i else pure (k.tracex i, k.trace i) : Ex _) f)
  have hcont : Measurable cont := by
    refine (hm.comp (g := fun k : Hist X N n => (S.wLast k, lastA b))
      (hS.measurable_wLast.prodMk (by fun_prop))).measurable (f := fun k i =>
        (if backward then S.bs Γ k i else pure (k.tracex i, k.trace i) : Ex _) f) ?_
    cases backward with
    | true =>
      simp only [if_true]
      exact (hS.bs_ker hΓ).measurable' hf
    | false =>
      simp only [Bool.false_eq_true, if_false]
      show Measurable fun p : Hist X N n × Fin (N + 1) => f (p.1.tracex p.2, p.1.trace p.2)
      fun_prop
  have h1 : ∀ e, (S.at U (x, e)).kernel Γ move backward x b f = (S.at U (x, e)).fwd b x cont := by
    intro e
    show (S.at U (x, e)).fwd b x (fun k => move ((S.at U (x, e)).wLast k) (lastA b) (fun i =>
      (if backward then (S.at U (x, e)).bs Γ k i else pure (k.tracex i, k.trace i) : Ex _) f)) = _
    refine Ex.congr_fun' _ fun k => ?_
    rw [hw e k]
    refine Ex.congr_fun' _ fun i => ?_
    rw [hbs (S.at U (x, e)) S Γ rfl rfl]
  simp only [h1]
  exact h.fwd_eq hS b x cont hcont

end noise

end Verif
