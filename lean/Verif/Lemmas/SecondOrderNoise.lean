import Verif.Lemmas.SecondOrderInv

/-!
# Systems with memory two whose proposals do not depend on the previous value of the reference
-/

open scoped ENNReal
open MeasureTheory ProbabilityTheory

namespace Verif
open Verif.Spec Verif.Model

section noise
variable {X : Type} [MeasurableSpace X] {N : ℕ} {E : Type} [MeasurableSpace E]

/-- Conditional proposals given a noise variable. -/
structure Noise1 (X E : Type) (N n : ℕ) where
  Q0 : E → Fin (N + 1) → X → Ex (PA X N)
  Q : Fin n → E → PA X N → Fin (N + 1) → X → Ex (PA X N)

/-- The noise variables of all steps but the last. -/
def Noise1.init {X E : Type} {n : ℕ} (U : Noise1 X E N (n + 1)) : Noise1 X E N n := ⟨U.Q0, initA U.Q⟩

/-- The system in which the noise is fixed. -/
def Sys.at1 {X E : Type} {n : ℕ} (S : Sys X N n) (U : Noise1 X E N n) (e : Fin (n + 1) → E) : Sys X N n :=
  { S with
    Q0 := U.Q0 (e 0)
    Q := fun t Y b x' => U.Q t (e t.succ) Y b x' }

/-- The conditional proposals of `S` are those of `U` with the noise integrated out. -/
structure Sys.HasNoise1 {n : ℕ} (S : Sys X N n) (U : Noise1 X E N n) (ν : Measure E) : Prop where
  Q0_eq : ∀ b x f, Measurable f → S.Q0 b x f = ∫⁻ e, U.Q0 e b x f ∂ν
  Q_eq : ∀ t Y b x f, Measurable f → S.Q t Y b x f = ∫⁻ e, U.Q t e Y b x f ∂ν
  Q0_ker : IsKer (fun p : E × Fin (N + 1) × X => U.Q0 p.1 p.2.1 p.2.2)
  Q_ker : ∀ t, IsKer (fun p : E × PA X N × Fin (N + 1) × X => U.Q t p.1 p.2.1 p.2.2.1 p.2.2.2)

variable {ν : Measure E}

theorem Sys.HasNoise1.init {n : ℕ} {S : Sys X N (n + 1)} {U : Noise1 X E N (n + 1)} (h : S.HasNoise1 U ν) :
    S.init.HasNoise1 U.init ν where
  Q0_eq := h.Q0_eq
  Q_eq t := h.Q_eq t.castSucc
  Q0_ker := h.Q0_ker
  Q_ker t := h.Q_ker t.castSucc

theorem Sys.HasNoise1.at_meas {n : ℕ} {S : Sys X N n} {U : Noise1 X E N n} (h : S.HasNoise1 U ν)
    (hS : S.OK) : SysMeas (fun e => S.at1 U e) where
  Q0_ker := h.Q0_ker.comp (by fun_prop : Measurable fun p : (Fin (n + 1) → E) × Fin (N + 1) × X => (p.1 0, p.2))
  Q_ker t := (h.Q_ker t).comp (by fun_prop : Measurable fun p : (Fin (n + 1) → E) × PA X N × Fin (N + 1) × X =>
    (p.1 t.succ, p.2))
  LW0_meas := hS.LW0_meas.comp measurable_snd
  LW_meas t := (hS.LW_meas t).comp measurable_snd
  R_ker t := (hS.R_ok t).ker.comp measurable_snd

/-- The forward pass with noise drawn in advance. -/
theorem Sys.HasNoise1.fwd_eq {n : ℕ} [IsProbabilityMeasure ν] {S : Sys X N n} {U : Noise1 X E N n}
    (h : S.HasNoise1 U ν) (hS : S.OK) (b : Fin (n + 1) → Fin (N + 1)) (x : Fin (n + 1) → X)
    (f : Hist X N n → ℝ≥0∞) (hf : Measurable f) :
    S.fwd b x f = ∫⁻ e, (S.at1 U e).fwd b x f ∂(Measure.pi fun _ => ν) := by
  induction n with
  | zero =>
    have hm : Measurable fun e : Fin 1 → E => (S.at1 U e).fwd b x f :=
      ((h.at_meas hS).fwd_ker.measurable' hf).comp (by fun_prop : Measurable fun e : Fin 1 → E => (e, b, x))
    rw [lintegral_pi_fin_one _ _ hm]
    have h0 := h.Q0_eq (b 0) (x 0) (fun x0 => f (Fin.elim0, fun _ => x0)) (by fun_prop)
    exact h0
  | succ n ih =>
    have hm : Measurable fun e : Fin (n + 2) → E => (S.at1 U e).fwd b x f :=
      ((h.at_meas hS).fwd_ker.measurable' hf).comp (by fun_prop : Measurable fun e : Fin (n + 2) → E => (e, b, x))
    rw [lintegral_pi_snoc _ _ hm]
    set bl := b (Fin.last n).castSucc with hbl
    set b' := b (Fin.last (n + 1)) with hb'
    set x' := x (Fin.last (n + 1)) with hx'
    -- one step, given the noise
    let step : E → Hist X N n → ℝ≥0∞ := fun e k => S.R (Fin.last n) (S.init.wLast k) bl b' (fun a =>
      U.Q (Fin.last n) e (take (lastA k.2) a) b' x' (fun Xs => f (k.snoc a Xs)))
    have hstepm : Measurable (Function.uncurry step) := by
      refine ((hS.R_ok (Fin.last n)).ker.comp (g := fun p : E × Hist X N n =>
        (S.init.wLast p.2, bl, b')) ?_).measurable (f := fun p a =>
          U.Q (Fin.last n) p.1 (take (lastA p.2.2) a) b' x' (fun Xs => f (p.2.snoc a Xs))) ?_
      · exact (hS.init.measurable_wLast.comp measurable_snd).prodMk (by fun_prop)
      · have := ((h.Q_ker (Fin.last n)).comp (g := fun p : (E × Hist X N n) × Anc N =>
          (p.1.1, take (lastA p.1.2.2) p.2, b', x')) (by fun_prop)).measurable
            (f := fun p Xs => f (p.1.2.snoc p.2 Xs)) (by unfold Function.uncurry; fun_prop)
        exact this
    have hfub : ∀ (e' : Fin (n + 1) → E) (el : E),
        (S.at1 U (snocA e' el)).fwd b x f = (S.init.at1 U.init e').fwd (initA b) (initA x) (step el) := by
      intro e' el
      have h1 : (S.at1 U (snocA e' el)).init = S.init.at1 U.init e' := by
        have e0 : (snocA e' el) 0 = e' 0 := snocA_castSucc e' el 0
        have e1 : ∀ t : Fin n, (snocA e' el) t.castSucc.succ = e' t.succ := fun t => by
          rw [← Fin.castSucc_succ, snocA_castSucc]
        unfold Sys.at1 Sys.init Noise1.init
        simp only [e0]
        congr 1
        funext t Y b x'
        simp only [initA_apply, e1]
      have h2 : (snocA e' el) (Fin.last n).succ = el := by rw [Fin.succ_last, snocA_last]
      show ((S.at1 U (snocA e' el)).init.fwd (initA b) (initA x)) (fun k =>
        S.R (Fin.last n) ((S.at1 U (snocA e' el)).init.wLast k) bl b' (fun a =>
          U.Q (Fin.last n) ((snocA e' el) (Fin.last n).succ) (take (lastA k.2) a) b' x'
            (fun Xs => f (k.snoc a Xs)))) = _
      rw [h1, h2]
      refine Ex.congr_fun' _ fun k => ?_
      have h3 : (S.init.at1 U.init e').wLast k = S.init.wLast k := by
        cases n <;> rfl
      rw [h3]
    simp only [hfub]
    have hret : S.fwd b x f = S.init.fwd (initA b) (initA x) (fun k => ∫⁻ e, step e k ∂ν) := by
      have hl : S.fwd b x f = S.init.fwd (initA b) (initA x) (fun k =>
          S.R (Fin.last n) (S.init.wLast k) bl b' (fun a => S.Q (Fin.last n) (take (lastA k.2) a) b' x'
            (fun Xs => f (k.snoc a Xs)))) := rfl
      rw [hl]
      refine Ex.congr_fun' _ fun k => ?_
      have hsw := (hS.R_ok (Fin.last n)).ker.lintegral_swap (S.init.wLast k, bl, b') ν
        (f := fun a e => U.Q (Fin.last n) e (take (lastA k.2) a) b' x' (fun Xs => f (k.snoc a Xs)))
        (by
          have := ((h.Q_ker (Fin.last n)).comp (g := fun p : Anc N × E =>
            (p.2, take (lastA k.2) p.1, b', x')) (by fun_prop)).measurable
              (f := fun p Xs => f (k.snoc p.1 Xs)) (by unfold Function.uncurry; fun_prop)
          exact this)
      refine Eq.trans ?_ hsw
      refine Ex.congr_fun' _ fun a => ?_
      exact h.Q_eq _ _ _ _ _ (by fun_prop)
    rw [hret]
    have hsw := hS.init.fwd_ker.lintegral_swap (initA b, initA x) ν (f := fun k e => step e k)
      (hstepm.comp measurable_swap)
    refine Eq.trans hsw ?_
    have h5 : ∀ e, S.init.fwd (initA b) (initA x) (fun k => step e k) =
        ∫⁻ e', (S.init.at1 U.init e').fwd (initA b) (initA x) (step e)
          ∂(Measure.pi fun _ => ν) := fun e =>
      ih h.init hS.init (initA b) (initA x) (step e) (hstepm.comp (by fun_prop :
        Measurable fun k : Hist X N n => (e, k)))
    simp only [h5]
    refine lintegral_lintegral_swap ?_
    have hm2 := ((h.init.at_meas hS.init).fwd_ker.comp (g := fun p : E × (Fin (n + 1) → E) =>
      (p.2, initA b, initA x)) (by fun_prop)).measurable (f := fun p k => step p.1 k)
        (hstepm.comp (by fun_prop : Measurable fun q : (E × (Fin (n + 1) → E)) × Hist X N n =>
          (q.1.1, q.2)))
    exact hm2.aemeasurable

end noise

variable {V : Type} {N : ℕ}

/-- Backward sampling only reads the weights of the system. -/
theorem Sys.bs2_congr_sys {n : ℕ} (S S' : Sys (V × V) N n) (Γ : Fin n → V × V → V → ℝ) (τ : V → ℝ)
    (h0 : S.LW0 = S'.LW0) (h : S.LW = S'.LW) (k : Hist (V × V) N n) (i : Fin (N + 1)) :
    S.bs2 Γ τ k i = S'.bs2 Γ τ k i := by
  induction n generalizing τ i with
  | zero => rfl
  | succ n ih =>
    have hi : ∀ l, S.init.lwLast l = S'.init.lwLast l := fun l => by
      cases n with
      | zero => exact congrFun h0 _
      | succ n =>
        show initA S.LW _ _ _ = initA S'.LW _ _ _
        rw [h]
    show (choice [] (normalizeW (fun i => S.init.lwLast k.init i + _ + _)) >>= fun i =>
      S.init.bs2 (initA Γ) _ k.init i >>= _) = (choice [] (normalizeW (fun i => S'.init.lwLast k.init i + _ + _))
        >>= fun i => S'.init.bs2 (initA Γ) _ k.init i >>= _)
    rw [hi]
    have := fun τ j => ih S.init S'.init (initA Γ) τ h0 (by unfold Sys.init; simp only [h]) k.init j
    simp only [this]

variable [MeasurableSpace V] {E : Type} [MeasurableSpace E] {ν : Measure E} [IsProbabilityMeasure ν]

/-- The kernel with noise drawn in advance. -/
theorem Sys.HasNoise1.kernel2_eq {n : ℕ} {S : Sys (V × V) N n} {U : Noise1 (V × V) E N n} (h : S.HasNoise1 U ν)
    (hS : S.OK) (c : V) {Γ : Fin n → V × V → V → ℝ} (hΓ : ∀ t, Measurable fun p : (V × V) × V => Γ t p.1 p.2)
    {move : (Fin (N + 1) → ℝ) → Fin (N + 1) → Ex (Fin (N + 1))} (hm : MoveKer move)
    (backward : Bool) (x : Fin (n + 1) → V) (b : Fin (n + 1) → Fin (N + 1))
    (f : (Fin (n + 1) → V) × (Fin (n + 1) → Fin (N + 1)) → ℝ≥0∞) (hf : Measurable f) :
    S.kernel2 c Γ move backward x b f =
      ∫⁻ e, (S.at1 U e).kernel2 c Γ move backward x b f ∂(Measure.pi fun _ => ν) := by
  have hw : ∀ e k, (S.at1 U e).wLast k = S.wLast k := fun e k => by cases n <;> rfl
  let cont : Hist (V × V) N n → ℝ≥0∞ := fun k => move (S.wLast k) (lastA b) (fun i =>
    (if backward then S.bs2 Γ (fun _ => 0) k i else pure (fun t => (k.tracex i t).2, k.trace i) : Ex _) f)
  have hcont : Measurable cont := by
    refine (hm.comp (g := fun k : Hist (V × V) N n => (S.wLast k, lastA b))
      (hS.measurable_wLast.prodMk (by fun_prop))).measurable (f := fun k i =>
        (if backward then S.bs2 Γ (fun _ => 0) k i else pure (fun t => (k.tracex i t).2, k.trace i) : Ex _) f) ?_
    cases backward with
    | true =>
      simp only [if_true]
      have := (hS.sysMeas (Θ := Unit)).bs2_ker (Γ := fun _ => Γ) (fun t => (hΓ t).comp measurable_snd)
        (τ := fun _ _ => 0) measurable_const
      exact (this.measurable' hf).comp (by fun_prop : Measurable fun p : Hist (V × V) N n × Fin (N + 1) => ((), p))
    | false =>
      simp only [Bool.false_eq_true, if_false]
      show Measurable fun p : Hist (V × V) N n × Fin (N + 1) => f ((fun t => (p.1.tracex p.2 t).2), p.1.trace p.2)
      fun_prop
  have h1 : ∀ e, (S.at1 U e).kernel2 c Γ move backward x b f = (S.at1 U e).fwd b (lift2 c x) cont := by
    intro e
    show (S.at1 U e).fwd b (lift2 c x) (fun k => move ((S.at1 U e).wLast k) (lastA b) (fun i =>
      (if backward then (S.at1 U e).bs2 Γ (fun _ => 0) k i
        else pure (fun t => (k.tracex i t).2, k.trace i) : Ex _) f)) = _
    refine Ex.congr_fun' _ fun k => ?_
    rw [hw e k]
    refine Ex.congr_fun' _ fun i => ?_
    rw [(S.at1 U e).bs2_congr_sys S Γ _ rfl rfl]
  simp only [h1]
  exact h.fwd_eq hS b (lift2 c x) cont hcont

end Verif
