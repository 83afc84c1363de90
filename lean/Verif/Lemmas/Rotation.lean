import Verif.Lemmas.CsmcParam
import Verif.Lemmas.SecondOrder
import Verif.Spec.Indices

/-!
# Rotating the indices of a conditional particle system
-/

open scoped ENNReal
open MeasureTheory ProbabilityTheory Finset

namespace Verif
open Verif.Spec Verif.Model

variable {X : Type} {N n : ℕ}

theorem measurable_rotA {α : Type} [MeasurableSpace α] (s : Fin (N + 1)) : Measurable (rotA (α := α) s) :=
  measurable_pi_lambda _ fun i => measurable_pi_apply (i + s)

theorem sum_rot {M : Type} [AddCommMonoid M] (s : Fin (N + 1)) (f : Fin (N + 1) → M) : ∑ i, f (i + s) = ∑ i, f i :=
  Fintype.sum_equiv (Equiv.addRight s) _ _ fun _ => rfl

theorem normalizeW_rot (s : Fin (N + 1)) (lw : Fin (N + 1) → ℝ) : normalizeW (rotA s lw) = rotA s (normalizeW lw) := by
  funext k
  simp only [normalizeW, normalizeLog, logsumexp, rotA, sum_rot s fun i => Real.exp (lw i)]

theorem catP_rot (s : Fin (N + 1)) (w : Fin (N + 1) → ℝ) (i : Fin (N + 1)) : catP (rotA s w) i = catP w (i + s) := by
  simp only [catP, rotA, sum_rot s w]

/-- A particle system whose particles are only labelled by their indices. -/
structure Sys.Rot [MeasurableSpace X] (S : Sys X N n) : Prop where
  Q0 : ∀ s b x (f : PA X N → ℝ≥0∞), Measurable f → S.Q0 b x f = S.Q0 (b + s) x fun Xs => f (rotA s Xs)
  LW0 : ∀ s Xs i, S.LW0 (rotA s Xs) i = S.LW0 Xs (i + s)
  Q : ∀ t s Y b x (f : PA X N → ℝ≥0∞), Measurable f → S.Q t (rotA s Y) b x f = S.Q t Y (b + s) x fun Xs => f (rotA s Xs)
  LW : ∀ t s Y Xs i, S.LW t (rotA s Y) (rotA s Xs) i = S.LW t Y Xs (i + s)
  R : ∀ t, RotResampling (S.R t)

theorem Sys.Rot.init [MeasurableSpace X] {S : Sys X N (n + 1)} (h : S.Rot) : S.init.Rot where
  Q0 := h.Q0
  LW0 := h.LW0
  Q t := h.Q t.castSucc
  LW t := h.LW t.castSucc
  R t := h.R t.castSucc

/-- Rotation of a history. -/
def Hist.rot (s : Fin (n + 1) → Fin (N + 1)) (h : Hist X N n) : Hist X N n :=
  (fun t k => h.1 t (k + s t.succ) - s t.castSucc, fun t => rotA (s t) (h.2 t))

theorem Hist.rot_init (s : Fin (n + 2) → Fin (N + 1)) (h : Hist X N (n + 1)) : (h.rot s).init = h.init.rot (initA s) := rfl

theorem Hist.rot_snoc (s : Fin (n + 2) → Fin (N + 1)) (h : Hist X N n) (a : Anc N) (Xs : PA X N) :
    (h.snoc a Xs).rot s = (h.rot (initA s)).snoc (fun k => a (k + s (Fin.last (n + 1))) - s (Fin.last n).castSucc)
      (rotA (s (Fin.last (n + 1))) Xs) := by
  refine Prod.ext (funext fun t => ?_) (funext fun t => ?_)
  · refine Fin.lastCases ?_ (fun t => ?_) t
    · simp [Hist.rot, Hist.snoc]
    · simp [Hist.rot, Hist.snoc, initA]
  · refine Fin.lastCases ?_ (fun t => ?_) t
    · simp [Hist.rot, Hist.snoc]
    · simp [Hist.rot, Hist.snoc, initA]

theorem measurable_Hist_rot [MeasurableSpace X] (s : Fin (n + 1) → Fin (N + 1)) : Measurable (Hist.rot (X := X) s) := by
  unfold Hist.rot rotA
  fun_prop

theorem take_rot (s s' : Fin (N + 1)) (Xs : PA X N) (a : Anc N) :
    take (rotA s Xs) (fun k => a (k + s') - s) = rotA s' (take Xs a) := by
  funext k
  simp [take, rotA]

section
variable [MeasurableSpace X]

theorem Sys.Rot.lwLast : {n : ℕ} → {S : Sys X N n} → S.Rot → (s : Fin (n + 1) → Fin (N + 1)) → (h : Hist X N n) →
    S.lwLast (h.rot s) = rotA (s (Fin.last n)) (S.lwLast h)
  | 0, S, hS, s, h => funext fun i => hS.LW0 _ _ _
  | n + 1, S, hS, s, h => funext fun i => by
    have e := take_rot (s (Fin.last n).castSucc) (s (Fin.last (n + 1))) (h.2 (Fin.last n).castSucc) (h.1 (Fin.last n))
    show S.LW (Fin.last n) (take (rotA _ _) fun k => h.1 (Fin.last n) (k + s (Fin.last n).succ) - s (Fin.last n).castSucc) (rotA _ _) i = _
    rw [Fin.succ_last, e, hS.LW]
    rfl

theorem Sys.Rot.wLast {S : Sys X N n} (hS : S.Rot) (s : Fin (n + 1) → Fin (N + 1)) (h : Hist X N n) :
    S.wLast (h.rot s) = rotA (s (Fin.last n)) (S.wLast h) := by
  rw [Sys.wLast, hS.lwLast, normalizeW_rot]
  rfl

theorem Sys.Rot.fwd : {n : ℕ} → {S : Sys X N n} → SysMeas (fun _ : Unit => S) → S.Rot → (s b : Fin (n + 1) → Fin (N + 1)) → (x : Fin (n + 1) → X) →
    (f : Hist X N n → ℝ≥0∞) → Measurable f → S.fwd b x f = S.fwd (b + s) x fun h => f (h.rot s)
  | 0, S, hO, hS, s, b, x, f, hf => by
    refine (hS.Q0 (s 0) (b 0) (x 0) (fun x0 => f (Fin.elim0, fun _ => x0)) (by fun_prop)).trans ?_
    refine Ex.congr_fun' (S.Q0 ((b + s) 0) (x 0)) fun X0 => congrArg f (Prod.ext (funext fun t => t.elim0) (funext fun t => ?_))
    rw [Fin.fin_one_eq_zero t]
    rfl
  | n + 1, S, hO, hS, s, b, x, f, hf => by
    have hm : Measurable fun h : Hist X N n => S.R (Fin.last n) (S.init.wLast h) (b (Fin.last n).castSucc) (b (Fin.last (n + 1)))
        fun a => S.Q (Fin.last n) (take (lastA h.2) a) (b (Fin.last (n + 1))) (x (Fin.last (n + 1))) fun Xs => f (h.snoc a Xs) := by
      have hw : Measurable S.init.wLast := hO.init.measurable_wLast.comp (by fun_prop : Measurable fun h : Hist X N n => ((), h))
      refine ((hO.R_ker (Fin.last n)).comp (g := fun h : Hist X N n =>
        ((), S.init.wLast h, b (Fin.last n).castSucc, b (Fin.last (n + 1)))) (measurable_const.prodMk (hw.prodMk measurable_const))).measurable (f := fun h a => S.Q (Fin.last n) (take (lastA h.2) a)
          (b (Fin.last (n + 1))) (x (Fin.last (n + 1))) fun Xs => f (h.snoc a Xs)) ?_
      exact ((hO.Q_ker (Fin.last n)).comp (g := fun p : Hist X N n × Anc N => ((), take (lastA p.1.2) p.2, b (Fin.last (n + 1)), x (Fin.last (n + 1))))
        (by fun_prop)).measurable (f := fun p Xs => f (p.1.snoc p.2 Xs)) (by unfold Function.uncurry; fun_prop)
    refine (Sys.Rot.fwd hO.init hS.init (initA s) (initA b) (initA x) _ hm).trans ?_
    refine Ex.congr_fun' (S.init.fwd (initA (b + s)) (initA x)) fun h => ?_
    rw [hS.init.wLast]
    have hw := normalize_isProb (S.init.lwLast h)
    refine (hS.R (Fin.last n) (initA s (Fin.last n)) (s (Fin.last (n + 1))) _ hw (normalize_pos _) _ _ _).trans ?_
    refine Ex.congr_fun' _ fun a => ?_
    have e := take_rot (initA s (Fin.last n)) (s (Fin.last (n + 1))) (lastA h.2) a
    show S.Q (Fin.last n) (take (rotA (initA s (Fin.last n)) (lastA h.2)) fun k => a (k + s (Fin.last (n + 1))) - initA s (Fin.last n))
      _ _ _ = _
    rw [e]
    refine (hS.Q (Fin.last n) (s (Fin.last (n + 1))) _ _ _ _ (by fun_prop)).trans ?_
    refine Ex.congr_fun' _ fun Xs => ?_
    show _ = f ((h.snoc a Xs).rot s)
    rw [Hist.rot_snoc]
    rfl

omit [MeasurableSpace X] in
theorem Hist.trace_rot : {n : ℕ} → (s : Fin (n + 1) → Fin (N + 1)) → (h : Hist X N n) → (k : Fin (N + 1)) →
    (h.rot s).trace k = h.trace (k + s (Fin.last n)) - s
  | 0, s, h, k => funext fun t => by
    rw [Fin.fin_one_eq_zero t]
    simp [Hist.trace]
  | n + 1, s, h, k => by
    have e := Hist.trace_rot (initA s) h.init (lastA (h.rot s).1 k)
    have e' : lastA (h.rot s).1 k + initA s (Fin.last n) = lastA h.1 (k + s (Fin.last (n + 1))) := by
      simp [Hist.rot, lastA, initA]
    rw [e'] at e
    show snocA ((h.rot s).init.trace (lastA (h.rot s).1 k)) k = _
    rw [Hist.rot_init, e]
    funext t
    refine Fin.lastCases ?_ (fun t => ?_) t
    · simp [Hist.trace]
    · simp [Hist.trace, initA]

omit [MeasurableSpace X] in
theorem Hist.tracex_rot (s : Fin (n + 1) → Fin (N + 1)) (h : Hist X N n) (k : Fin (N + 1)) :
    (h.rot s).tracex k = h.tracex (k + s (Fin.last n)) := by
  funext t
  show h.2 t ((h.rot s).trace k t + s t) = _
  rw [Hist.trace_rot]
  simp [Hist.tracex]

theorem Sys.Rot.bs : {n : ℕ} → {S : Sys X N n} → S.Rot → (Γ : Fin n → X → X → ℝ) → (s : Fin (n + 1) → Fin (N + 1)) → (h : Hist X N n) →
    (k : Fin (N + 1)) → (f : (Fin (n + 1) → X) × (Fin (n + 1) → Fin (N + 1)) → ℝ≥0∞) →
    S.bs Γ (h.rot s) k f = S.bs Γ h (k + s (Fin.last n)) fun r => f (r.1, r.2 - s)
  | 0, S, hS, Γ, s, h, k, f => by
    refine congrArg f (Prod.ext rfl (funext fun t => ?_))
    rw [Fin.fin_one_eq_zero t]
    simp
  | n + 1, S, hS, Γ, s, h, k, f => by
    have e : (fun i => S.init.lwLast (h.rot s).init i + Γ (Fin.last n) (lastA (h.rot s).init.2 i) (lastA (h.rot s).2 k)) =
        rotA (initA s (Fin.last n)) fun i => S.init.lwLast h.init i +
          Γ (Fin.last n) (lastA h.init.2 i) (lastA h.2 (k + s (Fin.last (n + 1)))) := by
      funext i
      rw [Hist.rot_init, hS.init.lwLast]
      rfl
    show ∑ i, catP (normalizeW fun i => S.init.lwLast (h.rot s).init i +
        Γ (Fin.last n) (lastA (h.rot s).init.2 i) (lastA (h.rot s).2 k)) i * S.init.bs (initA Γ) (h.rot s).init i
          (fun r => f (snocA r.1 (lastA (h.rot s).2 k), snocA r.2 k)) =
      ∑ i, catP (normalizeW fun i => S.init.lwLast h.init i +
        Γ (Fin.last n) (lastA h.init.2 i) (lastA h.2 (k + s (Fin.last (n + 1))))) i * S.init.bs (initA Γ) h.init i
          (fun r => f (snocA r.1 (lastA h.2 (k + s (Fin.last (n + 1)))), snocA r.2 (k + s (Fin.last (n + 1))) - s))
    rw [e, normalizeW_rot]
    refine Eq.trans ?_ (sum_rot (initA s (Fin.last n)) _)
    refine Finset.sum_congr rfl fun i _ => ?_
    rw [catP_rot, Hist.rot_init, hS.init.bs]
    congr 1
    refine Ex.congr_fun' _ fun r => congrArg f (Prod.ext rfl (funext fun t => ?_))
    refine Fin.lastCases ?_ (fun t => ?_) t
    · simp
    · simp [initA]

/-- Rotating the indices of the reference rotates those of the result. -/
theorem Sys.Rot.kernel {S : Sys X N n} (hO : SysMeas (fun _ : Unit => S)) (hS : S.Rot) {Γ : Fin n → X → X → ℝ} (hΓ : ∀ t, Measurable fun p : X × X => Γ t p.1 p.2)
    {move : (Fin (N + 1) → ℝ) → Fin (N + 1) → Ex (Fin (N + 1))} (hk : MoveKer move) (hm : RotMove move) (backward : Bool) :
    Relabels (S.kernel Γ move backward) := by
  intro x b s f hf
  have hmf : Measurable fun h : Hist X N n => move (S.wLast h) (lastA b) fun k =>
      (if backward then S.bs Γ h k else (pure (h.tracex k, h.trace k) : Ex _)) fun r => f (r.1, r.2 + s) := by
    have hw : Measurable S.wLast := hO.measurable_wLast.comp (by fun_prop : Measurable fun h : Hist X N n => ((), h))
    refine (hk.comp (g := fun h : Hist X N n => (S.wLast h, lastA b)) (hw.prodMk measurable_const)).measurable
      (f := fun h k => (if backward then S.bs Γ h k else (pure (h.tracex k, h.trace k) : Ex _)) fun r => f (r.1, r.2 + s)) ?_
    cases backward with
    | true => exact ((hO.bs_ker (Γ := fun _ => Γ) fun t => (hΓ t).comp measurable_snd).comp (g := fun p : Hist X N n × Fin (N + 1) => ((), p))
        (by fun_prop)).measurable' (f := fun r => f (r.1, r.2 + s)) (by fun_prop)
    | false =>
      show Measurable fun p : Hist X N n × Fin (N + 1) => f (p.1.tracex p.2, p.1.trace p.2 + s)
      fun_prop
  refine Eq.symm ((hS.fwd hO s b x _ hmf).trans (Ex.congr_fun' (S.fwd (b + s) x) fun h => ?_))
  rw [hS.wLast]
  refine (hm (s (Fin.last n)) _ (normalize_isProb _) (normalize_pos _) _ _).trans (Ex.congr_fun' (move (S.wLast h) (lastA (b + s))) fun k => ?_)
  cases backward with
  | true =>
    refine (hS.bs Γ s h (k - s (Fin.last n)) _).trans ?_
    rw [sub_add_cancel]
    exact Ex.congr_fun' (S.bs Γ h k) fun r => by simp
  | false =>
    show f ((h.rot s).tracex (k - s (Fin.last n)), (h.rot s).trace (k - s (Fin.last n)) + s) = f (h.tracex k, h.trace k)
    rw [Hist.tracex_rot, Hist.trace_rot, sub_add_cancel, sub_add_cancel]

end

section second
variable {V : Type} [MeasurableSpace V]

theorem Sys.Rot.bs2 : {n : ℕ} → {S : Sys (V × V) N n} → S.Rot → (Γ : Fin n → V × V → V → ℝ) → (τ : V → ℝ) →
    (s : Fin (n + 1) → Fin (N + 1)) → (h : Hist (V × V) N n) →
    (k : Fin (N + 1)) → (f : (Fin (n + 1) → V) × (Fin (n + 1) → Fin (N + 1)) → ℝ≥0∞) →
    S.bs2 Γ τ (h.rot s) k f = S.bs2 Γ τ h (k + s (Fin.last n)) fun r => f (r.1, r.2 - s)
  | 0, S, hS, Γ, τ, s, h, k, f => by
    refine congrArg f (Prod.ext rfl (funext fun t => ?_))
    rw [Fin.fin_one_eq_zero t]
    simp
  | n + 1, S, hS, Γ, τ, s, h, k, f => by
    have e : (fun i => S.init.lwLast (h.rot s).init i + Γ (Fin.last n) (lastA (h.rot s).init.2 i) (lastA (h.rot s).2 k).2 +
          τ (lastA (h.rot s).init.2 i).2) =
        rotA (initA s (Fin.last n)) fun i => S.init.lwLast h.init i +
          Γ (Fin.last n) (lastA h.init.2 i) (lastA h.2 (k + s (Fin.last (n + 1)))).2 + τ (lastA h.init.2 i).2 := by
      funext i
      rw [Hist.rot_init, hS.init.lwLast]
      rfl
    show ∑ i, catP (normalizeW fun i => S.init.lwLast (h.rot s).init i +
        Γ (Fin.last n) (lastA (h.rot s).init.2 i) (lastA (h.rot s).2 k).2 + τ (lastA (h.rot s).init.2 i).2) i *
        S.init.bs2 (initA Γ) (fun y => Γ (Fin.last n) (y, (lastA (h.rot s).init.2 i).2) (lastA (h.rot s).2 k).2) (h.rot s).init i
          (fun r => f (snocA r.1 (lastA (h.rot s).2 k).2, snocA r.2 k)) =
      ∑ i, catP (normalizeW fun i => S.init.lwLast h.init i +
        Γ (Fin.last n) (lastA h.init.2 i) (lastA h.2 (k + s (Fin.last (n + 1)))).2 + τ (lastA h.init.2 i).2) i *
        S.init.bs2 (initA Γ) (fun y => Γ (Fin.last n) (y, (lastA h.init.2 i).2) (lastA h.2 (k + s (Fin.last (n + 1)))).2) h.init i
          (fun r => f (snocA r.1 (lastA h.2 (k + s (Fin.last (n + 1)))).2, snocA r.2 (k + s (Fin.last (n + 1))) - s))
    rw [e, normalizeW_rot]
    refine Eq.trans ?_ (sum_rot (initA s (Fin.last n)) _)
    refine Finset.sum_congr rfl fun i _ => ?_
    rw [catP_rot, Hist.rot_init, hS.init.bs2]
    congr 1
    refine Ex.congr_fun' _ fun r => congrArg f (Prod.ext rfl (funext fun t => ?_))
    refine Fin.lastCases ?_ (fun t => ?_) t
    · simp
    · simp [initA]

theorem Sys.Rot.kernel2 {S : Sys (V × V) N n} (hO : SysMeas (fun _ : Unit => S)) (hS : S.Rot) (c : V) {Γ : Fin n → V × V → V → ℝ}
    (hΓ : ∀ t, Measurable fun p : (V × V) × V => Γ t p.1 p.2)
    {move : (Fin (N + 1) → ℝ) → Fin (N + 1) → Ex (Fin (N + 1))} (hk : MoveKer move) (hm : RotMove move) (backward : Bool) :
    Relabels (S.kernel2 c Γ move backward) := by
  intro x b s f hf
  have hmf : Measurable fun h : Hist (V × V) N n => move (S.wLast h) (lastA b) fun k =>
      (if backward then S.bs2 Γ (fun _ => 0) h k else (pure (fun t => (h.tracex k t).2, h.trace k) : Ex _)) fun r => f (r.1, r.2 + s) := by
    have hw : Measurable S.wLast := hO.measurable_wLast.comp (by fun_prop : Measurable fun h : Hist (V × V) N n => ((), h))
    refine (hk.comp (g := fun h : Hist (V × V) N n => (S.wLast h, lastA b)) (hw.prodMk measurable_const)).measurable
      (f := fun h k => (if backward then S.bs2 Γ (fun _ => 0) h k else (pure (fun t => (h.tracex k t).2, h.trace k) : Ex _))
        fun r => f (r.1, r.2 + s)) ?_
    cases backward with
    | true => exact ((hO.bs2_ker (Γ := fun _ => Γ) (τ := fun _ _ => 0) (fun t => (hΓ t).comp measurable_snd) measurable_const).comp
        (g := fun p : Hist (V × V) N n × Fin (N + 1) => ((), p)) (by fun_prop)).measurable' (f := fun r => f (r.1, r.2 + s)) (by fun_prop)
    | false =>
      show Measurable fun p : Hist (V × V) N n × Fin (N + 1) => f (fun t => (p.1.tracex p.2 t).2, p.1.trace p.2 + s)
      have : Measurable fun p : Hist (V × V) N n × Fin (N + 1) => p.1.tracex p.2 := by fun_prop
      fun_prop
  refine Eq.symm ((hS.fwd hO s b (lift2 c x) _ hmf).trans (Ex.congr_fun' (S.fwd (b + s) (lift2 c x)) fun h => ?_))
  rw [hS.wLast]
  refine (hm (s (Fin.last n)) _ (normalize_isProb _) (normalize_pos _) _ _).trans (Ex.congr_fun' (move (S.wLast h) (lastA (b + s))) fun k => ?_)
  cases backward with
  | true =>
    refine (hS.bs2 Γ _ s h (k - s (Fin.last n)) _).trans ?_
    rw [sub_add_cancel]
    exact Ex.congr_fun' (S.bs2 Γ _ h k) fun r => by simp
  | false =>
    show f (fun t => ((h.rot s).tracex (k - s (Fin.last n)) t).2, (h.rot s).trace (k - s (Fin.last n)) + s) =
      f (fun t => (h.tracex k t).2, h.trace k)
    rw [Hist.tracex_rot, Hist.trace_rot, sub_add_cancel, sub_add_cancel]

end second

section corollaries
variable [MeasurableSpace X] {K K' : (Fin (n + 1) → X) → (Fin (n + 1) → Fin (N + 1)) → Ex ((Fin (n + 1) → X) × (Fin (n + 1) → Fin (N + 1)))}

theorem Spec.Relabels.congr (h : Relabels K) (hK : ∀ x b f, Measurable f → K' x b f = K x b f) : Relabels K' := by
  intro x b s f hf
  rw [hK _ _ _ hf, hK _ _ _ (by fun_prop), h x b s f hf]

theorem Spec.Relabels.mixture {E : Type} [MeasurableSpace E] {μ : (Fin (n + 1) → X) → Measure E}
    {F : E → (Fin (n + 1) → X) → (Fin (n + 1) → Fin (N + 1)) → Ex ((Fin (n + 1) → X) × (Fin (n + 1) → Fin (N + 1)))}
    (h : ∀ e, Relabels (F e)) (hK : ∀ x b f, Measurable f → K x b f = ∫⁻ e, F e x b f ∂μ x) : Relabels K := by
  intro x b s f hf
  rw [hK _ _ _ hf, hK _ _ _ (by fun_prop)]
  exact lintegral_congr fun e => h e x b s f hf

theorem Spec.Relabels.indexFree (h : Relabels K) : IndexFree K := by
  intro x b b' g hg
  have hf : Measurable fun r : (Fin (n + 1) → X) × (Fin (n + 1) → Fin (N + 1)) => g r.1 fun t => r.2 t ≠ b' t := by
    refine measurable_from_prod_countable_left fun c => ?_
    exact hg fun t => c t ≠ b' t
  have := h x b (b' - b) _ hf
  rw [add_sub_cancel] at this
  refine Eq.trans (Ex.congr_fun' (K x b) fun r => ?_) this.symm
  refine congrArg (g r.1) (funext fun t => propext ?_)
  refine not_congr ?_
  show r.2 t = b t ↔ r.2 t + (b' t - b t) = b' t
  constructor
  · intro e
    rw [e]
    abel
  · intro e
    rw [← sub_eq_zero] at e ⊢
    rw [← e]
    abel

theorem Spec.Relabels.invariant {lam : Measure X} {logpi : (Fin (n + 1) → X) → ℝ} (h : Relabels K) (hi : LeavesInvariant lam logpi K) :
    InvariantFromAnyIndex lam logpi K := by
  intro b f hf
  have h1 := hi (fun r => f r.1) (by fun_prop)
  have e : ∀ b' x, K x b' (fun r => f r.1) = K x b (fun r => f r.1) := fun b' x =>
    h.indexFree x b' b (fun x _ => f x) fun _ => hf
  simp only [e, Finset.sum_const, nsmul_eq_mul] at h1
  refine (ENNReal.mul_right_inj ?_ (ENNReal.natCast_ne_top _)).mp h1
  simp

end corollaries

section schemes

/-- Ancestors relabelled by rotations of the particles and of their children. -/
def ancRot (s s' : Fin (N + 1)) : Anc N ≃ Anc N where
  toFun a := fun k => a (k + s') - s
  invFun a := fun k => a (k - s') + s
  left_inv a := by funext k; simp
  right_inv a := by funext k; simp

theorem atSet_rot (s s' i j : Fin (N + 1)) (a : Anc N) :
    ancRot s s' (atSet a (j + s') (i + s)) = atSet (ancRot s s' a) j i := by
  funext k
  simp only [ancRot, Equiv.coe_fn_mk, atSet_apply]
  by_cases h : k = j
  · simp [h]
  · simp [h]

theorem maxA_rot (s : Fin (N + 1)) (w : Fin (N + 1) → ℝ) : maxA (rotA s w) = maxA w := by
  refine le_antisymm ?_ ?_
  · obtain ⟨i, hi⟩ := maxA_mem (rotA s w)
    rw [hi]
    exact le_maxA w _
  · obtain ⟨i, hi⟩ := maxA_mem w
    rw [hi]
    have := le_maxA (rotA s w) (i - s)
    simpa [rotA] using this

theorem killK_rot (s : Fin (N + 1)) (w : Fin (N + 1) → ℝ) (t l : Fin (N + 1)) : killK (rotA s w) t l = killK w (t + s) (l + s) := by
  simp [killK, maxA_rot, rotA]

theorem killingJProb_rot (s : Fin (N + 1)) (w : Fin (N + 1) → ℝ) (i J : Fin (N + 1)) :
    killingJProb (rotA s w) i J = killingJProb w (i + s) (J + s) := by
  have e : atSet (fun t : Fin (N + 1) => (1 - rotA s w t / maxA (rotA s w)) / ((N : ℝ) + 1)) i 0 =
      rotA s (atSet (fun t : Fin (N + 1) => (1 - w t / maxA w) / ((N : ℝ) + 1)) (i + s) 0) := by
    funext t
    simp only [atSet_apply, rotA, maxA_rot, add_left_inj]
  have e2 := sum_rot s (atSet (fun t : Fin (N + 1) => (1 - w t / maxA w) / ((N : ℝ) + 1)) (i + s) 0)
  simp only [killingJProb, e]
  rw [show ∑ t, rotA s (atSet (fun t : Fin (N + 1) => (1 - w t / maxA w) / ((N : ℝ) + 1)) (i + s) 0) t = _ from e2, atSet_apply,
    atSet_apply]
  simp only [rotA, add_left_inj]

theorem multinomial_rot (key : Key) : RotResampling (fun w i j => (multinomial (n := N) key w i j true : Ex _)) := by
  intro s s' w _ _ i j f
  show ∑ a, (∏ t, catP (rotA s w) (a t)) * f (atSet a j i) =
    ∑ a, (∏ t, catP w (a t)) * f (ancRot s s' (atSet a (j + s') (i + s)))
  refine (Fintype.sum_equiv (ancRot s s') _ _ fun a => ?_).symm
  rw [atSet_rot]
  congr 1
  refine (Fintype.prod_equiv (Equiv.addRight s') _ _ fun t => ?_).symm
  rw [catP_rot]
  simp [ancRot]

theorem killing_rot (key : Key) : RotResampling (fun w i j => (killing (n := N) key w i j true : Ex _)) := by
  intro s s' w hw hp i j f
  have hw' : IsProb (rotA s w) := ⟨fun t => hw.nonneg _, by rw [← hw.sum_one]; exact sum_rot s w⟩
  show (killing key (rotA s w) i j true : Ex _) f = (killing key w (i + s) (j + s') true : Ex _) fun a => f (ancRot s s' a)
  rw [killing_law_true hw', killing_law_true hw]
  refine Fintype.sum_equiv (Equiv.addRight s) _ _ fun J => ?_
  rw [killingJProb_rot]
  congr 1
  refine (Fintype.sum_equiv (ancRot s s') _ _ fun a => ?_).symm
  rw [atSet_rot]
  congr 1
  refine (Fintype.prod_equiv (Equiv.addRight s') _ _ fun t => ?_).symm
  rw [killK_rot]
  simp only [ancRot, Equiv.coe_fn_mk, Equiv.coe_addRight, sub_add_cancel]
  congr 2
  abel

theorem barker_rot (key : Key) : RotMove (N := N) (moveIndex (fun key w k => barker_move key w k) key) := by
  intro s w _ _ k f
  show ∑ i, catP (rotA s w) i * f i = ∑ i, catP w i * f (i - s)
  rw [← sum_rot s fun i => catP w i * f (i - s)]
  refine Finset.sum_congr rfl fun i _ => ?_
  rw [catP_rot, add_sub_cancel_right]

theorem force_rot (key : Key) : RotMove (N := N) (moveIndex (fun key w k => force_move key w k) key) := by
  intro s w _ _ k f
  have e : ∀ i, forceRest (rotA s w) k i = forceRest w (k + s) (i + s) := fun i => by
    simp only [forceRest, rotA, atSet_apply]
    split_ifs <;> simp_all
  have e' : forceRest (rotA s w) k = rotA s (forceRest w (k + s)) := funext e
  show ∑ i, catP (forceRest (rotA s w) k) i * ∫⁻ u, f (if u * (1 - w (i + s)) < 1 - w (k + s) then i else k) ∂unifM =
    ∑ i, catP (forceRest w (k + s)) i * ∫⁻ u, f ((if u * (1 - w i) < 1 - w (k + s) then i else k + s) - s) ∂unifM
  refine Eq.trans ?_ (sum_rot s _)
  refine Finset.sum_congr rfl fun i _ => ?_
  rw [e', catP_rot]
  congr 1
  refine lintegral_congr fun u => congrArg f ?_
  split_ifs <;> simp

end schemes

end Verif
