import Verif.Lemmas.CsmcBackward
import Verif.Model.Csmc

/-!
# The programs of `csmc.py` as abstract conditional particle systems
-/

open scoped ENNReal
open MeasureTheory ProbabilityTheory Finset

namespace Verif
open Verif.Spec Verif.Model

variable {X : Type} {N n : ℕ}

theorem comp_insert0 {α β : Type} (g : α → β) (v : α) (a : Fin n → α) :
    (fun t => g (insert0 v a t)) = insert0 (g v) (fun t => g (a t)) := by
  funext t; exact Fin.cases rfl (fun s => rfl) t

/-- A forward scan whose body resamples, proposes and weights is the abstract forward pass. -/
theorem scan_eq_fwd {I O β : Type} {n : ℕ} (S : Sys X N n) (b : Fin (n + 1) → Fin (N + 1))
    (x : Fin (n + 1) → X)
    (body : (Fin (N + 1) → ℝ) × PA X N → I → Ex (((Fin (N + 1) → ℝ) × PA X N) × O))
    (inp : Fin n → I) (mkO : Fin n → PA X N → Anc N → PA X N → O)
    (hbody : ∀ t w y, body (w, y) (inp t) = (do
      let a ← S.R t w (b t.castSucc) (b t.succ)
      let Xs ← S.Q t (take y a) (b t.succ) (x t.succ)
      pure ((normalizeW (S.LW t (take y a) Xs), Xs), mkO t y a Xs)))
    (k : PA X N → (((Fin (N + 1) → ℝ) × PA X N) × (Fin n → O)) → Ex β) :
    (do
      let x0 ← S.Q0 (b 0) (x 0)
      let r ← scanM body (normalizeW (S.LW0 x0), x0) inp
      k x0 r) = (do
      let h ← S.fwd b x
      k (h.2 0) ((S.wLast h, lastA h.2), fun t => mkO t (h.2 t.castSucc) (h.1 t) (h.2 t.succ))) := by
  induction n with
  | zero =>
    funext f
    show S.Q0 (b 0) (x 0) _ = S.Q0 (b 0) (x 0) _
    congr 1
    funext x0
    have : (Fin.elim0 : Fin 0 → O) = fun t => mkO t x0 (Fin.elim0 t) x0 := by
      funext t; exact t.elim0
    exact congrArg (fun o => k x0 ((normalizeW (S.LW0 x0), x0), o) f) this
  | succ n ih =>
    have h1 := ih S.init (initA b) (initA x) (initA inp) (initA mkO) (fun t w y => hbody t.castSucc w y)
      (fun x0 r => do
        let q ← body r.1 (lastA inp)
        k x0 (q.1, snocA r.2 q.2))
    have h2 : (do
        let x0 ← S.Q0 (b 0) (x 0)
        let r ← scanM body (normalizeW (S.LW0 x0), x0) inp
        k x0 r) = (do
        let x0 ← S.init.Q0 (initA b 0) (initA x 0)
        let r ← scanM body (normalizeW (S.init.LW0 x0), x0) (initA inp)
        let q ← body r.1 (lastA inp)
        k x0 (q.1, snocA r.2 q.2)) := by
      simp only [scanM_snoc, bind_assoc, pure_bind]
      rfl
    rw [h2, h1]
    have h3 : ∀ (h : Hist X N n) (a : Anc N) (Xs : PA X N),
        (fun t : Fin (n + 1) => mkO t ((h.snoc a Xs).2 t.castSucc) ((h.snoc a Xs).1 t)
          ((h.snoc a Xs).2 t.succ)) =
        snocA (fun t : Fin n => initA mkO t (h.2 t.castSucc) (h.1 t) (h.2 t.succ))
          (mkO (Fin.last n) (lastA h.2) a Xs) := by
      intro h a Xs
      funext t
      refine Fin.lastCases ?_ (fun s => ?_) t
      · simp [Hist.snoc, lastA]
      · simp only [snocA_castSucc, Hist.snoc, ← Fin.castSucc_succ]
        rfl
    have h4 : ∀ (h : Hist X N n) (a : Anc N) (Xs : PA X N), (h.snoc a Xs).2 0 = h.2 0 := by
      intro h a Xs
      have : (0 : Fin (n + 2)) = (0 : Fin (n + 1)).castSucc := rfl
      simp only [Hist.snoc]
      rw [this, snocA_castSucc]
    show (S.init.fwd (initA b) (initA x) >>= fun h => _) = ((S.init.fwd (initA b) (initA x)) >>= fun h => _) >>= _
    rw [bind_assoc]
    congr 1
    funext h
    have h5 := hbody (Fin.last n) (S.init.wLast h) (lastA h.2)
    rw [show lastA inp = inp (Fin.last n) from rfl, h5]
    simp only [bind_assoc, pure_bind, Sys.wLast, Sys.lwLast_snoc]
    congr 1
    funext a
    congr 1
    funext Xs
    rw [h3, h4]
    have h6 : lastA (h.snoc a Xs).2 = Xs := lastA_snocA _ _
    rw [h6]

/-- Log-weights of all time steps. -/
def Sys.lws : {n : ℕ} → Sys X N n → Hist X N n → Fin (n + 1) → Fin (N + 1) → ℝ
  | 0, S, h => fun _ => S.lwLast h
  | _ + 1, S, h => snocA (S.init.lws h.init) (S.lwLast h)

theorem Sys.lws_last {n : ℕ} (S : Sys X N n) (h : Hist X N n) : lastA (S.lws h) = S.lwLast h := by
  cases n with
  | zero => rfl
  | succ n => simp [Sys.lws]

theorem Sys.lws_init {n : ℕ} (S : Sys X N (n + 1)) (h : Hist X N (n + 1)) :
    initA (S.lws h) = S.init.lws h.init := by simp [Sys.lws]

theorem Sys.lws_zero {n : ℕ} (S : Sys X N n) (h : Hist X N n) : S.lws h 0 = S.LW0 (h.2 0) := by
  induction n with
  | zero => rfl
  | succ n ih =>
    have : S.lws h 0 = initA (S.lws h) 0 := rfl
    rw [this, S.lws_init, ih S.init h.init]
    rfl

theorem Sys.lws_succ {n : ℕ} (S : Sys X N n) (h : Hist X N n) (t : Fin n) :
    S.lws h t.succ = S.LW t (take (h.2 t.castSucc) (h.1 t)) (h.2 t.succ) := by
  induction n with
  | zero => exact t.elim0
  | succ n ih =>
    refine Fin.lastCases ?_ (fun s => ?_) t
    · have := S.lws_last h
      simp only [lastA] at this
      rw [Fin.succ_last, this]
      rfl
    · have h1 : S.lws h s.castSucc.succ = initA (S.lws h) s.succ := by
        rw [initA_apply]; rfl
      rw [h1, S.lws_init, ih S.init h.init]
      rfl

/-- Two arrays of log-weights that differ by a constant per time step. -/
def SameWeights (l l' : Fin n → Fin (N + 1) → ℝ) : Prop := ∀ t, ∃ c, ∀ i, l t i = l' t i + c

theorem normalize_congr_const {l l' : Fin (N + 1) → ℝ} (h : ∃ c, ∀ i, l i = l' i + c) :
    normalizeW l = normalizeW l' := by
  obtain ⟨c, hc⟩ := h
  rw [show l = fun i => l' i + c from funext hc]
  exact normalize_add_const l' c

/-- The scan of `backward_sampling_pass` is the abstract backward sampling. -/
theorem bs_eq {G : Type} {n : ℕ} (S : Sys X N n) (Gam : X → X → G → ℝ) (params : Fin n → G)
    (h : Hist X N n) (log_ws : Fin (n + 1) → Fin (N + 1) → ℝ) (hl : SameWeights log_ws (S.lws h))
    (keys : Fin n → Key) (k : Fin (N + 1)) :
    (do
      let r ← (scanM (bsBody Gam) (lastA h.2 k)
        (fun t => (keys t, revInit h.2 t, revInit log_ws t, rev params t)) : Ex _)
      pure (rev (insert0 (lastA h.2 k) (fun t => (r.2 t).1)), rev (insert0 k (fun t => (r.2 t).2)))) =
    S.bs (fun t y x => Gam y x (params t)) h k := by
  induction n generalizing k with
  | zero =>
    funext f
    show f _ = f _
    congr 1
    ext t
    · rw [Fin.fin_one_eq_zero t]; rfl
    · rw [Fin.fin_one_eq_zero t]; rfl
  | succ n ih =>
    have hl' : SameWeights (initA log_ws) (S.init.lws h.init) := by
      rw [← S.lws_init]
      exact fun t => hl t.castSucc
    rw [scanM_succ]
    have e0 : (keys 0, revInit h.2 0, revInit log_ws 0, rev params 0) =
        (keys 0, lastA h.init.2, lastA (initA log_ws), lastA params) := by
      simp only [revInit, rev_apply, Fin.rev_zero]
      rfl
    have e1 : tailA (fun t : Fin (n + 1) => (keys t, revInit h.2 t, revInit log_ws t, rev params t)) =
        fun t => (tailA keys t, revInit h.init.2 t, revInit (initA log_ws) t, rev (initA params) t) := by
      funext t
      simp only [revInit, rev_apply, tailA_apply, Fin.rev_succ]
      rfl
    rw [e0, e1]
    have e2 : normalizeW (fun i => Gam (lastA h.init.2 i) (lastA h.2 k) (lastA params) -
          maxA (fun i => Gam (lastA h.init.2 i) (lastA h.2 k) (lastA params)) + lastA (initA log_ws) i) =
        normalizeW (fun i => S.init.lwLast h.init i + Gam (lastA h.init.2 i) (lastA h.2 k)
          (params (Fin.last n))) := by
      apply normalize_congr_const
      obtain ⟨c, hc⟩ := hl' (Fin.last n)
      have h3 := S.init.lws_last h.init
      refine ⟨c - maxA (fun i => Gam (lastA h.init.2 i) (lastA h.2 k) (lastA params)), fun i => ?_⟩
      rw [← h3]
      have := hc i
      simp only [lastA] at this ⊢
      rw [this]; ring
    funext f
    show (∑ i, catP (normalizeW (fun i => Gam (lastA h.init.2 i) (lastA h.2 k) (lastA params) -
          maxA (fun i => Gam (lastA h.init.2 i) (lastA h.2 k) (lastA params)) +
            lastA (initA log_ws) i)) i * _) = (∑ i : Fin (N + 1), _ * _)
    rw [e2]
    refine Finset.sum_congr rfl fun i _ => ?_
    congr 1
    have h4 := ih S.init (initA params) h.init (initA log_ws) hl' (tailA keys) i
    have h5 : (fun t y x => Gam y x (initA params t)) = initA (fun t y x => Gam y x (params t)) := rfl
    rw [h5] at h4
    show _ = S.init.bs (initA fun t y x => Gam y x (params t)) h.init i
      (fun r => f (snocA r.1 (lastA h.2 k), snocA r.2 k))
    rw [← h4]
    show (scanM (bsBody Gam) (lastA h.init.2 i) _ : Ex _) _ =
      (scanM (bsBody Gam) (lastA h.init.2 i) _ : Ex _) _
    refine Ex.congr_fun' _ fun r => ?_
    show f _ = f _
    congr 1
    rw [Prod.mk.injEq]
    constructor
    · rw [rev_insert0, comp_insert0 Prod.fst]
    · rw [rev_insert0, comp_insert0 Prod.snd]

/-- The scan of `backward_scanning_pass` follows the genealogy. -/
theorem bscan_eq {n : ℕ} (h : Hist X N n) (k : Fin (N + 1)) :
    let r := scan bscanBody k (fun t => (revInit h.2 t, rev h.1 t))
    rev (insert0 (lastA h.2 k) (fun t => (r.2 t).1)) = h.tracex k ∧
      rev (insert0 k (fun t => (r.2 t).2)) = h.trace k := by
  induction n generalizing k with
  | zero =>
    constructor <;> (funext t; rw [Fin.fin_one_eq_zero t]; rfl)
  | succ n ih =>
    have e1 : tailA (fun t : Fin (n + 1) => (revInit h.2 t, rev h.1 t)) =
        fun t => (revInit h.init.2 t, rev h.init.1 t) := by
      funext t
      simp only [revInit, rev_apply, tailA_apply, Fin.rev_succ]
      rfl
    have e0 : (revInit h.2 0, rev h.1 0) =
        (lastA h.init.2, lastA h.1) := by
      simp only [revInit, rev_apply, Fin.rev_zero]
      rfl
    have e2 : scan bscanBody k (fun t => (revInit h.2 t, rev h.1 t)) =
        ((scan bscanBody (lastA h.1 k) (fun t => (revInit h.init.2 t, rev h.init.1 t))).1,
          insert0 (lastA h.init.2 (lastA h.1 k), lastA h.1 k)
            (scan bscanBody (lastA h.1 k) (fun t => (revInit h.init.2 t, rev h.init.1 t))).2) := by
      rw [scan_succ, e0, e1]
      rfl
    have h3 := ih h.init (lastA h.1 k)
    simp only at h3
    have ht : h.trace k = snocA (h.init.trace (lastA h.1 k)) k := rfl
    have htx : h.tracex k = snocA (h.init.tracex (lastA h.1 k)) (lastA h.2 k) := by
      funext t
      refine Fin.lastCases ?_ (fun s => ?_) t
      · rw [h.tracex_last, snocA_last]
      · rw [snocA_castSucc, Hist.tracex, ht, snocA_castSucc]; rfl
    simp only [e2]
    rw [ht, htx, ← h3.1, ← h3.2]
    constructor
    · rw [rev_insert0, comp_insert0 Prod.fst]
    · rw [rev_insert0, comp_insert0 Prod.snd]

end Verif
