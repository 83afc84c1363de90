import Verif.Lemmas.CsmcParam
import Verif.Lemmas.ScanRules

/-!
# Forward and backward passes over particles drawn in advance
-/

open scoped ENNReal
open MeasureTheory ProbabilityTheory

namespace Verif
open Verif.Spec Verif.Model

variable {X : Type} {N n : ℕ}

/-- If all particles are deterministic, the forward pass only produces histories with these particles. -/
theorem Sys.fwd_det {n : ℕ} (S : Sys X N n) (b : Fin (n + 1) → Fin (N + 1)) (x : Fin (n + 1) → X)
    (xs : Fin (n + 1) → PA X N) (hQ0 : S.Q0 (b 0) (x 0) = pure (xs 0))
    (hQ : ∀ t Y, S.Q t Y (b t.succ) (x t.succ) = pure (xs t.succ)) {f g : Hist X N n → ℝ≥0∞}
    (hfg : ∀ h : Hist X N n, h.2 = xs → f h = g h) : S.fwd b x f = S.fwd b x g := by
  induction n with
  | zero =>
    show S.Q0 (b 0) (x 0) _ = S.Q0 (b 0) (x 0) _
    rw [hQ0]
    refine hfg _ ?_
    funext t
    rw [Fin.fin_one_eq_zero t]
  | succ n ih =>
    show S.init.fwd (initA b) (initA x) (fun k => S.R (Fin.last n) (S.init.wLast k) _ _ (fun a =>
        S.Q (Fin.last n) (take (lastA k.2) a) (b (Fin.last (n + 1))) (x (Fin.last (n + 1)))
          (fun Xs => f (k.snoc a Xs)))) =
      S.init.fwd (initA b) (initA x) (fun k => S.R (Fin.last n) (S.init.wLast k) _ _ (fun a =>
        S.Q (Fin.last n) (take (lastA k.2) a) (b (Fin.last (n + 1))) (x (Fin.last (n + 1)))
          (fun Xs => g (k.snoc a Xs))))
    refine ih S.init (initA b) (initA x) (initA xs) hQ0 (fun t Y => hQ t.castSucc Y) fun h hh => ?_
    refine Ex.congr_fun' _ fun a => ?_
    have := hQ (Fin.last n) (take (lastA h.2) a)
    rw [Fin.succ_last] at this
    rw [this]
    refine hfg _ ?_
    show snocA h.2 (xs (Fin.last (n + 1))) = xs
    rw [hh]
    exact snocA_initA xs

/-- The forward scan over given particles, followed by one of the backward passes of `csmc.py`, is the kernel of
any system whose conditional proposals put mass one on these particles. -/
theorem aux_pass_eq {I G : Type} (S : Sys X N n) (b : Fin (n + 1) → Fin (N + 1)) (x : Fin (n + 1) → X)
    (xs : Fin (n + 1) → PA X N) (hQ0 : S.Q0 (b 0) (x 0) = pure (xs 0))
    (hQ : ∀ t Y, S.Q t Y (b t.succ) (x t.succ) = pure (xs t.succ))
    (body : (Fin (N + 1) → ℝ) × PA X N → I → Ex (((Fin (N + 1) → ℝ) × PA X N) × ((Fin (N + 1) → ℝ) × Anc N)))
    (inp : Fin n → I) (slw : Fin n → PA X N → Fin (N + 1) → ℝ)
    (hbody : ∀ t w y, body (w, y) (inp t) = (do
      let a ← S.R t w (b t.castSucc) (b t.succ)
      pure ((normalizeW (slw t (take y a)), xs t.succ), (slw t (take y a), a))))
    (hslw : ∀ t Y, ∃ c, ∀ i, slw t Y i = S.LW t Y (xs t.succ) i + c)
    (lw0 : Fin (N + 1) → ℝ) (hlw0 : ∃ c, ∀ i, lw0 i = S.LW0 (xs 0) i + c)
    (kb : Key) (Gam : X → X → G → ℝ) (params : Fin n → G) (mv : AncestorMove Ex N) (backward : Bool) :
    (do
      let r ← scanM body (normalizeW lw0, xs 0) inp
      let log_ws := insert0 lw0 (fun t => (r.2 t).1)
      let As := fun t => (r.2 t).2
      let q ← if backward then
          backward_sampling_pass kb Gam params (lastA b) xs log_ws mv true
        else
          backward_scanning_pass kb As (lastA b) xs (lastA log_ws) mv
      (pure (q.1, q.2) : Ex _)) =
      S.kernel (fun t y x => Gam y x (params t))
        (moveIndex mv (if backward then lastA (splitKey kb (n + 1)) else kb)) backward x b := by
  -- the forward pass
  have h1 := scan_eq_fwd S b x body inp (fun t y a _ => (slw t (take y a), a)) (by
    intro t w y
    rw [hbody]
    congr 1
    funext a
    rw [hQ, pure_bind, normalize_congr_const (hslw t (take y a))])
    (fun _ r => do
      let log_ws := insert0 lw0 (fun t => (r.2 t).1)
      let As := fun t => (r.2 t).2
      let q ← if backward then
          backward_sampling_pass kb Gam params (lastA b) xs log_ws mv true
        else
          backward_scanning_pass kb As (lastA b) xs (lastA log_ws) mv
      (pure (q.1, q.2) : Ex _))
  rw [hQ0, pure_bind, ← normalize_congr_const hlw0] at h1
  refine h1.trans ?_
  clear h1
  -- the backward pass
  funext f
  show S.fwd b x _ = S.fwd b x _
  refine S.fwd_det b x xs hQ0 hQ fun h hh => ?_
  subst hh
  have hl : SameWeights (insert0 lw0 fun t => slw t (take (h.2 t.castSucc) (h.1 t))) (S.lws h) := by
    intro t
    refine Fin.cases ?_ (fun s => ?_) t
    · rw [insert0_zero, S.lws_zero]; exact hlw0
    · rw [insert0_succ, S.lws_succ]; exact hslw s _
  have hw : normalizeW (lastA (insert0 lw0 fun t => slw t (take (h.2 t.castSucc) (h.1 t)))) = S.wLast h := by
    rw [Sys.wLast, ← S.lws_last h]
    exact normalize_congr_const (hl (Fin.last n))
  refine congrFun (?_ : _ = (moveIndex mv (if backward then lastA (splitKey kb (n + 1)) else kb) (S.wLast h)
    (lastA b) >>= fun k => if backward then S.bs _ h k else pure (h.tracex k, h.trace k) : Ex _)) f
  cases backward with
  | true =>
    have h3 := fun k => bs_eq S Gam params h _ hl (initA (splitKey kb (n + 1))) k
    show (backward_sampling_pass kb Gam params (lastA b) h.2
      (insert0 lw0 fun t => slw t (take (h.2 t.castSucc) (h.1 t))) mv true : Ex _) = _
    simp only [if_true, ← h3]
    rw [← hw]
    rfl
  | false =>
    have h5 := fun k => bscan_eq h k
    simp only at h5
    have h6 : ∀ k, (pure (h.tracex k, h.trace k) : Ex _) = pure _ := fun k => by
      rw [← (h5 k).1, ← (h5 k).2]
    show (backward_scanning_pass kb h.1 (lastA b) h.2
      (lastA (insert0 lw0 fun t => slw t (take (h.2 t.castSucc) (h.1 t)))) mv : Ex _) = _
    simp only [Bool.false_eq_true, if_false, h6]
    rw [← hw]
    rfl

end Verif
