import Verif.Lemmas.AuxPass
import Verif.Model.LCsmcF

/-!
# Program rules for the kernels whose particles are drawn in advance
-/

namespace Verif
open Verif.Spec Verif.Model Verif.Poss

variable {X G G' : Type} {N n : ℕ}

/-- Scans whose outputs differ by a function. -/
theorem scanM_map {m : Type → Type} [Monad m] [LawfulMonad m] {C I I' O O' : Type} {body : C → I → m (C × O)}
    {body' : C → I' → m (C × O')} {n : ℕ} (c : C) {inp : Fin n → I} {inp' : Fin n → I'} (h : O → O')
    (hb : ∀ t c, body' c (inp' t) = body c (inp t) >>= fun r => pure (r.1, h r.2)) :
    scanM body' c inp' = scanM body c inp >>= fun r => pure (r.1, fun t => h (r.2 t)) := by
  induction n generalizing c with
  | zero =>
    simp only [scanM, pure_bind]
    congr 2
    funext t
    exact t.elim0
  | succ n ih =>
    show (body' c (inp' 0) >>= fun r => scanM body' r.1 (tailA inp') >>= fun rs => pure (rs.1, insert0 r.2 rs.2)) =
      (body c (inp 0) >>= fun r => scanM body r.1 (tailA inp) >>= fun rs => pure (rs.1, insert0 r.2 rs.2)) >>= _
    rw [hb 0 c]
    simp only [bind_assoc, pure_bind]
    congr 1
    funext r
    rw [ih r.1 (inp := tailA inp) (inp' := tailA inp') fun t c => hb t.succ c]
    simp only [bind_assoc, pure_bind]
    congr 1
    funext rs
    congr 2
    funext t
    refine Fin.cases ?_ (fun s => ?_) t <;> rfl

theorem maxA_congr_const {a b : Fin (N + 1) → ℝ} (h : ∃ c, ∀ i, a i = b i + c) :
    (fun i => a i - maxA a) = fun i => b i - maxA b := by
  obtain ⟨c, hc⟩ := h
  have : a = fun i => b i + c := funext hc
  rw [this, maxA_add_const]
  funext i
  ring

/-- The backward sampling pass does not see additive constants. -/
theorem backward_sampling_congr {m : Type → Type} [RandM m] (key : Key)
    {Gam : X → X → G → ℝ} {p : Fin n → G} {Gam' : X → X → G' → ℝ} {p' : Fin n → G'} (b : Fin (N + 1))
    (xs : Fin (n + 1) → Fin (N + 1) → X) {lw lw' : Fin (n + 1) → Fin (N + 1) → ℝ} (mv : AncestorMove m N)
    (c : Bool) (hG : ∀ t x, ∃ k, ∀ y, Gam y x (p t) = Gam' y x (p' t) + k) (hlw : SameWeights lw lw') :
    backward_sampling_pass key Gam p b xs lw mv c = backward_sampling_pass key Gam' p' b xs lw' mv c := by
  have h3 : ∀ (x : X) (keys : Fin n → Key), (scanM (bsBody Gam) x (fun t =>
      (keys t, revInit xs t, revInit lw t, rev p t)) : m _) =
      scanM (bsBody Gam') x (fun t => (keys t, revInit xs t, revInit lw' t, rev p' t)) := by
    intro x keys
    refine scanM_congr _ fun t x => ?_
    unfold bsBody
    have e1 : ∀ Y : Fin (N + 1) → X, (fun i => Gam (Y i) x (rev p t) - maxA fun i => Gam (Y i) x (rev p t)) =
        (fun i => Gam' (Y i) x (rev p' t) - maxA fun i => Gam' (Y i) x (rev p' t)) := fun Y => by
      obtain ⟨k, hk⟩ := hG t.rev x
      exact maxA_congr_const ⟨k, fun i => hk (Y i)⟩
    have e2 : ∀ g : Fin (N + 1) → ℝ, normalizeW (fun i => g i + revInit lw t i) =
        normalizeW (fun i => g i + revInit lw' t i) := fun g => by
      obtain ⟨k, hk⟩ := hlw t.rev.castSucc
      refine normalize_congr_const ⟨k, fun i => ?_⟩
      show g i + lw t.rev.castSucc i = g i + lw' t.rev.castSucc i + k
      rw [hk, add_assoc]
    have e3 := e1 (revInit xs t)
    simp only at e3 ⊢
    rw [e2]
    have e4 : ∀ g g' : Fin (N + 1) → ℝ, g = g' → (normalizeW fun i => g i + revInit lw' t i) =
        normalizeW fun i => g' i + revInit lw' t i := fun g g' h => by rw [h]
    rw [e4 _ _ e3]
  have h4 : normalizeW (lastA lw) = normalizeW (lastA lw') := normalize_congr_const (hlw (Fin.last n))
  unfold backward_sampling_pass
  cases c <;> simp only [h3, h4]

/-- The backward scanning pass does not see additive constants. -/
theorem backward_scanning_congr {m : Type → Type} [RandM m] (key : Key) (As : Fin n → Fin (N + 1) → Fin (N + 1))
    (b : Fin (N + 1)) (xs : Fin (n + 1) → Fin (N + 1) → X) {lw lw' : Fin (N + 1) → ℝ} (mv : AncestorMove m N)
    (h : ∃ c, ∀ i, lw i = lw' i + c) :
    backward_scanning_pass key As b xs lw mv = backward_scanning_pass key As b xs lw' mv := by
  unfold backward_scanning_pass
  rw [normalize_congr_const h]

/-- Two kernels over the same particles whose weights differ by constants. -/
theorem aux_pass_congr {m : Type → Type} [RandM m] [LawfulMonad m] {I I' : Type}
    (b : Fin (n + 1) → Fin (N + 1)) (xs : Fin (n + 1) → Fin (N + 1) → X)
    (body : (Fin (N + 1) → ℝ) × (Fin (N + 1) → X) → I →
      m (((Fin (N + 1) → ℝ) × (Fin (N + 1) → X)) × ((Fin (N + 1) → ℝ) × (Fin (N + 1) → Fin (N + 1)))))
    (body' : (Fin (N + 1) → ℝ) × (Fin (N + 1) → X) → I' →
      m (((Fin (N + 1) → ℝ) × (Fin (N + 1) → X)) × ((Fin (N + 1) → ℝ) × (Fin (N + 1) → Fin (N + 1)))))
    (inp : Fin n → I) (inp' : Fin n → I')
    (hb : ∀ t c, body' c (inp' t) = body c (inp t) >>= fun r => pure (r.1, (normalizeLog r.2.1, r.2.2)))
    {lw0 lw0' : Fin (N + 1) → ℝ} (h0 : ∃ c, ∀ i, lw0' i = lw0 i + c) (kb : Key)
    {Gam : X → X → G → ℝ} {p : Fin n → G} {Gam' : X → X → G' → ℝ} {p' : Fin n → G'}
    (hG : ∀ t x, ∃ k, ∀ y, Gam' y x (p' t) = Gam y x (p t) + k) (mv : AncestorMove m N) (backward : Bool) :
    (do
      let r ← scanM body' (normalizeW lw0', xs 0) inp'
      let log_ws := insert0 lw0' (fun t => (r.2 t).1)
      let As := fun t => (r.2 t).2
      let q ← if backward then
          backward_sampling_pass kb Gam' p' (lastA b) xs log_ws mv true
        else
          backward_scanning_pass kb As (lastA b) xs (lastA log_ws) mv
      (pure (q.1, q.2) : m _)) = (do
      let r ← scanM body (normalizeW lw0, xs 0) inp
      let log_ws := insert0 lw0 (fun t => (r.2 t).1)
      let As := fun t => (r.2 t).2
      let q ← if backward then
          backward_sampling_pass kb Gam p (lastA b) xs log_ws mv true
        else
          backward_scanning_pass kb As (lastA b) xs (lastA log_ws) mv
      (pure (q.1, q.2) : m _)) := by
  have hw0 : normalizeW lw0' = normalizeW lw0 := normalize_congr_const h0
  have hs := scanM_map (normalizeW lw0, xs 0)
    (fun o : (Fin (N + 1) → ℝ) × (Fin (N + 1) → Fin (N + 1)) => (normalizeLog o.1, o.2)) hb
  rw [hw0, hs, bind_assoc]
  refine congrArg (Bind.bind _) ?_
  funext r
  rw [pure_bind]
  have hl : SameWeights (insert0 lw0' fun t => normalizeLog (r.2 t).1) (insert0 lw0 fun t => (r.2 t).1) := by
    intro t
    refine Fin.cases ?_ (fun s => ?_) t
    · exact h0
    · exact ⟨-logsumexp (r.2 s).1, fun i => rfl⟩
  cases backward with
  | true =>
    simp only [if_true]
    rw [backward_sampling_congr kb (lastA b) xs mv true hG hl]
  | false =>
    simp only [Bool.false_eq_true, if_false]
    rw [backward_scanning_congr kb _ (lastA b) xs mv
      (lw := lastA (insert0 lw0' fun t => normalizeLog (r.2 t).1))
      (lw' := lastA (insert0 lw0 fun t => (r.2 t).1)) (hl (Fin.last n))]

end Verif
