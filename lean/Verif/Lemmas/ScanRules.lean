import Verif.Core.Rand
import Verif.Model.Csmc

/-!
# Rules for scans
-/

namespace Verif
open Verif.Model

/-- Scans with equal bodies are equal. -/
theorem scanM_congr {m : Type → Type} [Monad m] {C I I' O : Type} {body : C → I → m (C × O)}
    {body' : C → I' → m (C × O)} {n : ℕ} (c : C) {inp : Fin n → I} {inp' : Fin n → I'}
    (h : ∀ t c, body c (inp t) = body' c (inp' t)) : scanM body c inp = scanM body' c inp' := by
  induction n generalizing c with
  | zero => rfl
  | succ n ih =>
    show (body c (inp 0) >>= fun r => scanM body r.1 (tailA inp) >>= fun rs => _) =
      (body' c (inp' 0) >>= fun r => scanM body' r.1 (tailA inp') >>= fun rs => _)
    rw [h 0 c]
    congr 1
    funext r
    rw [ih r.1 (inp := tailA inp) (inp' := tailA inp') fun t c => h t.succ c]

namespace Poss

/-- If every step establishes `Q t` of its output, whatever the carry, all outputs satisfy `Q`. -/
theorem always_scanM_forall {C I O : Type} {body : C → I → Poss (C × O)} {n : ℕ} (c : C)
    (inp : Fin n → I) (Q : Fin n → O → Prop)
    (h : ∀ t c, Always (body c (inp t)) (fun r => Q t r.2)) :
    Always (scanM body c inp) (fun r => ∀ t, Q t (r.2 t)) := by
  induction n generalizing c with
  | zero => exact always_pure fun t => t.elim0
  | succ n ih =>
    refine always_bind (h 0 c) fun r hr => ?_
    refine always_bind (ih r.1 (tailA inp) (fun t => Q t.succ) fun t c => h t.succ c) fun rs hrs => ?_
    refine always_pure fun t => ?_
    refine Fin.cases ?_ (fun s => ?_) t
    · exact hr
    · exact hrs s

end Poss

theorem rev_insert0_last {α : Type} {n : ℕ} (v : α) (a : Fin n → α) :
    rev (insert0 v a) (Fin.last n) = v := by rw [rev_insert0, snocA_last]

theorem rev_insert0_castSucc {α : Type} {n : ℕ} (v : α) (a : Fin n → α) (t : Fin n) :
    rev (insert0 v a) t.castSucc = a t.rev := by rw [rev_insert0, snocA_castSucc]; rfl

theorem maxA_add_const {n : ℕ} (a : Fin (n + 1) → ℝ) (c : ℝ) : maxA (fun i => a i + c) = maxA a + c := by
  apply le_antisymm
  · obtain ⟨k, hk⟩ := maxA_mem (fun i => a i + c)
    rw [hk]
    have := le_maxA a k
    linarith
  · obtain ⟨k, hk⟩ := maxA_mem a
    rw [hk]
    exact le_maxA (fun i => a i + c) k

end Verif
