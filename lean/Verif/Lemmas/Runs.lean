import Verif.Model.AlCsmcS
import Verif.Lemmas.ScanRules
import Verif.Lemmas.Normalize

/-!
# Existence of runs
-/

namespace Verif
open Verif.Model

namespace Poss

/-- A property of all runs of a sequence is a property of all runs of its rest after a possible first part. -/
theorem Always.of_bind {α β : Type} {P : Poss α} {f : α → Poss β} {Q : β → Prop} (h : Always (P >>= f) Q) {a : α}
    {L : List Key} (ha : P a L) : Always (f a) Q := fun b L' hb => h b (L ++ L') ⟨a, L, L', ha, hb, rfl⟩

theorem run_bind {α β : Type} {P : Poss α} {f : α → Poss β} {a : α} {b : β} {L L' : List Key} (ha : P a L)
    (hb : f a b L') : (P >>= f) b (L ++ L') := ⟨a, L, L', ha, hb, rfl⟩

/-- The program has a run. -/
def CanRun {α : Type} (P : Poss α) : Prop := ∃ a L, P a L

theorem CanRun.bind {α β : Type} {P : Poss α} {f : α → Poss β} (h : CanRun P) (hf : ∀ a, CanRun (f a)) :
    CanRun (P >>= f) := by
  obtain ⟨a, L, ha⟩ := h
  obtain ⟨b, L', hb⟩ := hf a
  exact ⟨b, L ++ L', a, L, L', ha, hb, rfl⟩

theorem canRun_pure {α : Type} (a : α) : CanRun (pure a : Poss α) := ⟨a, [], rfl, rfl⟩

theorem canRun_scanM {C I O : Type} {body : C → I → Poss (C × O)} (h : ∀ c i, CanRun (body c i)) {n : ℕ} (c : C)
    (inp : Fin n → I) : CanRun (scanM body c inp) := by
  induction n generalizing c with
  | zero => exact canRun_pure _
  | succ n ih =>
    rw [scanM_succ]
    exact (h c _).bind fun r => (ih r.1 _).bind fun rs => canRun_pure _

theorem canRun_scanRevM {C I O : Type} {body : C → I → Poss (C × O)} (h : ∀ c i, CanRun (body c i)) {n : ℕ} (c : C)
    (inp : Fin n → I) : CanRun (scanRevM body c inp) := (canRun_scanM h c _).bind fun _ => canRun_pure _

/-- A run of a scan with a given first step. -/
theorem scanM_run_first {C I O : Type} {body : C → I → Poss (C × O)} (hb : ∀ c i, CanRun (body c i)) {n : ℕ} (c : C)
    (inp : Fin (n + 1) → I) {r : C × O} {L : List Key} (h : body c (inp 0) r L) :
    ∃ R L', scanM body c inp R L' ∧ R.2 0 = r.2 := by
  obtain ⟨R, L', hR⟩ := canRun_scanM hb r.1 (tailA inp)
  refine ⟨(R.1, insert0 r.2 R.2), L ++ (L' ++ []), ?_, rfl⟩
  rw [scanM_succ]
  exact run_bind h (run_bind hR ⟨rfl, rfl⟩)

theorem Always.canRun_of {α β : Type} {P : Poss α} {f : α → Poss β} {Q : β → Prop} (h : Always (P >>= f) Q)
    (hP : CanRun P) : ∃ a, Always (f a) Q := by
  obtain ⟨a, L, ha⟩ := hP
  exact ⟨a, h.of_bind ha⟩

theorem Always.pure {α : Type} {a : α} {Q : α → Prop} (h : Always (Pure.pure a : Poss α) Q) : Q a := h a [] ⟨rfl, rfl⟩

/-- A scan in which every step relates what it saves to the part `get` of the carry it receives. -/
theorem always_scanM_link {C I O α : Type} {body : C → I → Poss (C × O)} (get : C → α) (out : I → O → α)
    (Q : α → O → Prop) (h : ∀ c i, Always (body c i) (fun r => get r.1 = out i r.2 ∧ Q (get c) r.2)) {n : ℕ} (c : C)
    (inp : Fin n → I) :
    Always (scanM body c inp) (fun r => ∀ t : Fin n, Q (insert0 (get c) (fun t => out (inp t) (r.2 t)) t.castSucc)
      (r.2 t)) := by
  induction n generalizing c with
  | zero => exact always_pure fun t => t.elim0
  | succ n ih =>
    rw [scanM_succ]
    refine always_bind (h c (inp 0)) fun r hr => always_bind (ih r.1 (tailA inp)) fun rs hrs => always_pure fun t => ?_
    refine Fin.cases hr.2 (fun t => ?_) t
    have := hrs t
    rw [hr.1] at this
    refine Eq.mp ?_ this
    congr 1
    show insert0 (out (inp 0) r.2) (fun t => out (tailA inp t) (rs.2 t)) t.castSucc =
      out (inp t.castSucc) (insert0 (α := O) r.2 rs.2 t.castSucc)
    generalize t.castSucc = s
    refine Fin.cases rfl (fun s => rfl) s

end Poss

/-- Multinomial resampling of positive weights can return every vector with the right entry at `j`. -/
theorem multinomial_run {N : ℕ} (key : Key) (w : Fin (N + 1) → ℝ) (hw : ∀ i, 0 < w i) (i j : Fin (N + 1))
    (A : Fin (N + 1) → Fin (N + 1)) (hA : A j = i) : (multinomial key w i j true : Poss _) A [key] := by
  refine ⟨A, [key], [], ⟨fun t => Or.inl (hw _), rfl⟩, ⟨?_, rfl⟩, rfl⟩
  funext t
  by_cases h : t = j
  · subst h; rw [hA]; simp [atSet]
  · simp [atSet, h]

theorem Poss.exists_supp {N : ℕ} (w : Fin (N + 1) → ℝ) : ∃ i, Poss.Supp w i := by
  by_cases h : ∃ i, 0 < w i
  · obtain ⟨i, hi⟩ := h
    exact ⟨i, Or.inl hi⟩
  · exact ⟨0, Or.inr fun j => not_lt.mp fun hj => h ⟨j, hj⟩⟩

theorem multinomial_canRun {N : ℕ} (key : Key) (w : Fin (N + 1) → ℝ) (i j : Fin (N + 1)) :
    Poss.CanRun (multinomial key w i j true : Poss _) := by
  obtain ⟨k, hk⟩ := Poss.exists_supp w
  exact Poss.CanRun.bind ⟨fun _ => k, [key], fun _ => hk, rfl⟩ fun A => Poss.canRun_pure _

end Verif
