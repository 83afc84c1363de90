import Mathlib.Tactic.Ring
import Mathlib.Algebra.Order.Ring.Nat
import Verif.Spec.Pbar

/-!
# Progress bar: helper lemmas
-/

namespace Verif
open Verif.Model Verif.Spec

theorem Bar.run_append {V : Type} (b : Bar) (l l' : List (PbarEvent V)) :
    b.run (l ++ l') = (b.run l).bind fun b' => b'.run l' := by
  induction l generalizing b with
  | nil => rfl
  | cons e l ih =>
    show (b.apply e).bind _ = ((b.apply e).bind _).bind _
    cases b.apply e with
    | none => rfl
    | some b' => exact ih b'

theorem printRate_pos (n : ℕ) : 0 < printRate n := by
  unfold printRate; split <;> omega

/-- Position of the bar after `t` iterations. -/
def barPos (n t : ℕ) : ℕ := min n ((t + printRate n - 1) / printRate n * printRate n)

/-- The bar after `t` iterations. -/
def barAt (n t : ℕ) : Bar :=
  if t = 0 then .absent else if t = n then .closed n else .opened (barPos n t)

/-- Advance of the bar at iteration `t`. -/
def pbarInc (n t : ℕ) : ℕ :=
  (if t % printRate n = 0 ∧ t ≠ n - pbarRemainder n then printRate n else 0) +
  (if t = n - pbarRemainder n then pbarRemainder n else 0)

theorem barPos_succ {n t : ℕ} (ht : t < n) : barPos n t + pbarInc n t = barPos n (t + 1) := by
  unfold barPos pbarInc pbarRemainder
  set r := printRate n with hr
  have hr0 : 0 < r := printRate_pos n
  obtain ⟨q, s, hs, rfl⟩ : ∃ q s, s < r ∧ t = r * q + s :=
    ⟨t / r, t % r, Nat.mod_lt _ hr0, (Nat.div_add_mod t r).symm⟩
  obtain ⟨Q, S, hS, hn⟩ : ∃ Q S, S < r ∧ n = r * Q + S :=
    ⟨n / r, n % r, Nat.mod_lt _ hr0, (Nat.div_add_mod n r).symm⟩
  have e1 : n % r = S := by rw [hn, Nat.mul_add_mod, Nat.mod_eq_of_lt hS]
  have e2 : (r * q + s) % r = s := by rw [Nat.mul_add_mod, Nat.mod_eq_of_lt hs]
  have e3 : (r * q + s + 1 + r - 1) / r = q + 1 := by
    rw [show r * q + s + 1 + r - 1 = r * (q + 1) + s by rw [Nat.mul_add]; omega, Nat.mul_add_div hr0,
      Nat.div_eq_of_lt hs, Nat.add_zero]
  have e4 : (r * q + s + r - 1) / r = if s = 0 then q else q + 1 := by
    split_ifs with h
    · rw [show r * q + s + r - 1 = r * q + (r - 1) by omega, Nat.mul_add_div hr0,
        Nat.div_eq_of_lt (by omega), Nat.add_zero]
    · rw [show r * q + s + r - 1 = r * (q + 1) + (s - 1) by rw [Nat.mul_add]; omega, Nat.mul_add_div hr0,
        Nat.div_eq_of_lt (by omega), Nat.add_zero]
  rw [e1, e2, e3, e4]
  have hnS : n - S = r * Q := by omega
  rw [hnS]
  have hqQ : q ≤ Q := by
    by_contra h
    have : r * (Q + 1) ≤ r * q := Nat.mul_le_mul_left _ (by omega)
    rw [Nat.mul_add] at this
    omega
  have hmono : r * q ≤ r * Q := Nat.mul_le_mul_left _ hqQ
  have hc : (q + 1) * r = r * q + r := by ring
  have hc' : q * r = r * q := by ring
  rcases Nat.eq_or_lt_of_le hqQ with h | h
  · subst h
    by_cases h0 : s = 0
    · simp only [h0, if_true, true_and, Nat.add_zero, ne_eq, not_true, if_false, Nat.zero_add, hc, hc']
      omega
    · have : ¬ (r * q + s = r * q) := by omega
      simp only [h0, if_false, false_and, this, Nat.add_zero]
  · have hlt : r * q + r ≤ r * Q := by
      have := Nat.mul_le_mul_left r h
      rw [Nat.mul_succ] at this
      exact this
    have hne : ¬ (r * q + s = r * Q) := by omega
    simp only [hne, if_false, not_false_eq_true, and_true, ne_eq, Nat.add_zero]
    by_cases h0 : s = 0
    · simp only [h0, if_true, hc, hc']; omega
    · simp only [h0, if_false, Nat.add_zero]

theorem run_update {V : Type} {n t : ℕ} (ht : t < n) (s : Option V) :
    (barAt n t).run (pbarUpdate n t s) = some (.opened (barPos n (t + 1))) := by
  have hr0 := printRate_pos n
  have key : ∀ p, (Bar.opened p).run ((if t % printRate n = 0 ∧ t ≠ n - pbarRemainder n then
      [PbarEvent.update (printRate n) s] else []) ++
      (if t = n - pbarRemainder n then [PbarEvent.update (pbarRemainder n) s] else [])) =
      some (.opened (p + pbarInc n t)) := by
    intro p
    unfold pbarInc
    split_ifs <;> simp [Bar.run, Bar.apply, Nat.add_assoc]
  rw [pbarUpdate, List.append_assoc, Bar.run_append]
  have h1 : (barAt n t).run (if t = 0 then [PbarEvent.define] else ([] : List (PbarEvent V))) =
      some (.opened (barPos n t)) := by
    by_cases h : t = 0
    · subst h
      have : barPos n 0 = 0 := by
        unfold barPos
        rw [Nat.zero_add, Nat.div_eq_of_lt (by omega)]; simp
      simp [barAt, Bar.run, Bar.apply, this]
    · have h' : ¬ t = n := by omega
      simp [barAt, Bar.run, h, h']
  rw [h1]
  show (Bar.opened (barPos n t)).run _ = _
  rw [key, barPos_succ ht]

theorem run_close {V : Type} {n t : ℕ} :
    (Bar.opened (barPos n (t + 1))).run (pbarClose n t : List (PbarEvent V)) = some (barAt n (t + 1)) := by
  unfold pbarClose barAt
  by_cases h : t + 1 = n
  · have : barPos n (t + 1) = n := by
      unfold barPos
      have hr0 := printRate_pos n
      rw [h]
      apply Nat.min_eq_left
      have h1 := Nat.div_add_mod (n + printRate n - 1) (printRate n)
      have h2 := Nat.mod_lt (n + printRate n - 1) hr0
      rw [Nat.mul_comm] at h1
      omega
    simp only [h, if_true]
    rw [h] at this
    have hn : ¬ n = 0 := by omega
    simp [Bar.run, Bar.apply, this, hn]
  · simp [h, Bar.run]

/-- One iteration of the bar. -/
theorem run_iter {V : Type} {n t : ℕ} (ht : t < n) (s : Option V) :
    (barAt n t).run (pbarUpdate n t s ++ pbarClose n t) = some (barAt n (t + 1)) := by
  rw [Bar.run_append, run_update ht]
  exact run_close

end Verif
