import Mathlib.Topology.Algebra.InfiniteSum.ENNReal
import Mathlib.Data.Fin.Tuple.Basic
import Mathlib.Algebra.BigOperators.Fin
import Mathlib.Algebra.BigOperators.Ring.Finset
import Verif.Core.Rand

/-!
# Finite sums over arrays with product weights
-/

open scoped ENNReal
open Finset

namespace Verif

theorem atSet_insertNth {n : ℕ} {α : Type} (j : Fin (n + 1)) (l i : α) (b : Fin n → α) :
    atSet (Fin.insertNth (α := fun _ => α) j l b) j i = Fin.insertNth (α := fun _ => α) j i b :=
  Fin.update_insertNth (α := fun _ => α) j l i b

/-- Overwriting one coordinate of an array drawn with independent entries. -/
theorem sum_prod_update {n : ℕ} {α : Type} [Fintype α] [DecidableEq α]
    (q : Fin (n + 1) → α → ℝ≥0∞) (j : Fin (n + 1)) (i : α) (hq : ∑ l, q j l = 1)
    (g : (Fin (n + 1) → α) → ℝ≥0∞) :
    q j i * ∑ a, (∏ t, q t (a t)) * g (atSet a j i)
      = ∑ a, (∏ t, q t (a t)) * (if a j = i then g a else 0) := by
  rw [← (Fin.insertNthEquiv (fun _ : Fin (n + 1) => α) j).sum_comp,
    ← (Fin.insertNthEquiv (fun _ : Fin (n + 1) => α) j).sum_comp, Fintype.sum_prod_type,
    Fintype.sum_prod_type]
  simp only [Fin.insertNthEquiv_apply, Fin.prod_univ_succAbove _ j, Fin.insertNth_apply_same,
    Fin.insertNth_apply_succAbove]
  have h0 : ∀ (l : α) (b : Fin n → α), atSet ((Fin.insertNthEquiv (fun _ => α) j) (l, b)) j i
      = (Fin.insertNthEquiv (fun _ => α) j) (i, b) := fun l b => atSet_insertNth j l i b
  simp only [h0]
  have h1 : ∀ l : α, (∑ b : Fin n → α, q j l * (∏ t, q (j.succAbove t) (b t)) *
      g ((Fin.insertNthEquiv (fun _ => α) j) (i, b))) =
      q j l * ∑ b : Fin n → α, (∏ t, q (j.succAbove t) (b t)) * g ((Fin.insertNthEquiv (fun _ => α) j) (i, b)) := by
    intro l; rw [mul_sum]; simp only [mul_assoc]
  simp only [h1, ← sum_mul, hq, one_mul]
  rw [sum_eq_single i]
  · simp only [if_true]
    rw [mul_sum]; simp only [mul_assoc]
  · intro l _ hl
    apply sum_eq_zero
    intro b _; simp [hl]
  · simp

/-- Product weights sum to one. -/
theorem sum_prod_eq_one {n : ℕ} {α : Type} [Fintype α] [DecidableEq α]
    (q : Fin n → α → ℝ≥0∞) (hq : ∀ t, ∑ l, q t l = 1) : ∑ a : Fin n → α, ∏ t, q t (a t) = 1 := by
  have := Finset.prod_univ_sum (fun _ : Fin n => (univ : Finset α)) q
  rw [Fintype.piFinset_univ] at this
  rw [← this]; simp [hq]

/-- Marginal of product weights. -/
theorem sum_prod_marginal {n : ℕ} {α : Type} [Fintype α] [DecidableEq α]
    (q : Fin (n + 1) → α → ℝ≥0∞) (j : Fin (n + 1)) (hq : ∀ t, ∑ l, q t l = 1) (g : α → ℝ≥0∞) :
    ∑ a : Fin (n + 1) → α, (∏ t, q t (a t)) * g (a j) = ∑ l, q j l * g l := by
  rw [← (Fin.insertNthEquiv (fun _ : Fin (n + 1) => α) j).sum_comp, Fintype.sum_prod_type]
  simp only [Fin.insertNthEquiv_apply, Fin.prod_univ_succAbove _ j, Fin.insertNth_apply_same,
    Fin.insertNth_apply_succAbove]
  apply sum_congr rfl
  intro l _
  have : ∀ b : Fin n → α, q j l * (∏ t, q (j.succAbove t) (b t)) * g l
      = (q j l * g l) * ∏ t, q (j.succAbove t) (b t) := by intro b; ring
  simp only [this, ← mul_sum]
  rw [sum_prod_eq_one _ (fun t => hq _), mul_one]

/-- Rotating an array drawn with independent entries. -/
theorem sum_prod_roll {n : ℕ} {α : Type} [Fintype α] [DecidableEq α]
    (q : Fin (n + 1) → α → ℝ≥0∞) (s : Fin (n + 1)) (g : (Fin (n + 1) → α) → ℝ≥0∞) :
    ∑ a, (∏ t, q t (a t)) * g (roll a s) = ∑ a, (∏ t, q (t - s) (a t)) * g a := by
  let e : Fin (n + 1) ≃ Fin (n + 1) := Equiv.subRight s
  let E : (Fin (n + 1) → α) ≃ (Fin (n + 1) → α) := Equiv.arrowCongr e.symm (Equiv.refl α)
  refine Fintype.sum_equiv E _ _ ?_
  intro a
  have h1 : E a = roll a s := by funext k; simp [E, e, roll, Equiv.arrowCongr]
  rw [h1]
  congr 1
  rw [← e.prod_comp]
  rfl

/-- Entrywise images of independent entries. -/
theorem sum_prod_map {n : ℕ} {α β : Type} [Fintype α] [Fintype β] [DecidableEq α] [DecidableEq β]
    (q : Fin n → α → ℝ≥0∞) (h : Fin n → α → β) (g : (Fin n → β) → ℝ≥0∞) :
    ∑ a : Fin n → α, (∏ t, q t (a t)) * g (fun t => h t (a t)) =
      ∑ b : Fin n → β, (∏ t, ∑ l, if h t l = b t then q t l else 0) * g b := by
  have h1 : ∀ b : Fin n → β, (∏ t, ∑ l, if h t l = b t then q t l else 0) =
      ∑ a : Fin n → α, ∏ t, if h t (a t) = b t then q t (a t) else 0 := by
    intro b
    have := Finset.prod_univ_sum (fun _ : Fin n => (univ : Finset α))
      (fun t l => if h t l = b t then q t l else 0)
    rw [Fintype.piFinset_univ] at this
    exact this
  simp only [h1, sum_mul]
  rw [sum_comm]
  apply sum_congr rfl
  intro a _
  rw [sum_eq_single (fun t => h t (a t))]
  · simp
  · intro b _ hb
    have : ∃ t, h t (a t) ≠ b t := by
      by_contra hcon
      push Not at hcon
      exact hb (funext fun t => (hcon t).symm)
    obtain ⟨t, ht⟩ := this
    rw [prod_eq_zero (mem_univ t) (by simp [ht]), zero_mul]
  · simp

end Verif
