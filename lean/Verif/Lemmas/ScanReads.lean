import Verif.Model.ScanReads
import Verif.Model.AlCsmcS
import Verif.Model.Mcmc

/-!
# Slices of lists
-/

namespace Verif
open Verif.Spec Verif.Model

theorem pySlice_neg (l : List α) (a : ℕ) (b : ℕ) (hb : 0 < b) :
    pySlice l (some a) (some (-(b : ℤ))) = (l.take (l.length - b)).drop (min a l.length) := by
  have h1 : pyBound l.length (-(b : ℤ)) = l.length - b := by
    rw [pyBound, if_pos (by omega)]
    omega
  have h2 : pyBound l.length a = min a l.length := by
    rw [pyBound, if_neg (by omega)]
    omega
  simp only [pySlice, Option.elim, h1, h2]

theorem pySlice_to_neg (l : List α) (b : ℕ) (hb : 0 < b) : pySlice l none (some (-(b : ℤ))) = l.take (l.length - b) := by
  simp only [pySlice, Option.elim, pyBound]
  rw [if_pos (by omega), List.drop_zero]
  congr 1
  omega

theorem pySlice_from (l : List α) (a : ℕ) : pySlice l (some a) none = l.drop a := by
  simp only [pySlice, Option.elim, pyBound]
  rw [if_neg (by omega), List.take_length]
  rcases le_total a l.length with h | h
  · congr 1
    omega
  · rw [List.drop_eq_nil_of_le h, List.drop_eq_nil_of_le (by omega)]

theorem pyDown_neg (l : List α) (b : ℕ) : pyDown l (-(b : ℤ) - 1) = (l.take (l.length - b)).reverse := by
  unfold pyDown
  congr 2
  omega

theorem pyAt_neg (l : List α) (b : ℕ) (h : b < l.length) : pyAt l (-(b : ℤ) - 1) = l[l.length - 1 - b]? := by
  unfold pyAt
  congr 1
  rw [if_pos (by omega)]
  omega

/-- The multiples of `g` below `n`. -/
theorem multiples_eq {g : ℕ} (hg : 0 < g) (n : ℕ) : ((List.range n).filter fun i => g ∣ i) = (List.range (strideLen n g)).map (· * g) := by
  induction n with
  | zero =>
    have : strideLen 0 g = 0 := Nat.div_eq_of_lt (by omega)
    simp [this]
  | succ n ih =>
    have h1 : strideLen (n + 1) g = n / g + 1 := by
      rw [strideLen, show n + 1 + g - 1 = n + g by omega, Nat.add_div_right _ hg]
    rw [List.range_succ, List.filter_append, ih, h1]
    by_cases h : g ∣ n
    · obtain ⟨k, rfl⟩ := h
      have h2 : strideLen (g * k) g = k := by
        rw [strideLen, show g * k + g - 1 = g - 1 + g * k by omega, Nat.add_mul_div_left _ _ hg, Nat.div_eq_of_lt (by omega), zero_add]
      rw [h2, Nat.mul_div_cancel_left _ hg, List.range_succ]
      simp [mul_comm]
    · have h2 : strideLen n g = n / g + 1 := by
        have h3 : 0 < n % g := Nat.pos_of_ne_zero fun e => h (Nat.dvd_of_mod_eq_zero e)
        have h4 := Nat.mod_lt n hg
        have h5 := Nat.div_add_mod n g
        rw [strideLen]
        conv_lhs => rw [← h5]
        rw [show g * (n / g) + n % g + g - 1 = n % g - 1 + g * (n / g + 1) by rw [mul_add]; omega, Nat.add_mul_div_left _ _ hg,
          Nat.div_eq_of_lt (by omega), zero_add]
      rw [h2]
      simp [h]

end Verif
