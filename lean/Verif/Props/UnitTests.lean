import Verif.Props.Moves
import Verif.Props.Twisted

/-!
# C88: the values that the package's own tests expect are those of the code

`/repo/gradient_csmc/utils/common.py:80-157` and `/repo/gradient_csmc/t_atp_csmc_f.py:327-345`, for all sizes and parameters and
without the tolerance of the tests. The third test, `/repo/gradient_csmc/utils/test_marginalisation.py`, is `C30_log_H`.
-/

open scoped ENNReal
open Finset

namespace Verif.Props
open Verif Verif.Model Verif.Spec Verif.Poss Matrix

theorem two_thirds_lt (M : ℕ) : (1 / 2 : ℝ) < forceThreshold M := by
  have := thr_big M; norm_num at this ⊢; linarith

/-- **C88**, `test_uniform` (`common.py:80-98`): with equal weights the forced move goes to each of the others with equal probability
and reports 1; the Barker move goes to each index with equal probability and reports the probability of leaving. -/
theorem C88_uniform {n : ℕ} (hn : n ≠ 0) (key : Key) (k l : Fin (n + 1)) :
    Ex.Pr (force_move key (fun _ => 1 / ((n : ℝ) + 1)) k) (fun r => r.1 = l) = (if l = k then 0 else ENNReal.ofReal (1 / n)) ∧
    Always (force_move key (fun _ => 1 / ((n : ℝ) + 1)) k) (fun r => r.2 = 1) ∧
    Ex.Pr (barker_move key (fun _ => 1 / ((n : ℝ) + 1)) k) (fun r => r.1 = l) = ENNReal.ofReal (1 / (n + 1)) ∧
    Always (barker_move key (fun _ => 1 / ((n : ℝ) + 1)) k) (fun r => r.2 = n / (n + 1)) := by
  obtain ⟨w, hwd⟩ : ∃ w : Fin (n + 1) → ℝ, w = fun _ => 1 / ((n : ℝ) + 1) := ⟨_, rfl⟩
  have hn0 : (0 : ℝ) < n := by exact_mod_cast Nat.pos_of_ne_zero hn
  have hn1 : (1 : ℝ) ≤ n := by exact_mod_cast Nat.one_le_iff_ne_zero.mpr hn
  have hw : IsProb w := ⟨fun i => by rw [hwd]; positivity, by rw [hwd]; simp; field_simp⟩
  have hwi : ∀ i, w i = 1 / ((n : ℝ) + 1) := fun i => by rw [hwd]
  rw [← hwd]
  have ht : w k < forceThreshold (n + 1) := by
    refine lt_of_le_of_lt ?_ (two_thirds_lt _)
    rw [hwi, div_le_div_iff₀ (by positivity) (by norm_num)]
    linarith
  have hr : ∀ i, i ≠ k → forceRest w k i = 1 / n := fun i hi => by
    simp only [forceRest, ht, if_true, atSet_ne _ _ hi]
    rw [hwi, hwi, show (1 : ℝ) - 1 / (n + 1) = n / (n + 1) by field_simp; ring, div_div_div_cancel_right₀ (by positivity)]
  have hrk : forceRest w k k = 0 := by simp only [forceRest, ht, if_true, atSet_same, zero_div]
  have ha : forceAlpha w k = 1 := by
    have hne : ¬ ∃ i, 1 - w i = 0 ∧ 0 < (1 - w k) * forceRest w k i := by
      rintro ⟨i, hi, -⟩
      rw [hwi] at hi
      field_simp at hi
      linarith
    have hs : ∑ i, (1 - w k) * forceRest w k i / (1 - w i) = 1 := by
      rw [← add_sum_erase univ _ (mem_univ k), hrk, sum_congr rfl fun i hi => by rw [hr i (ne_of_mem_erase hi), hwi i, hwi k]]
      rw [sum_const, card_erase_of_mem (mem_univ k), card_univ, Fintype.card_fin, Nat.add_sub_cancel, nsmul_eq_mul]
      have : (1 : ℝ) - 1 / (n + 1) ≠ 0 := by
        have : (1 : ℝ) - 1 / (n + 1) = n / (n + 1) := by field_simp; ring
        rw [this]; positivity
      rw [mul_zero, zero_div, zero_add, mul_div_right_comm, div_self this, one_mul]
      field_simp
    have : forceAlpha w k = min (max (∑ i, (1 - w k) * forceRest w k i / (1 - w i)) 0) 1 := if_neg hne
    rw [this, hs]; norm_num
  refine ⟨?_, always_mono (force_move_alpha key w k) fun r hr => hr.trans ha, ?_, ?_⟩
  · have hq : ∀ i, i ≠ k → forceQ w k i = 1 / n := fun i hi => by
      have h1 : w k < 1 := by rw [hwi, div_lt_one (by positivity)]; linarith
      rw [forceQ, forceAcc, if_pos ⟨h1, by rw [hwi, hwi]⟩, hr i hi, mul_one]
    have hsum : ∑ i ∈ univ.erase k, forceQ w k i = 1 := by
      rw [sum_congr rfl fun i hi => hq i (ne_of_mem_erase hi), sum_const, card_erase_of_mem (mem_univ k), card_univ, Fintype.card_fin,
        Nat.add_sub_cancel, nsmul_eq_mul]
      field_simp
    by_cases hl : l = k
    · subst hl
      rw [Ex.Pr, force_move_law' hw, hsum, sub_self, ENNReal.ofReal_zero, zero_mul, add_zero]
      refine (?_ : _ = (0 : ℝ≥0∞)).trans (if_pos rfl).symm
      refine sum_eq_zero fun i hi => ?_
      simp [ne_of_mem_erase hi]
    · rw [if_neg hl, force_move_pr hw key (Ne.symm hl), hq l hl]
  · rw [C07_barker_law hw, hwi]
  · refine always_bind' fun i => always_pure ?_
    show 1 - w k = _
    rw [hwi]
    field_simp
    ring

/-- **C88**, `test_two_samples` (`common.py:129-156`): with two particles the forced move leaves `k` with probability
`min(1, w_l / w_k)`, which is also what it reports; the Barker move draws from the weights and reports `1 - w_k`. -/
theorem C88_two {w : Fin 2 → ℝ} (hw : IsProb w) (hg : ∀ k, w k < forceThreshold 2) (key : Key) {k l : Fin 2} (hkl : k ≠ l) :
    Ex.Pr (force_move key w k) (fun r => r.1 = l) = ENNReal.ofReal (min 1 (w l / w k)) ∧
    Ex.Pr (force_move key w k) (fun r => r.1 = k) = ENNReal.ofReal (1 - min 1 (w l / w k)) ∧
    Always (force_move key w k) (fun r => r.2 = min 1 (w l / w k)) ∧
    (∀ i, Ex.Pr (barker_move key w k) (fun r => r.1 = i) = ENNReal.ofReal (w i)) ∧
    Always (barker_move key w k) (fun r => r.2 = w l) := by
  have he : univ.erase k = {l} := (by decide : ∀ k l : Fin 2, k ≠ l → univ.erase k = {l}) k l hkl
  have hs : w k + w l = 1 := by
    have := hw.sum_one
    rwa [← add_sum_erase univ _ (mem_univ k), he, sum_singleton] at this
  have hlt := forceThreshold_lt_one 2
  have hk1 : w k < 1 := (hg k).trans hlt
  have hl1 : w l < 1 := (hg l).trans hlt
  have hk0 : 0 < w k := by linarith
  have hl0 : 0 < w l := by linarith
  have hr : forceRest w k l = 1 := by
    simp only [forceRest, hg k, if_true, atSet_ne _ _ (Ne.symm hkl)]
    rw [show 1 - w k = w l by linarith, div_self hl0.ne']
  have hrk : forceRest w k k = 0 := by simp only [forceRest, hg k, if_true, atSet_same, zero_div]
  have hq : forceQ w k l = min 1 (w l / w k) := by
    rw [forceQ, hr, one_mul, forceAcc]
    by_cases h : w k ≤ w l
    · rw [min_eq_left ((one_le_div hk0).mpr h), if_pos ⟨by linarith, h⟩]
    · rw [if_neg fun h' => h h'.2, show 1 - w k = w l by linarith, show 1 - w l = w k by linarith, min_eq_right]
      exact (div_le_one hk0).mpr (not_le.mp h).le
  refine ⟨by rw [force_move_pr hw key hkl, hq], ?_, ?_, fun i => C07_barker_law hw key k i, ?_⟩
  · rw [Ex.Pr, force_move_law' hw, he, sum_singleton, sum_singleton, hq, if_neg (Ne.symm hkl), if_pos rfl, mul_zero, zero_add, mul_one]
  · refine always_mono (force_move_alpha key w k) fun r hr' => hr'.trans ?_
    have hne : ¬ ∃ i, 1 - w i = 0 ∧ 0 < (1 - w k) * forceRest w k i := by
      rintro ⟨i, hi, -⟩
      have := (hg i).trans hlt
      linarith
    have hsum : ∑ i, (1 - w k) * forceRest w k i / (1 - w i) = w l / w k := by
      rw [← add_sum_erase univ _ (mem_univ k), he, sum_singleton, hrk, hr, show 1 - w l = w k by linarith,
        show 1 - w k = w l by linarith]
      simp
    have : forceAlpha w k = min (max (∑ i, (1 - w k) * forceRest w k i / (1 - w i)) 0) 1 := if_neg hne
    rw [this, hsum, max_eq_left (by positivity), min_comm]
  · refine always_bind' fun i => always_pure ?_
    show 1 - w k = w l
    linarith

/-- **C88**, `test_degenerate` (`common.py:101-126`): with all the mass on index `l`, both moves return `l` on every run; from `l` they
report 0 and from any other index 1. -/
theorem C88_degenerate {n : ℕ} {w : Fin (n + 1) → ℝ} (hw : IsProb w) (key : Key) (k l : Fin (n + 1)) (hl : w l = 1) :
    Always (force_move key w k) (fun r => r.1 = l ∧ r.2 = if k = l then 0 else 1) ∧
    Ex.Pr (barker_move key w k) (fun r => r.1 = l) = 1 ∧
    Always (barker_move key w k) (fun r => r.2 = if k = l then 0 else 1) := by
  refine ⟨?_, by rw [C07_barker_law hw, hl, ENNReal.ofReal_one], ?_⟩
  · by_cases h : k = l
    · subst h
      simp only [if_true]
      exact C09_force_degenerate_stay hw key k hl
    · simp only [h, if_false]
      exact C09_force_degenerate_move hw key k l h hl
  · refine always_bind' fun i => always_pure ?_
    show 1 - w k = _
    by_cases h : k = l
    · rw [if_pos h, h, hl, sub_self]
    · have := Finset.sum_le_sum_of_subset_of_nonneg (f := w) (subset_univ {k, l}) fun i _ _ => hw.nonneg i
      rw [sum_pair h, hw.sum_one, hl] at this
      rw [if_neg h, le_antisymm (by linarith) (hw.nonneg k), sub_zero]

/-- **C88**, `test_get_reverse_dynamics` (`t_atp_csmc_f.py:327-345`): stationary dynamics with independent coordinates are left
unchanged, for any number of steps. -/
theorem C88_stationary {n d : ℕ} {v : Vec d} (hv : ∀ i, 0 < v i) (f : Vec d) :
    get_reversed_dynamics (n := n) 0 (diagonal v) (fun _ => diagonal f) (fun _ => diagonal fun i => v i - f i * v i * f i) (fun _ => 0) =
      ⟨0, diagonal v, fun _ => diagonal f, fun _ => diagonal fun i => v i - f i * v i * f i, fun _ => 0⟩ := by
  have hinv : (diagonal v)⁻¹ * diagonal v = 1 := Matrix.nonsing_inv_mul _ (by
    rw [det_diagonal]
    exact (prod_pos fun i _ => hv i).ne'.isUnit)
  have hgain : get_gain (diagonal f) (diagonal fun i => v i - f i * v i * f i) (diagonal v) = diagonal f := by
    rw [get_gain, solvePos]
    simp only [diagonal_transpose, diagonal_mul_diagonal, diagonal_add, add_sub_cancel]
    rw [← diagonal_mul_diagonal v f, ← Matrix.mul_assoc, hinv, Matrix.one_mul, diagonal_transpose]
  have hb : reversedBody (0, diagonal v) (diagonal f, diagonal fun i => v i - f i * v i * f i, 0) =
      ((0, diagonal v), (diagonal f, diagonal fun i => v i - f i * v i * f i, 0)) := by
    simp only [reversedBody, hgain, diagonal_transpose, diagonal_mul_diagonal, diagonal_add, diagonal_sub, mulVec_zero, add_zero, sub_zero,
      ← diagonal_smul]
    refine Prod.ext (Prod.ext rfl ?_) (Prod.ext rfl (Prod.ext ?_ rfl))
    · refine congrArg diagonal (funext fun i => ?_)
      simp only [Pi.smul_apply, smul_eq_mul]
      ring
    · refine congrArg diagonal (funext fun i => ?_)
      simp only [Pi.smul_apply, smul_eq_mul]
      ring
  have hscan : ∀ n : ℕ, scan reversedBody ((0 : Vec d), diagonal v)
      (fun _ : Fin n => (diagonal f, diagonal fun i => v i - f i * v i * f i, (0 : Vec d))) =
      ((0, diagonal v), fun _ => (diagonal f, diagonal fun i => v i - f i * v i * f i, 0)) := fun n => by
    induction n with
    | zero => exact Prod.ext rfl (funext fun t => t.elim0)
    | succ n ih =>
      rw [scan_succ]
      simp only [hb]
      have e : scan reversedBody ((0 : Vec d), diagonal v)
          (tailA fun _ : Fin (n + 1) => (diagonal f, diagonal fun i => v i - f i * v i * f i, (0 : Vec d))) = _ := ih
      rw [e]
      exact Prod.ext rfl (funext fun t => Fin.cases rfl (fun _ => rfl) t)
  rw [get_reversed_dynamics]
  simp only [hscan]

/-! ### The numbers of the tests -/

/-- `test_uniform` with `K = 8` from index 0: `M / (K - 1)` and `M / K` of the draws, 1 and `(K - 1) / K`. -/
example (key : Key) (l : Fin 8) := C88_uniform (n := 7) (by norm_num) key 0 l

theorem tests_w : IsProb (![0.1, 0.9] : Fin 2 → ℝ) :=
  ⟨fun i => by fin_cases i <;> norm_num, by norm_num [Fin.sum_univ_two]⟩

theorem tests_w_lt (k : Fin 2) : (![0.1, 0.9] : Fin 2 → ℝ) k < forceThreshold 2 := by
  have := forceThreshold_ge 2
  fin_cases k <;> norm_num at this ⊢ <;> linarith

/-- `test_two_samples`: from 0 the forced move always goes to 1, and from 1 it goes to 0 once in nine times. -/
example (key : Key) : Ex.Pr (force_move key (![0.1, 0.9] : Fin 2 → ℝ) 0) (fun r => r.1 = 1) = 1 ∧
    Ex.Pr (force_move key (![0.1, 0.9] : Fin 2 → ℝ) 1) (fun r => r.1 = 0) = ENNReal.ofReal (1 / 9) := by
  have h0 := (C88_two tests_w tests_w_lt key (k := 0) (l := 1) (by decide)).1
  have h1 := (C88_two tests_w tests_w_lt key (k := 1) (l := 0) (by decide)).1
  refine ⟨h0.trans ?_, h1.trans ?_⟩ <;> norm_num

/-- `test_degenerate` with `K = 8`. -/
example (key : Key) (k : Fin 8) := C88_degenerate (n := 7) (w := fun i => if i = 0 then 1 else 0)
  ⟨fun i => by split_ifs <;> norm_num, by simp⟩ key k 0 (if_pos rfl)

/-- `test_get_reverse_dynamics`. -/
example := C88_stationary (n := 1) (d := 2) (v := fun _ => 1) (fun _ => one_pos) fun _ => 0.75

end Verif.Props
