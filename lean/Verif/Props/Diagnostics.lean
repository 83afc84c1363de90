import Verif.Model.Diagnostics
import Mathlib.Algebra.BigOperators.Field
import Mathlib.Tactic.LinearCombination
import Mathlib.Tactic.FieldSimp
import Mathlib.Tactic.Positivity
import Mathlib.Tactic.FinCases

/-!
# C72: auto-correlations and effective sample sizes
-/

namespace Verif.Props
open Verif Verif.Model

variable {L M : ℕ}

/-! ## Auxiliary facts -/

theorem meanA_affine {k : ℕ} (hk : k ≠ 0) (a c : ℝ) (x : Fin k → ℝ) : meanA (fun i => a * x i + c) = a * meanA x + c := by
  have : (k : ℝ) ≠ 0 := Nat.cast_ne_zero.mpr hk
  simp only [meanA, Finset.sum_add_distrib, ← Finset.mul_sum, Finset.sum_const, Finset.card_univ, Fintype.card_fin, nsmul_eq_mul]
  field_simp

theorem meanA_smul {k : ℕ} (a : ℝ) (x : Fin k → ℝ) : meanA (fun i => a * x i) = a * meanA x := by
  simp only [meanA, ← Finset.mul_sum, mul_div_assoc]

theorem meanA_perm {k : ℕ} (e : Equiv.Perm (Fin k)) (x : Fin k → ℝ) : meanA (fun i => x (e i)) = meanA x := by
  simp only [meanA, Equiv.sum_comp e x]

theorem auto_cov_zero (x : Fin (L + 1) → ℝ) : tfp_auto_cov x 0 = meanA fun k => (x k - meanA x) ^ 2 := by
  simp only [tfp_auto_cov, add_zero, Fin.is_lt, dite_true, Fin.eta, Nat.cast_zero, sub_zero]
  rw [show (meanA fun k => (x k - meanA x) ^ 2) = (∑ k, (x k - meanA x) ^ 2) / (L + 1 : ℕ) from rfl]
  simp only [pow_two]

theorem auto_cov_affine (a c : ℝ) (x : Fin (L + 1) → ℝ) (lag : ℕ) :
    tfp_auto_cov (fun k => a * x k + c) lag = a ^ 2 * tfp_auto_cov x lag := by
  simp only [tfp_auto_cov, meanA_affine (Nat.succ_ne_zero L), ← mul_div_assoc, Finset.mul_sum]
  congr 1
  refine Finset.sum_congr rfl fun k _ => ?_
  split
  · ring
  · simp

theorem meanA_nonneg {k : ℕ} {x : Fin k → ℝ} (h : ∀ i, 0 ≤ x i) : 0 ≤ meanA x :=
  div_nonneg (Finset.sum_nonneg fun i _ => h i) (Nat.cast_nonneg _)

theorem meanA_eq_zero {k : ℕ} {x : Fin k → ℝ} (h : ∀ i, 0 ≤ x i) (h0 : meanA x = 0) (i : Fin k) : x i = 0 := by
  have hk : (k : ℝ) ≠ 0 := Nat.cast_ne_zero.mpr (Fin.pos i).ne'
  rcases div_eq_zero_iff.mp h0 with h0 | h0
  · exact (Finset.sum_eq_zero_iff_of_nonneg fun i _ => h i).mp h0 i (Finset.mem_univ i)
  · exact absurd h0 hk

theorem auto_cov_nonneg (x : Fin (L + 1) → ℝ) : 0 ≤ tfp_auto_cov x 0 := by
  rw [auto_cov_zero]
  exact meanA_nonneg fun _ => sq_nonneg _

theorem auto_cov_eq_zero {x : Fin (L + 1) → ℝ} (h : tfp_auto_cov x 0 = 0) (k : Fin (L + 1)) : x k = meanA x := by
  rw [auto_cov_zero] at h
  have := meanA_eq_zero (fun _ => sq_nonneg _) h k
  linarith [pow_eq_zero_iff (two_ne_zero) |>.mp this]

theorem tfp_variance_nonneg {a : Fin M → ℝ} (hM : 1 ≤ M) : 0 ≤ tfp_variance a :=
  div_nonneg (Finset.sum_nonneg fun _ _ => sq_nonneg _) (by
    have : (1 : ℝ) ≤ M := by exact_mod_cast hM
    linarith)

theorem tfp_variance_eq_zero {a : Fin M → ℝ} (hM : 2 ≤ M) (h : tfp_variance a = 0) (i : Fin M) : a i = meanA a := by
  have h1 : (2 : ℝ) ≤ M := by exact_mod_cast hM
  rcases div_eq_zero_iff.mp h with h | h
  · have := (Finset.sum_eq_zero_iff_of_nonneg fun _ _ => sq_nonneg _).mp h i (Finset.mem_univ i)
    linarith [pow_eq_zero_iff (two_ne_zero) |>.mp this]
  · linarith

theorem variance_affine (hM : M ≠ 0) (a c : ℝ) (x : Fin M → ℝ) : tfp_variance (fun i => a * x i + c) = a ^ 2 * tfp_variance x := by
  simp only [tfp_variance, meanA_affine hM, ← mul_div_assoc, Finset.mul_sum]
  congr 1
  exact Finset.sum_congr rfl fun k _ => by ring

theorem meanA_const {k : ℕ} (hk : k ≠ 0) (c : ℝ) : meanA (fun _ : Fin k => c) = c := by
  have : (k : ℝ) ≠ 0 := Nat.cast_ne_zero.mpr hk
  simp [meanA, this]

theorem approx_nonneg (hM : 1 ≤ M) (s : Fin (L + 1) → Fin M → ℝ) : 0 ≤ approx_variance s :=
  add_nonneg (meanA_nonneg fun _ => auto_cov_nonneg _) (tfp_variance_nonneg hM)

theorem approx_affine (hM : M ≠ 0) (a c : ℝ) (s : Fin (L + 1) → Fin M → ℝ) :
    approx_variance (fun k i => a * s k i + c) = a ^ 2 * approx_variance s := by
  simp only [approx_variance, meanA_affine (Nat.succ_ne_zero L), variance_affine hM, auto_cov_affine, meanA_smul]
  ring

/-! ## The property -/

/-- **C72**: the variance in the denominator is positive unless all samples of all chains are equal; so the diagnostics are defined. -/
theorem C72_defined (hM : 2 ≤ M) (s : Fin (L + 1) → Fin M → ℝ) :
    0 ≤ approx_variance s ∧ (approx_variance s = 0 ↔ ∀ k i k' i', s k i = s k' i') := by
  have hM1 : 1 ≤ M := by omega
  refine ⟨approx_nonneg hM1 s, fun h k i k' i' => ?_, fun h => ?_⟩
  · have h1 := meanA_nonneg (x := fun i => tfp_auto_cov (fun k => s k i) 0) fun _ => auto_cov_nonneg _
    have h2 := tfp_variance_nonneg (a := fun i => meanA fun k => s k i) hM1
    have h' : (meanA fun i => tfp_auto_cov (fun k => s k i) 0) + tfp_variance (fun i => meanA fun k => s k i) = 0 := h
    have e1 := meanA_eq_zero (fun _ => auto_cov_nonneg _) (by linarith : (meanA fun i => tfp_auto_cov (fun k => s k i) 0) = 0)
    have e2 := tfp_variance_eq_zero hM (by linarith : tfp_variance (fun i => meanA fun k => s k i) = 0)
    rw [auto_cov_eq_zero (e1 i) k, auto_cov_eq_zero (e1 i') k', e2 i, e2 i']
  · have hz : ∀ k i, s k i = s 0 ⟨0, hM1⟩ := fun k i => h _ _ _ _
    generalize s 0 ⟨0, hM1⟩ = c at hz
    obtain rfl : s = fun _ _ => c := funext fun k => funext fun i => hz k i
    simp [approx_variance, auto_cov_zero, tfp_variance, meanA_const (Nat.succ_ne_zero L), meanA_const (show M ≠ 0 by omega)]

/-- **C72**: at lag zero the auto-correlations are one, if the samples (for `samples_acf` those of each chain) are not all equal. -/
theorem C72_lag_zero (s : Fin (L + 1) → Fin M → ℝ) :
    (2 ≤ M → (∃ k i k' i', s k i ≠ s k' i') → approx_variance s ≠ 0 ∧ cross_chains_autocorr s 0 = 1) ∧
    (M ≠ 0 → (∀ i, ∃ k k', s k i ≠ s k' i) → samples_acf s 0 = 1) := by
  refine ⟨fun hM ⟨k, i, k', i', h⟩ => ⟨fun h0 => h ((C72_defined hM s).2.mp h0 k i k' i'), by simp [cross_chains_autocorr]⟩, fun hM h => ?_⟩
  have e : ∀ i, tfp_auto_corr (fun k => s k i) 0 = 1 := fun i => div_self fun h0 => by
    obtain ⟨k, k', hk⟩ := h i
    exact hk ((auto_cov_eq_zero h0 k).trans (auto_cov_eq_zero h0 k').symm)
  simp only [samples_acf, e, meanA_const hM]

/-- **C72**: the diagnostics do not change if the samples are shifted and rescaled, with a change of sign or not; so those of the
energies are those of the negated energies which are plotted. -/
theorem C72_affine {a : ℝ} (ha : a ≠ 0) (c : ℝ) (s : Fin (L + 1) → Fin M → ℝ) :
    (∀ lag, M ≠ 0 → cross_chains_autocorr (fun k i => a * s k i + c) lag = cross_chains_autocorr s lag) ∧
    (∀ lag, samples_acf (fun k i => a * s k i + c) lag = samples_acf s lag) ∧
    samples_ess (fun k i => a * s k i + c) = samples_ess s := by
  have ha2 : a ^ 2 ≠ 0 := pow_ne_zero 2 ha
  have h1 : ∀ lag, M ≠ 0 → cross_chains_autocorr (fun k i => a * s k i + c) lag = cross_chains_autocorr s lag := fun lag hM => by
    simp only [cross_chains_autocorr, approx_affine hM, auto_cov_affine, meanA_smul, ← mul_sub]
    rw [mul_div_mul_left _ _ ha2]
  have h2 : ∀ (x : Fin (L + 1) → ℝ) (lag : ℕ), tfp_auto_corr (fun k => a * x k + c) lag = tfp_auto_corr x lag := fun x lag => by
    simp only [tfp_auto_corr, auto_cov_affine]
    rw [mul_div_mul_left _ _ ha2]
  refine ⟨h1, fun lag => by simp only [samples_acf, h2], ?_⟩
  unfold samples_ess
  split
  · rw [funext fun k : Fin (L + 1) => h1 k (by omega)]
  · split
    · simp only [h2]
    · rfl

/-- **C72**: the order of the chains does not matter. -/
theorem C72_perm (e : Equiv.Perm (Fin M)) (s : Fin (L + 1) → Fin M → ℝ) :
    (∀ lag, cross_chains_autocorr (fun k i => s k (e i)) lag = cross_chains_autocorr s lag) ∧
    (∀ lag, samples_acf (fun k i => s k (e i)) lag = samples_acf s lag) ∧
    samples_ess (fun k i => s k (e i)) = samples_ess s := by
  have hv : approx_variance (fun k i => s k (e i)) = approx_variance s := by
    simp only [approx_variance, tfp_variance]
    rw [meanA_perm e fun i => tfp_auto_cov (fun k => s k i) 0, meanA_perm e fun i => meanA fun k => s k i,
      Equiv.sum_comp e fun i => ((meanA fun k => s k i) - meanA fun i => meanA fun k => s k i) ^ 2]
  have h1 : ∀ lag, cross_chains_autocorr (fun k i => s k (e i)) lag = cross_chains_autocorr s lag := fun lag => by
    simp only [cross_chains_autocorr, hv]
    rw [meanA_perm e fun i => tfp_auto_cov (fun k => s k i) 0, meanA_perm e fun i => tfp_auto_cov (fun k => s k i) lag]
  refine ⟨h1, fun lag => meanA_perm e fun i => tfp_auto_corr (fun k => s k i) lag, ?_⟩
  unfold samples_ess
  split
  · simp only [h1]
  · split
    · rename_i h
      subst h
      rw [show e = 1 from Subsingleton.elim _ _]
      rfl
    · rfl

/-- The filtered sum of auto-correlations is at least its first term. -/
theorem ess_bounds {R : Fin (L + 1) → ℝ} (h0 : R 0 = 1) {c : ℕ} (hc : 0 < c) :
    0 < tfp_ess c R ∧ tfp_ess c R ≤ c * (L + 1 : ℕ) := by
  have hL : (0 : ℝ) < (L + 1 : ℕ) := by positivity
  have hc' : (0 : ℝ) < c := by exact_mod_cast hc
  unfold tfp_ess
  dsimp only
  set below := fun k : Fin (L + 1) => ∑ j : Fin (L + 1), if j ≤ k ∧ R j < 0 then (1 : ℝ) else 0 with hb
  set w := fun k : Fin (L + 1) => (((L + 1 : ℕ) : ℝ) - k) / (L + 1 : ℕ) * R k * max (1 - below k) 0 with hw
  have hn : ∀ k, 0 ≤ w k := fun k => by
    by_cases hk : R k < 0
    · have h1 : 1 ≤ below k := by
        refine le_trans ?_ (Finset.single_le_sum (f := fun j : Fin (L + 1) => if j ≤ k ∧ R j < 0 then (1 : ℝ) else 0)
          (fun j _ => by split <;> norm_num) (Finset.mem_univ k))
        rw [if_pos ⟨le_rfl, hk⟩]
      have : max (1 - below k) 0 = 0 := max_eq_right (by linarith)
      simp only [hw, this, mul_zero, le_refl]
    · have h1 : (k : ℝ) ≤ (L + 1 : ℕ) := by exact_mod_cast k.2.le
      exact mul_nonneg (mul_nonneg (div_nonneg (by linarith) hL.le) (not_lt.mp hk)) (le_max_right _ _)
  have hb0 : below 0 = 0 := Finset.sum_eq_zero fun j _ => if_neg fun ⟨hj, hR⟩ => by
    rw [Fin.le_zero_iff.mp hj, h0] at hR
    linarith
  have hw0 : w 0 = 1 := by
    simp only [hw, hb0, h0, Fin.val_zero, Nat.cast_zero, sub_zero, mul_one, max_eq_left (zero_le_one (α := ℝ)), div_self hL.ne']
  have hs : 1 ≤ ∑ k, w k := hw0 ▸ Finset.single_le_sum (fun k _ => hn k) (Finset.mem_univ 0)
  have hp : 1 ≤ -1 + 2 * ∑ k, w k := by linarith
  have hnum : (0 : ℝ) < c * (L + 1 : ℕ) := mul_pos hc' hL
  exact ⟨div_pos hnum (by linarith), div_le_self hnum.le hp⟩

/-- **C72** (effective sample size).  With `p` the first lag at which the auto-correlation is negative (the number of samples if there is none),
`num_chains * n / (1 + 2 * ∑ (1 - k / n) R k)` over the lags from 1 to `p - 1`. -/
theorem C72_ess_formula {R : Fin (L + 1) → ℝ} (h0 : R 0 = 1) (c : ℕ) {p : ℕ} (hp : ∀ k : Fin (L + 1), k.1 < p → 0 ≤ R k)
    (hp' : ∀ h : p < L + 1, R ⟨p, h⟩ < 0) :
    tfp_ess c R = c * (L + 1 : ℕ) / (1 + 2 * ∑ k : Fin (L + 1), if 1 ≤ k.1 ∧ k.1 < p then (1 - (k.1 : ℝ) / (L + 1 : ℕ)) * R k else 0) := by
  have hL : ((L + 1 : ℕ) : ℝ) ≠ 0 := by positivity
  unfold tfp_ess
  dsimp only
  set below := fun k : Fin (L + 1) => ∑ j : Fin (L + 1), if j ≤ k ∧ R j < 0 then (1 : ℝ) else 0 with hb
  have hmask : ∀ k : Fin (L + 1), max (1 - below k) 0 = if k.1 < p then 1 else 0 := fun k => by
    split
    · rename_i hk
      have : below k = 0 := Finset.sum_eq_zero fun j _ => if_neg fun ⟨hj, hR⟩ =>
        absurd (hp j (lt_of_le_of_lt hj hk)) (not_le.mpr hR)
      rw [this]
      norm_num
    · rename_i hk
      have hpL : p < L + 1 := by have := k.2; omega
      have h1 : 1 ≤ below k := by
        refine le_trans ?_ (Finset.single_le_sum (f := fun j : Fin (L + 1) => if j ≤ k ∧ R j < 0 then (1 : ℝ) else 0)
          (fun j _ => by split <;> norm_num) (Finset.mem_univ ⟨p, hpL⟩))
        rw [if_pos ⟨Fin.le_def.mpr (not_lt.mp hk), hp' hpL⟩]
      exact max_eq_right (by linarith)
  have hp0 : 0 < p := by
    rcases Nat.eq_zero_or_pos p with rfl | h
    · have := hp' (Nat.succ_pos L)
      rw [show (⟨0, Nat.succ_pos L⟩ : Fin (L + 1)) = 0 from rfl, h0] at this
      linarith
    · exact h
  have hsplit : ∑ k : Fin (L + 1), (((L + 1 : ℕ) : ℝ) - k) / (L + 1 : ℕ) * R k * max (1 - below k) 0 =
      1 + ∑ k : Fin (L + 1), if 1 ≤ k.1 ∧ k.1 < p then (1 - (k.1 : ℝ) / (L + 1 : ℕ)) * R k else 0 := by
    rw [Fin.sum_univ_succ, Fin.sum_univ_succ (n := L), hmask]
    congr 1
    · rw [Fin.val_zero, Nat.cast_zero, sub_zero, div_self hL, h0, if_pos hp0]
      norm_num
    · rw [if_neg (by simp), zero_add]
      refine Finset.sum_congr rfl fun k _ => ?_
      rw [hmask, sub_div, div_self hL]
      by_cases hk : k.succ.1 < p
      · rw [if_pos hk, if_pos ⟨by simp, hk⟩, mul_one]
      · rw [if_neg hk, if_neg fun h => hk h.2, mul_zero]
  rw [hsplit]
  congr 1
  ring

/-- Alternating samples count as independent ones. -/
example : tfp_ess 4 (fun k : Fin (2 + 1) => if k = 0 then 1 else -1) = 12 := by
  rw [C72_ess_formula (p := 1) (by simp) 4 (fun k hk => by
    rw [if_pos (Fin.ext (by simpa using hk))]; norm_num) (fun _ => by rw [if_neg (by simp)]; norm_num)]
  rw [Finset.sum_eq_zero fun k _ => if_neg (by omega)]
  norm_num

/-- **C72**: the effective sample size per chain is positive and at most the number of samples of a chain, unless all samples of all
chains are equal (then it is not defined). -/
theorem C72_ess (s : Fin (L + 1) → Fin M → ℝ) (hs : ∃ k i k' i', s k i ≠ s k' i') :
    0 < samples_ess s ∧ samples_ess s ≤ (L + 1 : ℕ) := by
  unfold samples_ess
  obtain ⟨k, i, k', i', hk⟩ := hs
  obtain hM | rfl : 2 ≤ M ∨ M = 1 := by have := i.2; omega
  · have hM' : (0 : ℝ) < M := by exact_mod_cast (by omega : 0 < M)
    rw [if_pos (by omega)]
    obtain ⟨h1, h2⟩ := ess_bounds (R := fun k : Fin (L + 1) => cross_chains_autocorr s k) (by simp [cross_chains_autocorr])
      (c := M) (by omega)
    refine ⟨div_pos h1 hM', ?_⟩
    rw [div_le_iff₀ hM', mul_comm]
    exact h2
  · rw [if_neg (by omega), dif_pos rfl]
    obtain rfl : i = ⟨0, Nat.one_pos⟩ := Subsingleton.elim _ _
    obtain rfl : i' = ⟨0, Nat.one_pos⟩ := Subsingleton.elim _ _
    have h := ess_bounds (R := fun k : Fin (L + 1) => tfp_auto_corr (fun k => s k ⟨0, Nat.one_pos⟩) k) (div_self fun h0 =>
      hk ((auto_cov_eq_zero h0 k).trans (auto_cov_eq_zero h0 k').symm)) (c := 1) one_pos
    simpa using h

/-- **C72**: the auto-correlations are saved for more than `N_LAGS` samples only (or for a single one): otherwise the script stops
with an error when all chains have been run. -/
theorem C72_save (n_samples N_LAGS : ℕ) (h : n_samples ≠ 0) (hN : N_LAGS ≠ 0) :
    save_acf n_samples N_LAGS = .ok () ↔ n_samples = 1 ∨ N_LAGS < n_samples := by
  unfold save_acf tfp_lags
  split <;> rename_i hc
  · simp only [true_iff]
    omega
  · simp only [reduceCtorEq, false_iff]
    omega

/-- The default of 45000 samples is enough for 1000 lags; 500 samples are not. -/
example : save_acf 45000 1000 = .ok () ∧ save_acf 500 1000 = .error "ValueError" := by decide

/-- Four chains of three samples. -/
example : let s : Fin 3 → Fin 4 → ℝ := fun k i => k * i
    cross_chains_autocorr s 0 = 1 ∧ 0 < samples_ess s ∧ samples_ess s ≤ 3 := by
  intro s
  have h : ∃ k i k' i', s k i ≠ s k' i' := ⟨0, 0, 1, 1, by norm_num [s]⟩
  refine ⟨((C72_lag_zero s).1 (by norm_num) h).2, ?_⟩
  have := C72_ess s h
  simpa using this

/-- Energies and negated energies. -/
example (s : Fin 45000 → Fin 4 → ℝ) (lag : ℕ) : cross_chains_autocorr (fun k i => -1 * s k i + 0) lag = cross_chains_autocorr s lag :=
  (C72_affine (by norm_num) 0 s).1 lag (by norm_num)

example (s : Fin 45000 → Fin 4 → ℝ) : samples_ess (fun k i => s k (Equiv.swap 0 3 i)) = samples_ess s := (C72_perm _ s).2.2

end Verif.Props
