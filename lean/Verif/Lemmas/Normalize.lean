import Mathlib.Analysis.SpecialFunctions.Log.Basic
import Verif.Model.Resampling
import Verif.Spec.Prob

/-!
# `normalize` as softmax
-/

open Finset

namespace Verif
open Model Spec

theorem sum_exp_pos {n : ℕ} (lw : Fin (n + 1) → ℝ) : 0 < ∑ k, Real.exp (lw k) :=
  sum_pos (fun _ _ => Real.exp_pos _) univ_nonempty

theorem normalize_eq {n : ℕ} (lw : Fin (n + 1) → ℝ) (k : Fin (n + 1)) :
    normalizeW lw k = Real.exp (lw k) / ∑ l, Real.exp (lw l) := by
  rw [normalizeW, normalizeLog, Real.exp_sub, logsumexp, Real.exp_log (sum_exp_pos lw)]

theorem normalize_pos {n : ℕ} (lw : Fin n → ℝ) (k : Fin n) : 0 < normalizeW lw k := Real.exp_pos _

theorem normalize_isProb {n : ℕ} (lw : Fin (n + 1) → ℝ) : IsProb (normalizeW lw) where
  nonneg k := (normalize_pos lw k).le
  sum_one := by
    simp only [normalize_eq, ← sum_div]
    exact div_self (sum_exp_pos lw).ne'

theorem logsumexp_add_const {n : ℕ} (lw : Fin (n + 1) → ℝ) (c : ℝ) :
    logsumexp (fun k => lw k + c) = logsumexp lw + c := by
  simp only [logsumexp, Real.exp_add, ← sum_mul]
  rw [Real.log_mul (sum_exp_pos lw).ne' (Real.exp_pos c).ne', Real.log_exp]

theorem normalizeLog_add_const {n : ℕ} (lw : Fin (n + 1) → ℝ) (c : ℝ) :
    normalizeLog (fun k => lw k + c) = normalizeLog lw := by
  funext k; simp only [normalizeLog, logsumexp_add_const]; ring

theorem normalize_add_const {n : ℕ} (lw : Fin (n + 1) → ℝ) (c : ℝ) :
    normalizeW (fun k => lw k + c) = normalizeW lw := by
  funext k; simp only [normalizeW, normalizeLog_add_const]

theorem logsumexp_normalizeLog {n : ℕ} (lw : Fin (n + 1) → ℝ) : logsumexp (normalizeLog lw) = 0 := by
  have := (normalize_isProb lw).sum_one
  simp only [normalizeW] at this
  simp [logsumexp, this]

theorem normalizeLog_normalizeLog {n : ℕ} (lw : Fin (n + 1) → ℝ) :
    normalizeLog (normalizeLog lw) = normalizeLog lw := by
  funext k; rw [normalizeLog, logsumexp_normalizeLog, sub_zero]

theorem normalize_normalizeLog {n : ℕ} (lw : Fin (n + 1) → ℝ) :
    normalizeW (normalizeLog lw) = normalizeW lw := by
  funext k; rw [normalizeW, normalizeLog_normalizeLog]; rfl

end Verif
