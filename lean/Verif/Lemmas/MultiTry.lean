import Mathlib.Tactic.Ring
import Mathlib.Tactic.FieldSimp
import Verif.Model.MultiTry
import Verif.Lemmas.Normalize

/-!
# Multi-try kernels: helper lemmas
-/

namespace Verif
open Verif.Model Verif.Poss

variable {T d N n : ℕ}

theorem expNormalize_eq (lw : Fin (N + 1) → ℝ) : expNormalize lw = normalizeW lw := by
  funext i
  unfold expNormalize
  simp only
  rw [normalize_eq]
  simp only [Real.exp_sub, ← Finset.sum_div]
  have h1 : Real.exp (maxA lw) ≠ 0 := (Real.exp_pos _).ne'
  have h2 : ∑ j, Real.exp (lw j) ≠ 0 := (Finset.sum_pos (fun _ _ => Real.exp_pos _) Finset.univ_nonempty).ne'
  field_simp

/-- Closed form of `get_log_H` of `mala.py` for `c_inv = 2 / delta`, `e = delta / 2`. -/
theorem mala_log_H_eq (xs : Fin (N + 1) → Traj T d) {delta : ℝ} (hd : delta ≠ 0) (x phi : Traj T d) :
    mala_log_H xs (2 / delta) (0.5 * delta) x phi =
      (2 * dot2 (fun t j => (∑ i, xs i t j) / ((N : ℝ) + 1) - x t j) phi -
        (N : ℝ) / ((N : ℝ) + 1) * dot2 phi phi) / delta := by
  have hN : (N : ℝ) + 1 ≠ 0 := by positivity
  unfold mala_log_H
  simp only
  have hG : (1 : ℝ) / (0.5 * delta + N * (0.5 * delta)) = 2 / (delta * ((N : ℝ) + 1)) := by
    have : (0.5 : ℝ) * delta + N * (0.5 * delta) = delta * ((N : ℝ) + 1) / 2 := by ring
    rw [this, one_div_div]
  rw [hG]
  obtain ⟨xb, hxb⟩ : ∃ xb : Traj T d, ∀ t j, (∑ i, xs i t j) / ((N : ℝ) + 1) = xb t j := ⟨_, fun _ _ => rfl⟩
  simp only [hxb]
  unfold dot2
  simp only [Finset.mul_sum, ← Finset.sum_add_distrib, ← Finset.sum_sub_distrib, Finset.sum_div]
  refine Finset.sum_congr rfl fun t _ => Finset.sum_congr rfl fun j _ => ?_
  field_simp
  ring

theorem malaLogWeights_zero {delta : ℝ} (hd : delta ≠ 0) (auxiliary : Bool) (std_dev : ℝ) (us : Traj T d)
    (samples : Fin (N + 1) → Traj T d) (vals : Fin (N + 1) → ℝ) (grads : Fin (N + 1) → Traj T d)
    (hg : ∀ i, grads i = 0) : malaLogWeights auxiliary delta std_dev us samples vals grads = vals := by
  funext i
  cases auxiliary
  · simp only [malaLogWeights, Bool.false_eq_true, if_false]
    rw [mala_log_H_eq _ hd, hg]
    simp [dot2]
  · simp only [malaLogWeights, if_true, hg]
    simp

/-- Selected entries. -/
theorem selectVG_always (key : Key) (lw : Fin (N + 1) → ℝ) (samples : Fin (N + 1) → Traj T d)
    (vals : Fin (N + 1) → ℝ) (grads : Fin (N + 1) → Traj T d) :
    Always (selectVG key lw samples vals grads) (fun r => ∃ i, r.1 = (samples i, vals i, grads i) ∧
      r.2 = decide (i ≠ 0)) :=
  always_bind' fun r => always_pure ⟨r.1, rfl, rfl⟩

end Verif
