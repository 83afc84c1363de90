import Verif.Props.Diagnostics
import Verif.Spec.Averages
import Mathlib.MeasureTheory.Integral.Pi
import Mathlib.Probability.Independence.Integration

/-!
# Expectation of the variance estimate of several chains
-/

open MeasureTheory ProbabilityTheory

namespace Verif
open Verif.Model Verif.Spec Verif.Props

variable {L M : ℕ} {Ω : Type} [MeasurableSpace Ω]

theorem auto_cov_zero' (x : Fin (L + 1) → ℝ) : tfp_auto_cov x 0 = meanA (fun k => x k ^ 2) - meanA x ^ 2 := by
  have hL : ((L + 1 : ℕ) : ℝ) ≠ 0 := Nat.cast_ne_zero.mpr (Nat.succ_ne_zero L)
  rw [auto_cov_zero, show (meanA fun k => (x k - meanA x) ^ 2) = (∑ k, (x k - meanA x) ^ 2) / (L + 1 : ℕ) from rfl,
    show meanA (fun k => x k ^ 2) = (∑ k, x k ^ 2) / (L + 1 : ℕ) from rfl]
  have e : ∑ k, x k = (L + 1 : ℕ) * meanA x := by
    rw [meanA, mul_div_cancel₀ _ hL]
  have : ∑ k, (x k - meanA x) ^ 2 = ∑ k, x k ^ 2 - (L + 1 : ℕ) * meanA x ^ 2 := by
    simp only [sub_sq, Finset.sum_add_distrib, Finset.sum_sub_distrib, Finset.sum_const, Finset.card_univ, Fintype.card_fin,
      nsmul_eq_mul, mul_assoc, ← Finset.mul_sum, ← Finset.sum_mul, e]
    ring
  rw [this, sub_div, mul_div_cancel_left₀ _ hL]

theorem tfp_variance_eq (hM : M ≠ 0) (a : Fin M → ℝ) :
    tfp_variance a = (∑ i, a i ^ 2 - (∑ i, ∑ j, a i * a j) / M) / ((M : ℝ) - 1) := by
  have hM' : (M : ℝ) ≠ 0 := Nat.cast_ne_zero.mpr hM
  have e : ∑ k, a k = M * meanA a := by rw [meanA, mul_div_cancel₀ _ hM']
  unfold tfp_variance
  congr 1
  simp only [← Finset.mul_sum, ← Finset.sum_mul, sub_sq, Finset.sum_add_distrib, Finset.sum_sub_distrib, Finset.sum_const,
    Finset.card_univ, Fintype.card_fin, nsmul_eq_mul, mul_assoc, e]
  field_simp
  ring

variable {P : Measure Ω} [IsProbabilityMeasure P]

theorem integral_pair {Y : Ω → ℝ} (hY : AEStronglyMeasurable Y P) {i j : Fin M} (h : i ≠ j) :
    ∫ c, Y (c i) * Y (c j) ∂Measure.pi (fun _ : Fin M => P) = (∫ ω, Y ω ∂P) ^ 2 := by
  have hi := iIndepFun_pi (μ := fun _ : Fin M => P) (X := fun _ => Y) fun _ => hY.aemeasurable
  have := (hi.indepFun h).integral_fun_mul_eq_mul_integral (hY.comp_measurePreserving (measurePreserving_eval _ i))
    (hY.comp_measurePreserving (measurePreserving_eval _ j))
  refine this.trans ?_
  rw [integral_comp_eval (μ := fun _ : Fin M => P) (i := i) hY, integral_comp_eval (μ := fun _ : Fin M => P) (i := j) hY, pow_two]

theorem unbiased_aux {Y S : Ω → ℝ} (hY : MemLp Y 2 P) (hS : Integrable S P) (hM : 2 ≤ M) :
    Integrable (fun c : Fin M → Ω => (M : ℝ)⁻¹ * ∑ i, (S (c i) - Y (c i) ^ 2) +
      ((M : ℝ) - 1)⁻¹ * (∑ i, Y (c i) ^ 2 - (M : ℝ)⁻¹ * ∑ i, ∑ j, Y (c i) * Y (c j))) (Measure.pi fun _ => P) ∧
    ∫ c : Fin M → Ω, (M : ℝ)⁻¹ * ∑ i, (S (c i) - Y (c i) ^ 2) +
      ((M : ℝ) - 1)⁻¹ * (∑ i, Y (c i) ^ 2 - (M : ℝ)⁻¹ * ∑ i, ∑ j, Y (c i) * Y (c j)) ∂(Measure.pi fun _ => P) =
      ∫ ω, S ω ∂P - (∫ ω, Y ω ∂P) ^ 2 := by
  have hM0 : M ≠ 0 := by omega
  have hM' : (M : ℝ) ≠ 0 := Nat.cast_ne_zero.mpr hM0
  have hM1 : (M : ℝ) - 1 ≠ 0 := by
    have : (2 : ℝ) ≤ M := by exact_mod_cast hM
    linarith
  have i1 : ∀ i : Fin M, Integrable (fun c : Fin M → Ω => Y (c i) ^ 2) (Measure.pi fun _ : Fin M => P) := fun i =>
    integrable_comp_eval (μ := fun _ : Fin M => P) (i := i) (f := fun ω => Y ω ^ 2) hY.integrable_sq
  have i2 : ∀ i : Fin M, Integrable (fun c : Fin M → Ω => S (c i)) (Measure.pi fun _ : Fin M => P) := fun i =>
    integrable_comp_eval (μ := fun _ : Fin M => P) (i := i) hS
  have hY' : ∀ i : Fin M, MemLp (fun c : Fin M → Ω => Y (c i)) 2 (Measure.pi fun _ : Fin M => P) := fun i =>
    hY.comp_measurePreserving (measurePreserving_eval _ i)
  have i3 : ∀ i j : Fin M, Integrable (fun c : Fin M → Ω => Y (c i) * Y (c j)) (Measure.pi fun _ : Fin M => P) := fun i j =>
    (hY' i).integrable_mul (hY' j)
  have j1 : ∀ i : Fin M, ∫ c, Y (c i) ^ 2 ∂(Measure.pi fun _ : Fin M => P) = ∫ ω, Y ω ^ 2 ∂P := fun i =>
    integral_comp_eval (μ := fun _ : Fin M => P) (f := fun ω => Y ω ^ 2) hY.integrable_sq.1
  have j2 : ∀ i : Fin M, ∫ c, S (c i) ∂(Measure.pi fun _ : Fin M => P) = ∫ ω, S ω ∂P := fun i =>
    integral_comp_eval (μ := fun _ : Fin M => P) hS.1
  have j3 : ∑ i : Fin M, ∑ j : Fin M, ∫ c, Y (c i) * Y (c j) ∂(Measure.pi fun _ : Fin M => P) =
      M * (∫ ω, Y ω ^ 2 ∂P) + M * ((M : ℝ) - 1) * (∫ ω, Y ω ∂P) ^ 2 := by
    have : ∀ i j : Fin M, ∫ c, Y (c i) * Y (c j) ∂(Measure.pi fun _ : Fin M => P) =
        (∫ ω, Y ω ∂P) ^ 2 + if i = j then (∫ ω, Y ω ^ 2 ∂P) - (∫ ω, Y ω ∂P) ^ 2 else 0 := fun i j => by
      split
      · rename_i h
        subst h
        rw [← j1 i]
        simp only [pow_two]
        ring
      · rename_i h
        rw [add_zero, integral_pair hY.1 h]
    simp only [this, Finset.sum_add_distrib, Finset.sum_ite_eq, Finset.mem_univ, if_true, Finset.sum_const, Finset.card_univ,
      Fintype.card_fin, nsmul_eq_mul]
    ring
  have k1 : Integrable (fun c : Fin M → Ω => ∑ i, (S (c i) - Y (c i) ^ 2)) (Measure.pi fun _ : Fin M => P) :=
    integrable_finsetSum _ fun i _ => (i2 i).sub (i1 i)
  have k2 : Integrable (fun c : Fin M → Ω => ∑ i, Y (c i) ^ 2) (Measure.pi fun _ : Fin M => P) := integrable_finsetSum _ fun i _ => i1 i
  have k3 : Integrable (fun c : Fin M → Ω => ∑ i, ∑ j, Y (c i) * Y (c j)) (Measure.pi fun _ : Fin M => P) :=
    integrable_finsetSum _ fun i _ => integrable_finsetSum _ fun j _ => i3 i j
  have k4 : Integrable (fun c : Fin M → Ω => ∑ i, Y (c i) ^ 2 - (M : ℝ)⁻¹ * ∑ i, ∑ j, Y (c i) * Y (c j)) (Measure.pi fun _ : Fin M => P) :=
    k2.sub (k3.const_mul _)
  have i4 : ∀ i : Fin M, Integrable (fun c : Fin M → Ω => S (c i) - Y (c i) ^ 2) (Measure.pi fun _ : Fin M => P) := fun i =>
    (i2 i).sub (i1 i)
  refine ⟨(k1.const_mul _).add (k4.const_mul _), ?_⟩
  rw [integral_add (k1.const_mul _) (k4.const_mul _), integral_const_mul, integral_const_mul,
    integral_sub k2 (k3.const_mul _), integral_const_mul, integral_finsetSum _ fun i _ => i4 i,
    integral_finsetSum _ fun i _ => i1 i, integral_finsetSum _ fun i _ => integrable_finsetSum _ fun j _ => i3 i j,
    Finset.sum_congr rfl fun i _ => integral_finsetSum _ fun j _ => i3 i j, j3,
    Finset.sum_congr rfl fun i _ => (integral_sub (i2 i) (i1 i)).trans (congr_arg₂ _ (j2 i) (j1 i)), Finset.sum_congr rfl fun i _ => j1 i]
  simp only [Finset.sum_const, Finset.card_univ, Fintype.card_fin, nsmul_eq_mul]
  field_simp
  ring

theorem unbiased {X : Fin (L + 1) → Ω → ℝ} (hX : ∀ k, MemLp (X k) 2 P) (hM : 2 ≤ M) :
    Integrable (fun c => approx_variance fun k i => X k (c i)) (Measure.pi fun _ : Fin M => P) ∧
    ∫ c, approx_variance (fun k i => X k (c i)) ∂Measure.pi (fun _ : Fin M => P) =
      meanA (fun k => ∫ ω, X k ω ^ 2 ∂P) - meanA (fun k => ∫ ω, X k ω ∂P) ^ 2 := by
  have hM0 : M ≠ 0 := by omega
  have eY : (fun ω => meanA fun k => X k ω) = fun ω => ((L + 1 : ℕ) : ℝ)⁻¹ * ∑ k, X k ω := funext fun ω => by
    simp only [meanA, div_eq_inv_mul]
  have eS : (fun ω => meanA fun k => X k ω ^ 2) = fun ω => ((L + 1 : ℕ) : ℝ)⁻¹ * ∑ k, X k ω ^ 2 := funext fun ω => by
    simp only [meanA, div_eq_inv_mul]
  have hY : MemLp (fun ω => meanA fun k => X k ω) 2 P := eY ▸ (memLp_finsetSum _ fun k _ => hX k).const_mul _
  have hS : Integrable (fun ω => meanA fun k => X k ω ^ 2) P := eS ▸ (integrable_finsetSum _ fun k _ => (hX k).integrable_sq).const_mul _
  have iY : ∫ ω, (meanA fun k => X k ω) ∂P = meanA fun k => ∫ ω, X k ω ∂P := by
    rw [eY, integral_const_mul, integral_finsetSum _ fun k _ => (hX k).integrable (by norm_num), meanA, div_eq_inv_mul]
  have iS : ∫ ω, (meanA fun k => X k ω ^ 2) ∂P = meanA fun k => ∫ ω, X k ω ^ 2 ∂P := by
    rw [eS, integral_const_mul, integral_finsetSum _ fun k _ => (hX k).integrable_sq, meanA, div_eq_inv_mul]
  have h := unbiased_aux hY hS hM
  rw [iY, iS] at h
  have e : (fun c : Fin M → Ω => approx_variance fun k i => X k (c i)) = fun c =>
      (M : ℝ)⁻¹ * ∑ i, ((meanA fun k => X k (c i) ^ 2) - (meanA fun k => X k (c i)) ^ 2) +
      ((M : ℝ) - 1)⁻¹ * (∑ i, (meanA fun k => X k (c i)) ^ 2 -
        (M : ℝ)⁻¹ * ∑ i, ∑ j, (meanA fun k => X k (c i)) * (meanA fun k => X k (c j))) := by
    funext c
    simp only [approx_variance, auto_cov_zero', tfp_variance_eq hM0]
    generalize (fun i : Fin M => meanA fun k => X k (c i)) = y
    rw [show ∀ z : Fin M → ℝ, meanA z = (∑ i, z i) / M from fun _ => rfl]
    simp only [div_eq_inv_mul]
  rw [e]
  exact h

theorem variance_averagedLaw {X : Fin (L + 1) → Ω → ℝ} (hX : ∀ k, MemLp (X k) 2 P) :
    Var[id; averagedLaw fun k => P.map (X k)] = meanA (fun k => ∫ ω, X k ω ^ 2 ∂P) - meanA (fun k => ∫ ω, X k ω ∂P) ^ 2 := by
  have hL : ((L + 1 : ℕ) : ENNReal) ≠ 0 := Nat.cast_ne_zero.mpr (Nat.succ_ne_zero L)
  have hm : ∀ k, AEMeasurable (X k) P := fun k => (hX k).1.aemeasurable
  have : IsProbabilityMeasure (averagedLaw fun k => P.map (X k)) := ⟨by
    simp only [averagedLaw, Measure.smul_apply, Measure.finsetSum_apply, smul_eq_mul,
      fun k => Measure.map_apply_of_aemeasurable (hm k) MeasurableSet.univ, Set.preimage_univ, measure_univ, Finset.sum_const,
      Finset.card_univ, Fintype.card_fin, nsmul_eq_mul, mul_one]
    exact ENNReal.inv_mul_cancel hL (ENNReal.natCast_ne_top _)⟩
  have hi : ∀ k, Integrable (fun x : ℝ => x) (P.map (X k)) := fun k =>
    (integrable_map_measure (by fun_prop) (hm k)).mpr ((hX k).integrable (by norm_num))
  have hi2 : ∀ k, Integrable (fun x : ℝ => x ^ 2) (P.map (X k)) := fun k =>
    (integrable_map_measure (by fun_prop) (hm k)).mpr (hX k).integrable_sq
  have hint : ∀ f : ℝ → ℝ, Continuous f → (∀ k, Integrable f (P.map (X k))) →
      ∫ x, f x ∂(averagedLaw fun k => P.map (X k)) = meanA fun k => ∫ ω, f (X k ω) ∂P := fun f hf h => by
    rw [averagedLaw, integral_smul_measure, integral_finsetSum_measure fun k _ => h k, meanA, div_eq_inv_mul]
    simp only [fun k => integral_map (hm k) (f := f) hf.aestronglyMeasurable, ENNReal.toReal_inv, ENNReal.toReal_natCast, smul_eq_mul]
  have hL2 : MemLp (id : ℝ → ℝ) 2 (averagedLaw fun k => P.map (X k)) := by
    rw [memLp_two_iff_integrable_sq aestronglyMeasurable_id]
    exact (integrable_finsetSum_measure.mpr fun k _ => hi2 k).smul_measure (by simp)
  rw [variance_eq_sub hL2]
  exact congr_arg₂ _ (hint (fun x => x ^ 2) (by fun_prop) hi2) (congr_arg (· ^ 2) (hint (fun x => x) continuous_id hi))

theorem averagedLaw_const (μ : Measure ℝ) : averagedLaw (fun _ : Fin (L + 1) => μ) = μ := by
  have hL : ((L + 1 : ℕ) : ENNReal) ≠ 0 := Nat.cast_ne_zero.mpr (Nat.succ_ne_zero L)
  rw [averagedLaw, Finset.sum_const, Finset.card_univ, Fintype.card_fin, ← Nat.cast_smul_eq_nsmul ENNReal, smul_smul,
    ENNReal.inv_mul_cancel hL (ENNReal.natCast_ne_top _), one_smul]

end Verif
