import Verif.Lemmas.Marginal
import Verif.Spec.Marginal
import Mathlib.Analysis.Matrix.Order

/-!
# The marginal density of the other particles is jointly Gaussian
-/

open scoped ENNReal
open MeasureTheory ProbabilityTheory

namespace Verif
open Verif.Spec Verif.Model Matrix Kronecker

variable {N d : ℕ}

/-- Sums over stacked vectors. -/
theorem sum_stack {β : Type} [AddCommMonoid β] (f : Fin (N * d) → β) :
    ∑ k, f k = ∑ m : Fin N, ∑ j : Fin d, f (finProdFinEquiv (m, j)) := by
  rw [← Fintype.sum_prod_type' (f := fun m j => f (finProdFinEquiv (m, j))), ← finProdFinEquiv.sum_comp]

theorem stack_apply (x : Fin N → Vec d) (m : Fin N) (j : Fin d) : stack x (finProdFinEquiv (m, j)) = x m j := by
  simp [stack]

theorem stack_dot (x y : Fin N → Vec d) : stack x ⬝ᵥ stack y = ∑ m, x m ⬝ᵥ y m := by
  rw [dotProduct, sum_stack]
  simp only [stack_apply]
  rfl

/-- Noise covariance `I ⊗ C`. -/
noncomputable def stackR (N : ℕ) (C : Mat d d) : Mat (N * d) (N * d) :=
  reindex finProdFinEquiv finProdFinEquiv ((1 : Mat N N) ⊗ₖ C)

/-- Copies of `B`. -/
def stackH (N : ℕ) (B : Mat d d) : Mat (N * d) d := Matrix.of fun k j => B (finProdFinEquiv.symm k).2 j

theorem stackR_apply (C : Mat d d) (p q : Fin N × Fin d) :
    stackR N C (finProdFinEquiv p) (finProdFinEquiv q) = (if p.1 = q.1 then 1 else 0) * C p.2 q.2 := by
  simp [stackR, kroneckerMap_apply, one_apply]

theorem stackR_mulVec (C : Mat d d) (x : Fin N → Vec d) : stackR N C *ᵥ stack x = stack fun m => C *ᵥ x m := by
  funext k
  obtain ⟨p, rfl⟩ := finProdFinEquiv.surjective k
  rw [mulVec, dotProduct, sum_stack]
  simp only [stackR_apply, stack_apply]
  rw [Finset.sum_eq_single p.1]
  · simp [stack, mulVec, dotProduct]
  · intro b _ hb
    simp [Ne.symm hb]
  · simp

theorem stackH_mulVec (B : Mat d d) (u : Vec d) : stackH N B *ᵥ u = stack fun _ => B *ᵥ u := rfl

theorem stackR_posDef {C : Mat d d} (hC : C.PosDef) : (stackR N C).PosDef := by
  have h := PosDef.kronecker (PosDef.one (n := Fin N) (R := ℝ)) hC
  rw [stackR, reindex_apply]
  exact h.submatrix finProdFinEquiv.symm.injective

theorem stackR_inv {C : Mat d d} : (stackR N C)⁻¹ = stackR N C⁻¹ := by
  rw [stackR, stackR, inv_reindex, inv_kronecker, inv_one]

theorem stackR_det (C : Mat d d) : (stackR N C).det = C.det ^ N := by
  rw [stackR, det_reindex_self, det_kronecker]
  simp

theorem stackR_logpdf (C : Mat d d) (c y : Fin N → Vec d) :
    normalLogpdf (stack c) (stackR N C) (stack y) = ∑ m, normalLogpdf (c m) C (y m) := by
  have e : stack y - stack c = stack fun m => y m - c m := rfl
  rw [normalLogpdf, stackR_inv, e, stackR_mulVec, stack_dot, stackR_det, Real.log_pow]
  simp only [normalLogpdf, Finset.sum_sub_distrib, ← Finset.sum_div, Finset.sum_neg_distrib, Finset.sum_const,
    Finset.card_univ, Fintype.card_fin, nsmul_eq_mul]
  push_cast
  ring

theorem stackCov_eq (B C E : Mat d d) : stackCov N B C E = stackR N C + stackH N B * E * (stackH N B)ᵀ := by
  ext k l
  obtain ⟨p, rfl⟩ := finProdFinEquiv.surjective k
  obtain ⟨q, rfl⟩ := finProdFinEquiv.surjective l
  rw [Matrix.add_apply, stackR_apply]
  have : (stackH N B * E * (stackH N B)ᵀ) (finProdFinEquiv p) (finProdFinEquiv q) = (B * E * Bᵀ) p.2 q.2 := by
    simp only [Matrix.mul_apply, stackH, Matrix.of_apply, Matrix.transpose_apply, Equiv.symm_apply_apply]
  rw [this]
  simp [stackCov, kroneckerMap_apply, one_apply]

/-- Drawing the auxiliary variable and then the other particles around it. -/
theorem others_integral {C E : Mat d d} (hC : C.PosDef) (hE : E.PosDef) (B : Mat d d) (c y : Fin N → Vec d) (v : Vec d) :
    ∫⁻ u, ENNReal.ofReal (Real.exp (normalLogpdf v E u + ∑ m, normalLogpdf (c m + B *ᵥ u) C (y m))) =
      ENNReal.ofReal (Real.exp (normalLogpdf (stack fun m => c m + B *ᵥ v) (stackCov N B C E) (stack y))) := by
  have hR := stackR_posDef (N := N) hC
  have e : ∀ u, stackH N B *ᵥ u + stack c = stack fun m => c m + B *ᵥ u := fun u => by
    rw [stackH_mulVec]
    funext k
    exact add_comm _ _
  have h1 : ∀ u, normalLogpdf v E u + ∑ m, normalLogpdf (c m + B *ᵥ u) C (y m) = _ := fun u => by
    rw [← stackR_logpdf C, ← e, normal_bayes hE hR (stackH N B) v u (stack c) (stack y), e, ← stackCov_eq]
  simp only [h1, ofReal_exp_add]
  rw [lintegral_const_mul _ (measurable_expR (measurable_normalLogpdf' _ _)), normalLogpdf_norm, mul_one]
  rw [stackCov_eq]
  exact post_cov_posDef hE hR (stackH N B)

/-- `get_log_H` is the log-density of the other particles up to a constant that does not depend on the particle. -/
theorem others_log_H {C E : Mat d d} (hC : C.PosDef) (hE : E.PosDef) (B : Mat d d) (xs ds : Fin (N + 1) → Vec d)
    (i : Fin (N + 1)) (phi : Vec d) :
    othersLogpdf xs ds B C E i phi = margConst C E B xs ds + get_log_H xs ds B C⁻¹ E (xs i) (ds i) phi := by
  have h := marg_integral hC hE B xs ds i phi
  have e : ∀ u, normalLogpdf (xs i + phi) E u + ∑ k, normalLogpdf (ds k + B *ᵥ u) C (xs k) -
      normalLogpdf (ds i + B *ᵥ u) C (xs i) = normalLogpdf (xs i + phi) E u +
        ∑ m, normalLogpdf (ds (i.succAbove m) + B *ᵥ u) C (xs (i.succAbove m)) := fun u => by
    rw [Fin.sum_univ_succAbove _ i]
    ring
  simp only [e] at h
  rw [others_integral hC hE B (fun m => ds (i.succAbove m)) (fun m => xs (i.succAbove m)),
    ENNReal.ofReal_eq_ofReal_iff (Real.exp_pos _).le (Real.exp_pos _).le] at h
  exact Real.exp_injective h

end Verif
