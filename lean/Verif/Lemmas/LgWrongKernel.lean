import Verif.Lemmas.LgWrong
import Verif.Lemmas.AlsThree
import Verif.Props.ExpGradients
import Verif.Props.ExpInvariance

/-!
# Particle-aMALA+ on the linear Gaussian model with three times, coordinate by coordinate
-/

open scoped ENNReal
open MeasureTheory ProbabilityTheory Finset

namespace Verif
open Verif.Spec Verif.Model Verif.Props

variable {N d : ℕ} (ys : Fin 3 → Vec d) (sigma δ : ℝ)

/-- Constants of the log-densities. -/
noncomputable def lgK0 (sigma : ℝ) : ℝ := -(Real.log (2 * Real.pi)) / 2 - Real.log (2 * Real.pi * sigma ^ 2) / 2

section
variable (u : Fin 3 → Vec d) (xs : Fin 3 → Fin (N + 1) → Vec d)

theorem lg_norm (x loc : Vec d) : sumNorm x loc sigma =
    ∑ j, (-(Real.log (2 * Real.pi * sigma ^ 2)) / 2 - 1 / sigma ^ 2 * (x j - loc j) ^ 2 / 2) := by
  unfold sumNorm norm_logpdf
  refine sum_congr rfl fun j _ => ?_
  simp only [if_true]
  ring

theorem lg_pot (x y : Vec d) : lg_log_potential x y = ∑ j, (-(Real.log (2 * Real.pi)) / 2 - (y j - x j) ^ 2 / 2) := by
  unfold lg_log_potential sumNorm norm_logpdf
  refine sum_congr rfl fun j _ => ?_
  simp only [if_true, one_pow, mul_one, div_one]
  ring

theorem lg_threeW0 (i : Fin (N + 1)) :
    threeW0 (lgGamma_0 ys sigma) (jaxGrad (lgGamma_0 ys sigma)) (fun _ => δ) (fun _ => δ) u xs i =
      ∑ j, (lgW0 (1 / sigma ^ 2) δ (fun t => ys t j) (fun t => u t j) (xs 0 i j) + lgK0 sigma) := by
  unfold threeW0 alsG0Tilde alsGamma0Tilde alsCorrection alsMean sumSq
  rw [(C91_lg_gradients ys sigma 0 (xs 0 i) 0).1, lgGamma_0, lg_pot, lg_norm]
  simp only [neg_div, sum_div, ← sum_neg_distrib, ← sum_sub_distrib, ← sum_add_distrib]
  refine sum_congr rfl fun j _ => ?_
  simp only [lgW0, lgK0, Pi.sub_apply, Pi.smul_apply, Pi.zero_apply, smul_eq_mul]
  ring

theorem lg_threeG1 (p q : Vec d) :
    threeG1 (jaxGrad (lgGamma_0 ys sigma)) (lgGamma_t sigma) (fun x' x y => jaxGrad (fun x' => lgGamma_t sigma x' x y) x')
      (fun x' x y => jaxGrad (fun x => lgGamma_t sigma x' x y) x) (tailA ys) (fun _ => δ) (fun _ => δ) u p q =
      ∑ j, (lgG1 (1 / sigma ^ 2) δ (fun t => ys t j) (fun t => u t j) (p j) (q j) + lgK0 sigma) := by
  unfold threeG1 alsGamma1Tilde alsCorrection alsMean sumSq
  simp only
  rw [(C91_lg_gradients ys sigma 0 p 0).1, (C91_lg_gradients ys sigma p q _).2.1, (C91_lg_gradients ys sigma p q _).2.2,
    lgGamma_t, lg_pot, lg_norm]
  simp only [neg_div, sum_div, ← sum_neg_distrib, ← sum_sub_distrib, ← sum_add_distrib]
  refine sum_congr rfl fun j _ => ?_
  simp only [lgG1, lgK0, Pi.sub_apply, Pi.smul_apply, Pi.add_apply, smul_eq_mul]
  rw [show tailA ys 0 j = ys 1 j from rfl]
  ring

theorem lg_threeGt (o p q : Vec d) :
    threeGt (lgGamma_t sigma) (fun x' x y => jaxGrad (fun x' => lgGamma_t sigma x' x y) x')
      (fun x' x y => jaxGrad (fun x => lgGamma_t sigma x' x y) x) (tailA ys) (fun _ => δ) (fun _ => δ) u o p q =
      ∑ j, (lgG2 (1 / sigma ^ 2) δ (fun t => ys t j) (fun t => u t j) (o j) (p j) (q j) + lgK0 sigma) := by
  unfold threeGt alsGammatTilde alsCorrection alsMean sumSq
  simp only
  rw [(C91_lg_gradients ys sigma p q _).2.1, (C91_lg_gradients ys sigma p q _).2.2, (C91_lg_gradients ys sigma o p _).2.1,
    lgGamma_t, lg_pot, lg_norm]
  simp only [neg_div, sum_div, ← sum_neg_distrib, ← sum_sub_distrib, ← sum_add_distrib]
  refine sum_congr rfl fun j _ => ?_
  simp only [lgG2, lgK0, Pi.sub_apply, Pi.smul_apply, Pi.add_apply, smul_eq_mul]
  rw [show tailA ys 0 j = ys 1 j from rfl, show tailA ys 1 j = ys 2 j from rfl]
  ring

theorem lg_threeW1 (A0 : Fin (N + 1) → Fin (N + 1)) (i : Fin (N + 1)) :
    threeW1 (jaxGrad (lgGamma_0 ys sigma)) (lgGamma_t sigma) (fun x' x y => jaxGrad (fun x' => lgGamma_t sigma x' x y) x')
      (fun x' x y => jaxGrad (fun x => lgGamma_t sigma x' x y) x) (tailA ys) (fun _ => δ) (fun _ => δ) u xs A0 i =
      ∑ j, (lgW1 (1 / sigma ^ 2) δ (fun t => ys t j) (fun t => u t j) (xs 0 (A0 i) j) (xs 1 i j) + lgK0 sigma) := by
  have h := lg_threeG1 ys sigma δ u (xs 0 (A0 i)) (xs 1 i)
  unfold threeG1 at h
  unfold threeW1 alsG1Tilde
  simp only at h ⊢
  rw [h]
  unfold sumSq
  simp only [neg_div, sum_div, sub_neg_eq_add, ← sum_add_distrib]
  refine sum_congr rfl fun j _ => ?_
  rw [lgW1]
  ring

theorem lg_threeW2 (A0 A1 : Fin (N + 1) → Fin (N + 1)) (i : Fin (N + 1)) :
    threeW2 (lgGamma_t sigma) (fun x' x y => jaxGrad (fun x' => lgGamma_t sigma x' x y) x')
      (fun x' x y => jaxGrad (fun x => lgGamma_t sigma x' x y) x) (tailA ys) (fun _ => δ) (fun _ => δ) u xs A0 A1 i =
      ∑ j, (lgW2 (1 / sigma ^ 2) δ (fun t => ys t j) (fun t => u t j) (xs 0 (A0 (A1 i)) j) (xs 1 (A1 i) j) (xs 2 i j) +
        lgK0 sigma) := by
  have h := lg_threeGt ys sigma δ u (xs 0 (A0 (A1 i))) (xs 1 (A1 i)) (xs 2 i)
  unfold threeGt at h
  unfold threeW2 alsGtTilde
  simp only at h ⊢
  rw [h]
  unfold sumSq
  simp only [neg_div, sum_div, sub_neg_eq_add, ← sum_add_distrib]
  refine sum_congr rfl fun j _ => ?_
  rw [lgW2]
  ring

end

/-! ## The noise -/

section
variable (x e : Fin 3 → Vec d) (η : Fin 3 → Fin (N + 1) → Vec d)

/-- One coordinate. -/
def lgCoord (j : Fin d) : LgS N := (fun t => ys t j, fun t => x t j, fun t => e t j, fun t i => η t i j)

/-- The auxiliary variables of the code. -/
noncomputable def lgAux : Fin 3 → Vec d := fun t j =>
  x t j + 0.5 * δ * fullGrad (jaxGrad (lgGamma_0 ys sigma)) (fun x' x y => jaxGrad (fun x' => lgGamma_t sigma x' x y) x')
    (fun x' x y => jaxGrad (fun x => lgGamma_t sigma x' x y) x) (tailA ys) x t j + auxStd (fun _ : Fin 3 => δ) t * e t j

/-- The particles of the code. -/
noncomputable def lgPart : Fin 3 → Fin (N + 1) → Vec d :=
  auxParticles (lgAux ys sigma δ x e) (auxStd fun _ : Fin 3 => δ) η (fun _ => 0) x

theorem lgAux_eq (t : Fin 3) (j : Fin d) : lgAux ys sigma δ x e t j = lsU (1 / sigma ^ 2) δ (lgCoord ys x e η j) t := by
  have hs : auxStd (fun _ : Fin 3 => δ) t = √(0.5 * δ) := rfl
  rw [lgAux, lsU, hs]
  congr 1
  fin_cases t
  · show x 0 j + 0.5 * δ * (jaxGrad (lgGamma_0 ys sigma) (x 0) j +
      jaxGrad (fun x' => lgGamma_t sigma x' (x 1) (ys 1)) (x 0) j) = _
    rw [(C91_lg_gradients ys sigma 0 (x 0) 0).1, (C91_lg_gradients ys sigma (x 0) (x 1) (ys 1)).2.2]
    simp only [lgMean, lgCoord, Pi.sub_apply, Pi.smul_apply, smul_eq_mul]
    show _ = x 0 j + δ / 2 * ((ys 0 j - x 0 j - 1 / sigma ^ 2 * x 0 j) + 1 / sigma ^ 2 * (x 1 j - x 0 j))
    ring
  · show x 1 j + 0.5 * δ * (jaxGrad (fun z => lgGamma_t sigma (x 0) z (ys 1)) (x 1) j +
      jaxGrad (fun x' => lgGamma_t sigma x' (x 2) (ys 2)) (x 1) j) = _
    rw [(C91_lg_gradients ys sigma (x 0) (x 1) (ys 1)).2.1, (C91_lg_gradients ys sigma (x 1) (x 2) (ys 2)).2.2]
    simp only [lgMean, lgCoord, Pi.sub_apply, Pi.smul_apply, smul_eq_mul]
    show _ = x 1 j + δ / 2 * ((ys 1 j - x 1 j - 1 / sigma ^ 2 * (x 1 j - x 0 j)) + 1 / sigma ^ 2 * (x 2 j - x 1 j))
    ring
  · show x 2 j + 0.5 * δ * (jaxGrad (fun z => lgGamma_t sigma (x 1) z (ys 2)) (x 2) j + 0) = _
    rw [(C91_lg_gradients ys sigma (x 1) (x 2) (ys 2)).2.1]
    simp only [lgMean, lgCoord, Pi.sub_apply, Pi.smul_apply, smul_eq_mul]
    show _ = x 2 j + δ / 2 * (ys 2 j - x 2 j - 1 / sigma ^ 2 * (x 2 j - x 1 j))
    ring

theorem lgPart_eq (t : Fin 3) (i : Fin (N + 1)) (j : Fin d) :
    lgPart ys sigma δ x e η t i j = lsP (1 / sigma ^ 2) δ (lgCoord ys x e η j) t i := by
  rw [lsP, ← lgAux_eq]
  unfold lgPart auxParticles atSet
  by_cases h : i = 0
  · subst h
    rw [Function.update_self, if_pos rfl]
    rfl
  · rw [Function.update_of_ne h, if_neg h]
    rfl

/-! ## Densities -/

theorem lg_target_eq (hs : 0 < sigma) : lgTarget sigma ys x =
    ∑ j, (lgLog (1 / sigma ^ 2) (fun t => ys t j) (fun t => x t j) + 3 * lgK0 sigma) := by
  rw [← lgTarget_gamma ys hs, pathLogDensity, Fin.sum_univ_two]
  show lgGamma_0 ys sigma (x 0) + (lgGamma_t sigma (x 0) (x 1) (ys 1) + lgGamma_t sigma (x 1) (x 2) (ys 2)) = _
  unfold lgGamma_0 lgGamma_t
  simp only [lg_pot, lg_norm, ← sum_add_distrib]
  refine sum_congr rfl fun j _ => ?_
  simp only [lgLog, lgK0, Pi.zero_apply]
  ring

theorem std_eq (z : Vec d) : stdLogpdf z = ∑ j, (-(z j ^ 2 / 2) - 1 / 2 * Real.log (2 * Real.pi)) := by
  simp only [stdLogpdf, dotProduct, sum_sub_distrib, sum_const, card_univ, Fintype.card_fin, nsmul_eq_mul, sum_neg_distrib,
    neg_div, sum_div, sq]
  ring

/-- The constant of the density of the noise. -/
noncomputable def lgKn (N d : ℕ) : ℝ := -(d * ((3 + 3 * (N + 1)) * (1 / 2 * Real.log (2 * Real.pi))))

theorem lg_density_eq (hs : 0 < sigma) (k : Fin (N + 1)) (x' : Fin 3 → Vec d)
    (hx' : ∀ j, (fun t => x' t j) = lsNew (1 / sigma ^ 2) δ k (lgCoord ys x e η j)) :
    lgTarget sigma ys x + ∑ t, stdLogpdf (e t) + ∑ t, ∑ i, stdLogpdf (η t i) =
      lgTarget sigma ys x' + ∑ j, lsQ (1 / sigma ^ 2) δ k (lgCoord ys x e η j) + lgKn N d := by
  simp only [lg_target_eq ys sigma _ hs, hx', std_eq]
  have e1 : ∑ t, ∑ j, (-(e t j ^ 2 / 2) - 1 / 2 * Real.log (2 * Real.pi)) =
      ∑ j, (-∑ t, e t j ^ 2 / 2 - 3 * (1 / 2 * Real.log (2 * Real.pi))) := by
    rw [sum_comm]
    refine sum_congr rfl fun j _ => ?_
    simp only [sum_sub_distrib, sum_neg_distrib, sum_const, card_univ, Fintype.card_fin, nsmul_eq_mul]
    push_cast
    ring
  have e2 : ∑ t, ∑ i, ∑ j, (-(η t i j ^ 2 / 2) - 1 / 2 * Real.log (2 * Real.pi)) =
      ∑ j, (-∑ t, ∑ i, η t i j ^ 2 / 2 - 3 * (N + 1) * (1 / 2 * Real.log (2 * Real.pi))) := by
    have h1 : ∀ t, ∑ i, ∑ j, (-(η t i j ^ 2 / 2) - 1 / 2 * Real.log (2 * Real.pi)) =
        ∑ j, ∑ i, (-(η t i j ^ 2 / 2) - 1 / 2 * Real.log (2 * Real.pi)) := fun t => sum_comm
    simp only [h1]
    rw [sum_comm]
    refine sum_congr rfl fun j _ => ?_
    simp only [sum_sub_distrib, sum_neg_distrib, sum_const, card_univ, Fintype.card_fin, nsmul_eq_mul]
    push_cast
    ring
  have e3 : lgKn N d = ∑ j : Fin d, -((3 + 3 * (N + 1)) * (1 / 2 * Real.log (2 * Real.pi))) := by
    simp only [lgKn, sum_const, card_univ, Fintype.card_fin, nsmul_eq_mul]
    ring
  rw [e1, e2, e3, ← sum_add_distrib, ← sum_add_distrib, ← sum_add_distrib, ← sum_add_distrib]
  refine sum_congr rfl fun j _ => ?_
  simp only [lsQ, lgCoord]
  ring

end
end Verif
