import Verif.Core.KerSem

/-!
# Product measures on `Fin n → X`
-/

open scoped ENNReal
open MeasureTheory

namespace Verif

variable {X : Type} [MeasurableSpace X] {n : ℕ}

theorem measurable_insertNth (i : Fin (n + 1)) :
    Measurable (fun p : X × (Fin n → X) => (i.insertNth (α := fun _ => X) p.1 p.2 : Fin (n + 1) → X)) :=
  (MeasurableEquiv.piFinSuccAbove (fun _ : Fin (n + 1) => X) i).symm.measurable

/-- Integrating one coordinate first. -/
theorem lintegral_pi_insertNth (μ : Fin (n + 1) → Measure X) [∀ i, SigmaFinite (μ i)]
    (i : Fin (n + 1)) (F : (Fin (n + 1) → X) → ℝ≥0∞) (hF : Measurable F) :
    ∫⁻ x, F x ∂Measure.pi μ =
      ∫⁻ x', ∫⁻ xi, F (i.insertNth (α := fun _ => X) xi x') ∂μ i
        ∂Measure.pi fun j => μ (i.succAbove j) := by
  have h := (measurePreserving_piFinSuccAbove μ i).symm
  have h2 : Measurable fun p : X × (Fin n → X) =>
      F (i.insertNth (α := fun _ => X) p.1 p.2) := hF.comp (measurable_insertNth i)
  rw [← h.lintegral_comp hF]
  exact lintegral_prod_symm _ h2.aemeasurable

omit [MeasurableSpace X] in
theorem insertNth_last_eq_snocA (xi : X) (x' : Fin n → X) :
    ((Fin.last n).insertNth (α := fun _ => X) xi x' : Fin (n + 1) → X) = snocA x' xi := by
  rw [Fin.insertNth_last']
  rfl

/-- Integrating the last coordinate first. -/
theorem lintegral_pi_snoc (μ : Fin (n + 1) → Measure X) [∀ i, SigmaFinite (μ i)]
    (F : (Fin (n + 1) → X) → ℝ≥0∞) (hF : Measurable F) :
    ∫⁻ x, F x ∂Measure.pi μ =
      ∫⁻ x', ∫⁻ xl, F (snocA x' xl) ∂μ (Fin.last n) ∂Measure.pi (initA μ) := by
  rw [lintegral_pi_insertNth μ (Fin.last n) F hF]
  simp only [insertNth_last_eq_snocA, Fin.succAbove_last]
  rfl

/-- Resampling one coordinate of a product of probability measures. -/
theorem lintegral_pi_update (μ : Fin (n + 1) → Measure X) [∀ i, IsProbabilityMeasure (μ i)]
    (i : Fin (n + 1)) (F : (Fin (n + 1) → X) → ℝ≥0∞) (hF : Measurable F) :
    ∫⁻ x, F x ∂Measure.pi μ = ∫⁻ xi, ∫⁻ x, F (atSet x i xi) ∂Measure.pi μ ∂μ i := by
  have h1 : ∀ xi, ∫⁻ x, F (atSet x i xi) ∂Measure.pi μ =
      ∫⁻ x', F (i.insertNth (α := fun _ => X) xi x') ∂Measure.pi fun j => μ (i.succAbove j) := by
    intro xi
    have hm : Measurable fun x : Fin (n + 1) → X => F (atSet x i xi) := by fun_prop
    rw [lintegral_pi_insertNth μ i _ hm]
    refine lintegral_congr fun x' => ?_
    have : ∀ z : X, atSet (i.insertNth (α := fun _ => X) z x' : Fin (n + 1) → X) i xi =
        (i.insertNth (α := fun _ => X) xi x' : Fin (n + 1) → X) := by
      intro z
      simp [atSet, Fin.update_insertNth]
    simp only [this, lintegral_const, measure_univ, mul_one]
  simp only [h1]
  rw [lintegral_pi_insertNth μ i F hF]
  refine lintegral_lintegral_swap ?_
  exact (hF.comp ((measurable_insertNth i).comp measurable_swap)).aemeasurable

theorem lintegral_pi_fin_one (μ : Fin 1 → Measure X) [∀ i, SigmaFinite (μ i)]
    (F : (Fin 1 → X) → ℝ≥0∞) (hF : Measurable F) :
    ∫⁻ x, F x ∂Measure.pi μ = ∫⁻ x, F (fun _ => x) ∂μ 0 := by
  rw [lintegral_pi_insertNth μ 0 F hF]
  have : (Measure.pi fun j : Fin 0 => μ ((0 : Fin 1).succAbove j)) = Measure.dirac (fun a => a.elim0) :=
    Measure.pi_of_empty _
  rw [this, lintegral_dirac]
  refine lintegral_congr fun x => ?_
  congr 1
  funext j
  rw [Fin.fin_one_eq_zero j]
  simp

end Verif
