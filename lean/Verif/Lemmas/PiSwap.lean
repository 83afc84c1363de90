import Mathlib.Probability.ProductMeasure
import Verif.Core.Rand

/-!
# Exchanging the axes of an array of independent draws
-/

namespace Verif
open MeasureTheory ProbabilityTheory
open scoped ENNReal

variable {X ι κ : Type} [MeasurableSpace X] [Fintype ι] [Fintype κ]

theorem pi_curry (μ : Measure X) [IsProbabilityMeasure μ] :
    (Measure.pi fun _ : ι => Measure.pi fun _ : κ => μ) =
      (Measure.pi fun _ : ι × κ => μ).map (fun e i j => e (i, j)) := by
  have h := Measure.infinitePi_map_curry (ι := ι) (κ := κ) (X := X) (fun _ _ => μ)
  simp only [Measure.infinitePi_eq_pi] at h
  rw [← h]
  rfl

theorem pi_reindex (e : κ ≃ ι) (μ : Measure X) [IsProbabilityMeasure μ] :
    (Measure.pi fun _ : ι => μ).map (fun x k => x (e k)) = Measure.pi fun _ : κ => μ := by
  have h := (measurePreserving_piCongrLeft (fun _ : ι => μ) e).symm
  exact h.map_eq

theorem pi_swap (μ : Measure X) [IsProbabilityMeasure μ] :
    (Measure.pi fun _ : ι => Measure.pi fun _ : κ => μ).map (fun e j i => e i j) =
      Measure.pi fun _ : κ => Measure.pi fun _ : ι => μ := by
  rw [pi_curry, pi_curry, ← pi_reindex (Equiv.prodComm κ ι) μ, Measure.map_map (by fun_prop) (by fun_prop),
    Measure.map_map (by fun_prop) (by fun_prop)]
  rfl

/-- An array of shape `(l, k, N)` of independent draws read as `N` arrays of shape `(l, k)`. -/
theorem pi_swap3 {ν : Type} [Fintype ν] (μ : Measure X) [IsProbabilityMeasure μ] :
    (Measure.pi fun _ : ι => Measure.pi fun _ : κ => Measure.pi fun _ : ν => μ).map (fun e i t j => e t j i) =
      Measure.pi fun _ : ν => Measure.pi fun _ : ι => Measure.pi fun _ : κ => μ := by
  have h1 := pi_swap (ι := ι) (κ := ν) (Measure.pi fun _ : κ => μ)
  have h2 := Measure.pi_map_pi (μ := fun _ : ι => Measure.pi fun _ : κ => Measure.pi fun _ : ν => μ)
    (f := fun _ e i j => e j i) (fun _ => (by fun_prop : Measurable fun (e : κ → ν → X) i j => e j i).aemeasurable)
  simp only [pi_swap] at h2
  rw [← h1, ← h2, Measure.map_map (by fun_prop) (by fun_prop)]
  rfl

end Verif
