import Mathlib.MeasureTheory.Integral.Pi
import Mathlib.MeasureTheory.Integral.Bochner.Set
import Mathlib.MeasureTheory.Integral.Prod

/-!
# Harmonic means of independent weights
-/

open scoped ENNReal
open MeasureTheory Finset

namespace Verif

variable {E : Type} [MeasurableSpace E] {N : ℕ}

/-- A sum of independent copies of `w` that is almost surely constant forces `w` to be almost surely constant. -/
theorem ae_const_of_sum (μ : Measure E) [IsProbabilityMeasure μ] {w : E → ℝ} {c : ℝ}
    (h : ∀ᵐ y ∂(Measure.pi fun _ : Fin (N + 1) => μ), ∑ i, w (y i) = c) : ∃ a, ∀ᵐ x ∂μ, w x = a := by
  have hmp := (measurePreserving_piFinSuccAbove (fun _ : Fin (N + 1) => μ) 0).symm
  have h1 := hmp.quasiMeasurePreserving.ae h
  have hsw := (Measure.measurePreserving_swap (μ := Measure.pi fun j : Fin N => μ) (ν := μ)).quasiMeasurePreserving.ae h1
  have h3 := Measure.ae_ae_of_ae_prod hsw
  obtain ⟨y, hy⟩ := h3.exists
  refine ⟨c - ∑ i, w (y i), ?_⟩
  filter_upwards [hy] with x hx
  have : ∑ i, w ((Fin.insertNth (α := fun _ : Fin (N + 1) => E) 0 x y) i) = c := hx
  rw [Fin.sum_univ_succ] at this
  simp only [Fin.insertNth_zero', Fin.cons_zero, Fin.cons_succ] at this
  linarith

/-- Strict form of `E[1/S] ≥ 1/E[S]` for the mean `S` of independent copies of a weight that is not almost surely
constant. -/
theorem jensen_strict (μ : Measure E) [IsProbabilityMeasure μ] {w : E → ℝ} (hw : Measurable w) {a b : ℝ} (ha : 0 < a)
    (h : ∀ x, a ≤ w x ∧ w x ≤ b) (hc : ¬ ∃ c, ∀ᵐ x ∂μ, w x = c) :
    1 < (∫⁻ x, ENNReal.ofReal (w x) ∂μ) *
      ∫⁻ y, ENNReal.ofReal (((N : ℝ) + 1) / ∑ i, w (y i)) ∂(Measure.pi fun _ : Fin (N + 1) => μ) := by
  obtain ⟨ν, hν⟩ : ∃ ν, ν = Measure.pi fun _ : Fin (N + 1) => μ := ⟨_, rfl⟩
  have : IsProbabilityMeasure ν := by rw [hν]; infer_instance
  have hp : ∀ x, 0 < w x := fun x => ha.trans_le (h x).1
  have hN : (0 : ℝ) < (N : ℝ) + 1 := by positivity
  have hsum : ∀ y : Fin (N + 1) → E, ((N : ℝ) + 1) * a ≤ ∑ i, w (y i) := fun y => by
    have := card_nsmul_le_sum univ (fun i => w (y i)) a fun i _ => (h (y i)).1
    simpa [nsmul_eq_mul] using this
  have hsum' : ∀ y : Fin (N + 1) → E, ∑ i, w (y i) ≤ ((N : ℝ) + 1) * b := fun y => by
    have := sum_le_card_nsmul univ (fun i => w (y i)) b fun i _ => (h (y i)).2
    simpa [nsmul_eq_mul] using this
  have hSp : ∀ y : Fin (N + 1) → E, 0 < ∑ i, w (y i) := fun y => (mul_pos hN ha).trans_le (hsum y)
  have hSm : Measurable fun y : Fin (N + 1) → E => ∑ i, w (y i) :=
    Finset.measurable_fun_sum _ fun i _ => hw.comp (measurable_pi_apply i)
  have hwi : Integrable w μ := Integrable.of_bound hw.aestronglyMeasurable b
    (Filter.Eventually.of_forall fun x => by rw [Real.norm_of_nonneg (hp x).le]; exact (h x).2)
  have hSi : Integrable (fun y : Fin (N + 1) → E => ∑ i, w (y i)) ν :=
    Integrable.of_bound hSm.aestronglyMeasurable (((N : ℝ) + 1) * b)
      (Filter.Eventually.of_forall fun y => by rw [Real.norm_of_nonneg (hSp y).le]; exact hsum' y)
  have hIi : Integrable (fun y : Fin (N + 1) → E => ((N : ℝ) + 1) / ∑ i, w (y i)) ν :=
    Integrable.of_bound (hSm.const_div _).aestronglyMeasurable (1 / a)
      (Filter.Eventually.of_forall fun y => by
        rw [Real.norm_of_nonneg (div_pos hN (hSp y)).le, div_le_div_iff₀ (hSp y) ha, one_mul]
        exact hsum y)
  obtain ⟨m, hm⟩ : ∃ m, m = ∫ x, w x ∂μ := ⟨_, rfl⟩
  have hma : a ≤ m := by
    have := integral_mono (integrable_const a) hwi fun x => (h x).1
    simpa [hm] using this
  have hmp : 0 < m := ha.trans_le hma
  have hSint : ∫ y, ∑ i, w (y i) ∂ν = ((N : ℝ) + 1) * m := by
    have he : ∀ i : Fin (N + 1), ∫ y, w (y i) ∂ν = m := fun i => by
      rw [hν, hm]
      have hme := measurePreserving_eval (fun _ : Fin (N + 1) => μ) i
      have := integral_map (μ := Measure.pi fun _ : Fin (N + 1) => μ) hme.measurable.aemeasurable
        (f := w) (hme.map_eq ▸ hw.aestronglyMeasurable)
      rw [hme.map_eq] at this
      exact this.symm
    rw [integral_finsetSum _ fun i _ => ?_]
    · simp [he]
    · exact Integrable.of_bound (hw.comp (measurable_pi_apply i)).aestronglyMeasurable b
        (Filter.Eventually.of_forall fun y => by
          show ‖w (y i)‖ ≤ b
          rw [Real.norm_of_nonneg (hp _).le]; exact (h _).2)
  rw [← ofReal_integral_eq_lintegral_ofReal hwi (Filter.Eventually.of_forall fun x => (hp x).le), ← hν,
    ← ofReal_integral_eq_lintegral_ofReal hIi (Filter.Eventually.of_forall fun y => (div_pos hN (hSp y)).le), ← hm,
    ← ENNReal.ofReal_mul hmp.le, ENNReal.one_lt_ofReal]
  by_contra hcon
  push Not at hcon
  have hg : ∀ y : Fin (N + 1) → E, ((N : ℝ) + 1) / ∑ i, w (y i) - 2 / m + (∑ i, w (y i)) / (((N : ℝ) + 1) * m ^ 2) =
      (∑ i, w (y i) - ((N : ℝ) + 1) * m) ^ 2 / (((N : ℝ) + 1) * m ^ 2 * ∑ i, w (y i)) := fun y => by
    have := (hSp y).ne'
    field_simp
    ring
  have hg0 : ∀ y : Fin (N + 1) → E, 0 ≤ ((N : ℝ) + 1) / ∑ i, w (y i) - 2 / m + (∑ i, w (y i)) / (((N : ℝ) + 1) * m ^ 2) :=
    fun y => by
      rw [hg y]
      have := hSp y
      positivity
  have hgi : Integrable (fun y : Fin (N + 1) → E => ((N : ℝ) + 1) / ∑ i, w (y i) - 2 / m +
      (∑ i, w (y i)) / (((N : ℝ) + 1) * m ^ 2)) ν := (hIi.sub (integrable_const _)).add (hSi.div_const _)
  have hint : ∫ y, (((N : ℝ) + 1) / ∑ i, w (y i) - 2 / m + (∑ i, w (y i)) / (((N : ℝ) + 1) * m ^ 2)) ∂ν =
      ∫ y, ((N : ℝ) + 1) / ∑ i, w (y i) ∂ν - 1 / m := by
    have hi : Integrable (fun y : Fin (N + 1) → E => ((N : ℝ) + 1) / ∑ i, w (y i) - 2 / m) ν := hIi.sub (integrable_const _)
    rw [integral_add hi (hSi.div_const _), integral_sub hIi (integrable_const _), integral_const,
      integral_div, hSint]
    simp only [probReal_univ, one_smul]
    field_simp
    ring
  have hz : ∫ y, (((N : ℝ) + 1) / ∑ i, w (y i) - 2 / m + (∑ i, w (y i)) / (((N : ℝ) + 1) * m ^ 2)) ∂ν = 0 := by
    refine le_antisymm ?_ (integral_nonneg hg0)
    rw [hint, sub_nonpos, le_div_iff₀ hmp, mul_comm]
    exact hcon
  have hae := (integral_eq_zero_iff_of_nonneg hg0 hgi).mp hz
  apply hc
  refine ae_const_of_sum (N := N) (c := ((N : ℝ) + 1) * m) μ ?_
  rw [← hν]
  filter_upwards [hae] with y hy
  have hy : ((N : ℝ) + 1) / ∑ i, w (y i) - 2 / m + (∑ i, w (y i)) / (((N : ℝ) + 1) * m ^ 2) = 0 := hy
  rw [hg y, div_eq_zero_iff] at hy
  have := hSp y
  rcases hy with hy | hy
  · exact sub_eq_zero.mp (pow_eq_zero_iff (two_ne_zero) |>.mp hy)
  · exact absurd hy (by positivity)

end Verif
