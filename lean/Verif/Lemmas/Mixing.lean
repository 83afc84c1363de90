import Mathlib.Probability.Kernel.RadonNikodym
import Mathlib.Probability.Kernel.Invariance
import Mathlib.MeasureTheory.Measure.WithDensityFinite
import Verif.Spec.Near

/-!
# Kernels that reach everything forget where they started

`κ` is a Markov kernel, `π` an invariant probability measure and every `κ x` charges every set that `π` charges. Then the law of the
state after `n` steps tends to `π` in total variation from every start with a density, and from almost every fixed state.
-/

open scoped ENNReal
open MeasureTheory ProbabilityTheory

namespace Verif
open Verif.Spec

variable {X : Type} [MeasurableSpace X]

/-- The law after `n` steps. -/
noncomputable def pushN (κ : Kernel X X) (ν : Measure X) : ℕ → Measure X
  | 0 => ν
  | n + 1 => (pushN κ ν n).bind κ

theorem pushN_add (κ : Kernel X X) (ν : Measure X) (m n : ℕ) : pushN κ ν (m + n) = pushN κ (pushN κ ν m) n := by
  induction n with
  | zero => rfl
  | succ n ih =>
    show (pushN κ ν (m + n)).bind κ = (pushN κ (pushN κ ν m) n).bind κ
    rw [ih]

theorem lintegral_bindK (κ : Kernel X X) (ν : Measure X) {f : X → ℝ≥0∞} (hf : Measurable f) :
    ∫⁻ y, f y ∂(ν.bind κ) = ∫⁻ x, ∫⁻ y, f y ∂κ x ∂ν :=
  Measure.lintegral_bind κ.measurable.aemeasurable hf.aemeasurable

theorem pushN_inv {κ : Kernel X X} {π : Measure X} (h : π.bind κ = π) (n : ℕ) : pushN κ π n = π := by
  induction n with
  | zero => rfl
  | succ n ih => show (pushN κ π n).bind κ = π; rw [ih, h]

instance pushN_prob (κ : Kernel X X) [IsMarkovKernel κ] (ν : Measure X) [IsProbabilityMeasure ν] (n : ℕ) : IsProbabilityMeasure (pushN κ ν n) := by
  induction n with
  | zero => assumption
  | succ n ih =>
    refine ⟨?_⟩
    show (pushN κ ν n).bind κ Set.univ = 1
    rw [Measure.bind_apply MeasurableSet.univ κ.measurable.aemeasurable]
    simp

/-- Steps do not increase the distance. -/
theorem tvLe_push {κ : Kernel X X} [IsMarkovKernel κ] {μ ν : Measure X} {ε : ℝ≥0∞}
    (h : TVLe ε (fun f => ∫⁻ x, f x ∂μ) (fun f => ∫⁻ x, f x ∂ν)) :
    TVLe ε (fun f => ∫⁻ x, f x ∂(μ.bind κ)) (fun f => ∫⁻ x, f x ∂(ν.bind κ)) := fun f hf h1 => by
  have := h (fun x => ∫⁻ y, f y ∂κ x) (hf.lintegral_kernel) fun x => (lintegral_mono h1).trans (by simp)
  dsimp only at this ⊢
  rwa [lintegral_bindK _ _ hf, lintegral_bindK _ _ hf]

theorem tvLe_pushN {κ : Kernel X X} [IsMarkovKernel κ] {μ ν : Measure X} {ε : ℝ≥0∞}
    (h : TVLe ε (fun f => ∫⁻ x, f x ∂μ) (fun f => ∫⁻ x, f x ∂ν)) (n : ℕ) :
    TVLe ε (fun f => ∫⁻ x, f x ∂(pushN κ μ n)) (fun f => ∫⁻ x, f x ∂(pushN κ ν n)) := by
  induction n with
  | zero => exact h
  | succ n ih => exact tvLe_push ih

/-- Part of each `κ x` has a density with respect to `π`, positive almost everywhere. -/
theorem exists_density [MeasurableSpace.CountablyGenerated X] {κ : Kernel X X} [IsMarkovKernel κ] {π : Measure X} [IsProbabilityMeasure π]
    (hκ : ∀ x, π ≪ κ x) : ∃ (p : X → X → ℝ≥0∞) (κs : Kernel X X), Measurable (Function.uncurry p) ∧ IsFiniteKernel κs ∧
      (∀ x, κ x = π.withDensity (p x) + κs x) ∧ ∀ x, ∀ᵐ y ∂π, p x y ≠ 0 := by
  refine ⟨κ.rnDeriv (Kernel.const X π), κ.singularPart (Kernel.const X π), ?_, inferInstance, fun x => ?_, fun x => ?_⟩
  · exact Kernel.measurable_rnDeriv _ _
  · have := Kernel.rnDeriv_add_singularPart κ (Kernel.const X π)
    conv_lhs => rw [← this]
    rw [add_apply, Kernel.withDensity_apply _ (Kernel.measurable_rnDeriv _ _), Kernel.const_apply]
  · have h1 := Kernel.rnDeriv_eq_rnDeriv_measure (κ := κ) (η := Kernel.const X π) (a := x)
    rw [Kernel.const_apply] at h1
    filter_upwards [h1, Measure.rnDeriv_pos' (hκ x)] with y h2 h3
    rw [h2]
    exact h3.ne'

section gain
variable {κ : Kernel X X} {π : Measure X} [IsProbabilityMeasure π] {p : X → X → ℝ≥0∞} {κs : Kernel X X}

/-- What a start with density `u` puts into `A` in one step, at least. -/
theorem density_gain (hp : Measurable (Function.uncurry p)) (hdec : ∀ x, κ x = π.withDensity (p x) + κs x) {u : X → ℝ≥0∞} (hu : Measurable u)
    {C m : ℝ≥0∞} (hC : ∀ x, u x ≤ C) (hm : ∫⁻ x, u x ∂π = m) (ε : ℝ≥0∞) {A : Set X} (hA : MeasurableSet A) :
    ∫⁻ y in A, ε * (m - C * π {x | p x y < ε}) ∂π ≤ ∫⁻ x, u x * κ x A ∂π := by
  have hp1 : ∀ x, Measurable (p x) := fun x => hp.comp measurable_prodMk_left
  have hp2 : ∀ y, Measurable fun x => p x y := fun y => hp.comp measurable_prodMk_right
  have low : ∀ y, ε * (m - C * π {x | p x y < ε}) ≤ ∫⁻ x, u x * p x y ∂π := fun y => by
    have hs : MeasurableSet {x | p x y < ε} := measurableSet_lt (hp2 y) measurable_const
    have h1 : m - C * π {x | p x y < ε} ≤ ∫⁻ x in {x | p x y < ε}ᶜ, u x ∂π := by
      rw [tsub_le_iff_right, ← hm, ← lintegral_add_compl u hs, add_comm]
      gcongr
      calc ∫⁻ x in {x | p x y < ε}, u x ∂π ≤ ∫⁻ _ in {x | p x y < ε}, C ∂π := lintegral_mono fun x => hC x
        _ = _ := setLIntegral_const _ _
    calc ε * (m - C * π {x | p x y < ε}) ≤ ε * ∫⁻ x in {x | p x y < ε}ᶜ, u x ∂π := by gcongr
      _ = ∫⁻ x in {x | p x y < ε}ᶜ, ε * u x ∂π := (lintegral_const_mul _ hu).symm
      _ ≤ ∫⁻ x in {x | p x y < ε}ᶜ, u x * p x y ∂π := setLIntegral_mono (hu.mul (hp2 y)) fun x hx => by
        rw [mul_comm]
        exact mul_le_mul_right (not_lt.mp fun h => hx h) _
      _ ≤ _ := setLIntegral_le_lintegral _ _
  calc ∫⁻ y in A, ε * (m - C * π {x | p x y < ε}) ∂π ≤ ∫⁻ y in A, ∫⁻ x, u x * p x y ∂π ∂π := lintegral_mono fun y => low y
    _ = ∫⁻ x, ∫⁻ y in A, u x * p x y ∂π ∂π := lintegral_lintegral_swap (f := fun y x => u x * p x y) (by
        have : Measurable fun q : X × X => u q.2 * p q.2 q.1 := (hu.comp measurable_snd).mul (hp.comp measurable_swap)
        exact this.aemeasurable)
    _ = ∫⁻ x, u x * ∫⁻ y in A, p x y ∂π ∂π := lintegral_congr fun x => lintegral_const_mul _ (hp1 x)
    _ ≤ _ := by
      refine lintegral_mono fun x => mul_le_mul_right ?_ _
      rw [hdec x, Measure.add_apply, withDensity_apply _ hA]
      exact le_self_add

/-- One step brings a law with a bounded density closer to the invariant law. -/
theorem step_gain [IsMarkovKernel κ] (hinv : π.bind κ = π) (hp : Measurable (Function.uncurry p))
    (hdec : ∀ x, κ x = π.withDensity (p x) + κs x) {h : X → ℝ≥0∞} (hh : Measurable h) {C m : ℝ≥0∞} (hC1 : 1 ≤ C) (hC : ∀ x, h x ≤ C)
    (h1 : ∫⁻ x, h x ∂π = 1) (hm : ∫⁻ x, (h x - 1) ∂π = m) (ε : ℝ≥0∞) {A : Set X} (hA : MeasurableSet A) :
    (π.withDensity h).bind κ A + ∫⁻ y, ε * (m - C * π {x | p x y < ε}) ∂π ≤ π A + m := by
  have hu : Measurable fun x => h x - 1 := hh.sub_const 1
  have hv : Measurable fun x => 1 - h x := hh.const_sub 1
  have hpw : ∀ x, h x + (1 - h x) = 1 + (h x - 1) := fun x => by
    rcases le_total (h x) 1 with h2 | h2
    · rw [add_tsub_cancel_of_le h2, tsub_eq_zero_of_le h2, add_zero]
    · rw [add_tsub_cancel_of_le h2, tsub_eq_zero_of_le h2, add_zero]
  have hmv : ∫⁻ x, (1 - h x) ∂π = m := by
    have e : ∫⁻ x, (h x + (1 - h x)) ∂π = ∫⁻ x, (1 + (h x - 1)) ∂π := lintegral_congr hpw
    rw [lintegral_add_left hh, lintegral_add_left measurable_const, h1, hm, lintegral_one, measure_univ] at e
    exact (ENNReal.add_right_inj ENNReal.one_ne_top).mp e
  have ha : Measurable fun x => κ x A := κ.measurable_coe hA
  have g1 := density_gain hp hdec hv (fun x => tsub_le_self.trans hC1) hmv ε hA
  have g2 := density_gain hp hdec hu (fun x => tsub_le_self.trans (hC x)) hm ε hA.compl
  have e1 : (π.withDensity h).bind κ A = ∫⁻ x, h x * κ x A ∂π := by
    rw [Measure.bind_apply hA κ.measurable.aemeasurable, lintegral_withDensity_eq_lintegral_mul _ hh ha]
    rfl
  have e2 : ∫⁻ x, κ x A ∂π = π A := by
    conv_rhs => rw [← hinv]
    rw [Measure.bind_apply hA κ.measurable.aemeasurable]
  have e3 : ∫⁻ x, h x * κ x A ∂π + ∫⁻ x, (1 - h x) * κ x A ∂π = π A + ∫⁻ x, (h x - 1) * κ x A ∂π := by
    rw [← e2, ← lintegral_add_left (hh.fun_mul ha), ← lintegral_add_left ha]
    refine lintegral_congr fun x => ?_
    rw [← add_mul, hpw x, add_mul, one_mul]
  have e4 : ∫⁻ x, (h x - 1) * κ x A ∂π + ∫⁻ x, (h x - 1) * κ x Aᶜ ∂π = m := by
    rw [← lintegral_add_left (hu.fun_mul ha), ← hm]
    refine lintegral_congr fun x => ?_
    rw [← mul_add, measure_add_measure_compl hA, measure_univ, mul_one]
  calc (π.withDensity h).bind κ A + ∫⁻ y, ε * (m - C * π {x | p x y < ε}) ∂π
      = ∫⁻ x, h x * κ x A ∂π + (∫⁻ y in A, ε * (m - C * π {x | p x y < ε}) ∂π + ∫⁻ y in Aᶜ, ε * (m - C * π {x | p x y < ε}) ∂π) := by
        rw [e1, lintegral_add_compl _ hA]
    _ ≤ ∫⁻ x, h x * κ x A ∂π + (∫⁻ x, (1 - h x) * κ x A ∂π + ∫⁻ x, (h x - 1) * κ x Aᶜ ∂π) := by gcongr
    _ = π A + m := by rw [← add_assoc, e3, add_assoc, e4]

theorem small_density (hp : Measurable (Function.uncurry p)) (hpos : ∀ x, ∀ᵐ y ∂π, p x y ≠ 0) {c : ℝ≥0∞} (hc : c ≠ 0) :
    ∃ ε : ℝ≥0∞, ε ≠ 0 ∧ ∫⁻ y, π {x | p x y < ε} ∂π ≤ c := by
  have hs : ∀ ε : ℝ≥0∞, MeasurableSet {q : X × X | p q.1 q.2 < ε} := fun ε => measurableSet_lt hp measurable_const
  have e : ∀ ε : ℝ≥0∞, ∫⁻ y, π {x | p x y < ε} ∂π = (π.prod π) {q : X × X | p q.1 q.2 < ε} := fun ε => by
    rw [Measure.prod_apply_symm (hs ε)]; rfl
  have h0 : (π.prod π) (⋂ k : ℕ, {q : X × X | p q.1 q.2 < (k + 1 : ℝ≥0∞)⁻¹}) = 0 := by
    refine measure_mono_null (t := {q : X × X | p q.1 q.2 = 0}) (fun q hq => ?_) ?_
    · simp only [Set.mem_iInter, Set.mem_ofPred_eq] at hq ⊢
      by_contra h
      obtain ⟨k, hk⟩ := ENNReal.exists_inv_nat_lt h
      refine absurd (hq k) (not_lt.mpr (le_trans ?_ hk.le))
      exact ENNReal.inv_le_inv.mpr le_self_add
    · refine (Measure.measure_prod_null (measurableSet_eq_fun hp measurable_const)).mpr ?_
      refine Filter.Eventually.of_forall fun x => ?_
      have := ae_iff.mp (hpos x)
      simpa using this
  have ht := tendsto_measure_iInter_atTop (μ := π.prod π) (s := fun k : ℕ => {q : X × X | p q.1 q.2 < (k + 1 : ℝ≥0∞)⁻¹})
    (fun k => (hs _).nullMeasurableSet) (fun a b hab q hq => lt_of_lt_of_le hq (ENNReal.inv_le_inv.mpr (by gcongr))) ⟨0, measure_ne_top _ _⟩
  rw [h0] at ht
  obtain ⟨k, hk⟩ := (ENNReal.tendsto_nhds_zero.mp ht c (pos_iff_ne_zero.mpr hc)).exists
  exact ⟨(k + 1 : ℝ≥0∞)⁻¹, by simp, (e _).trans_le hk⟩

theorem bdd_density {ν : Measure X} [IsFiniteMeasure ν] {C : ℝ≥0∞} (h : ν ≤ C • π) (hC : C ≠ ∞) :
    ∃ f : X → ℝ≥0∞, Measurable f ∧ (∀ x, f x ≤ C) ∧ ν = π.withDensity f := by
  have hac : ν ≪ π := (Measure.absolutelyContinuous_of_le h).trans Measure.smul_absolutelyContinuous
  have hle : ν.rnDeriv π ≤ᵐ[π] fun _ => C := by
    refine ae_le_of_forall_setLIntegral_le_of_sigmaFinite (Measure.measurable_rnDeriv _ _) fun s hs _ => ?_
    rw [Measure.setLIntegral_rnDeriv hac, setLIntegral_const]
    exact (h s).trans_eq (by simp)
  refine ⟨fun x => min (ν.rnDeriv π x) C, (Measure.measurable_rnDeriv _ _).min measurable_const, fun x => min_le_right _ _, ?_⟩
  conv_lhs => rw [← Measure.withDensity_rnDeriv_eq ν π hac]
  refine withDensity_congr_ae ?_
  filter_upwards [hle] with x hx
  exact (min_eq_left hx).symm

/-- The distance to `π` in terms of the density. -/
theorem dens_dist {h : X → ℝ≥0∞} (hh : Measurable h) {c : ℝ≥0∞} (hc : ∀ A, MeasurableSet A → π.withDensity h A ≤ π A + c) :
    ∫⁻ x, (h x - 1) ∂π ≤ c := by
  have hs : MeasurableSet {x | 1 < h x} := measurableSet_lt measurable_const hh
  have e : ∫⁻ x, (h x - 1) ∂π = ∫⁻ x in {x | 1 < h x}, (h x - 1) ∂π := by
    rw [← lintegral_indicator hs]
    refine lintegral_congr fun x => ?_
    by_cases hx : 1 < h x
    · rw [Set.indicator_of_mem (by exact hx)]
    · rw [Set.indicator_of_notMem (by exact hx), tsub_eq_zero_of_le (not_lt.mp hx)]
  have h2 := hc _ hs
  rw [withDensity_apply _ hs] at h2
  have h3 : ∫⁻ x in {x | 1 < h x}, h x ∂π = π {x | 1 < h x} + ∫⁻ x in {x | 1 < h x}, (h x - 1) ∂π := by
    rw [← setLIntegral_one, ← lintegral_add_left measurable_const]
    exact setLIntegral_congr_fun hs fun x hx => (add_tsub_cancel_of_le (le_of_lt hx)).symm
  rw [h3] at h2
  rw [e]
  exact (ENNReal.add_le_add_iff_left (measure_ne_top _ _)).mp h2

theorem dens_tv {ν : Measure X} [IsProbabilityMeasure ν] {C : ℝ≥0∞} (hν : ν ≤ C • π) (hC : C ≠ ∞) {c : ℝ≥0∞}
    (hc : ∀ A, MeasurableSet A → ν A ≤ π A + c) : TVLe c (fun f => ∫⁻ x, f x ∂ν) (fun f => ∫⁻ x, f x ∂π) := by
  obtain ⟨h, hh, hle, rfl⟩ := bdd_density hν hC
  have hm := dens_dist hh hc
  have h1 : ∫⁻ x, h x ∂π = 1 := by
    have := measure_univ (μ := π.withDensity h)
    rwa [withDensity_apply _ MeasurableSet.univ, Measure.restrict_univ] at this
  have hmv : ∫⁻ x, (1 - h x) ∂π ≤ c := by
    have e : ∫⁻ x, (h x + (1 - h x)) ∂π = ∫⁻ x, (1 + (h x - 1)) ∂π := lintegral_congr fun x => by
      rcases le_total (h x) 1 with h2 | h2 <;> rw [add_tsub_cancel_of_le h2, tsub_eq_zero_of_le h2, add_zero]
    rw [lintegral_add_left hh, lintegral_add_left measurable_const, h1, lintegral_one, measure_univ] at e
    exact ((ENNReal.add_right_inj ENNReal.one_ne_top).mp e).trans_le hm
  intro f hf hf1
  dsimp only
  rw [lintegral_withDensity_eq_lintegral_mul _ hh hf]
  constructor
  · calc ∫⁻ x, (h * f) x ∂π ≤ ∫⁻ x, (f x + (h x - 1)) ∂π := lintegral_mono fun x => by
          calc h x * f x ≤ (1 + (h x - 1)) * f x := by gcongr; exact le_add_tsub
            _ = f x + (h x - 1) * f x := by rw [add_mul, one_mul]
            _ ≤ f x + (h x - 1) * 1 := by gcongr; exact hf1 x
            _ = _ := by rw [mul_one]
      _ = ∫⁻ x, f x ∂π + ∫⁻ x, (h x - 1) ∂π := lintegral_add_left hf _
      _ ≤ _ := by gcongr
  · calc ∫⁻ x, f x ∂π ≤ ∫⁻ x, ((h * f) x + (1 - h x)) ∂π := lintegral_mono fun x => by
          calc f x = 1 * f x := (one_mul _).symm
            _ ≤ (h x + (1 - h x)) * f x := by gcongr; exact le_add_tsub
            _ = h x * f x + (1 - h x) * f x := add_mul _ _ _
            _ ≤ h x * f x + (1 - h x) * 1 := by gcongr; exact hf1 x
            _ = _ := by rw [mul_one]; rfl
      _ = ∫⁻ x, (h * f) x ∂π + ∫⁻ x, (1 - h x) ∂π := lintegral_add_left (hh.mul hf) _
      _ ≤ _ := by gcongr

omit [IsProbabilityMeasure π] in
theorem bind_le_smul {C : ℝ≥0∞} {ν : Measure X} (hinv : π.bind κ = π) (h : ν ≤ C • π) : ν.bind κ ≤ C • π := by
  refine Measure.le_iff.mpr fun A hA => ?_
  rw [Measure.bind_apply hA κ.measurable.aemeasurable]
  calc ∫⁻ x, κ x A ∂ν ≤ ∫⁻ x, κ x A ∂(C • π) := lintegral_mono' h le_rfl
    _ = C • ∫⁻ x, κ x A ∂π := lintegral_smul_measure _ _
    _ = C • π A := by
      conv_rhs => rw [← hinv]
      rw [Measure.bind_apply hA κ.measurable.aemeasurable]
    _ = _ := rfl

/-- Convergence from a start with a bounded density. -/
theorem mix_bounded [MeasurableSpace.CountablyGenerated X] [IsMarkovKernel κ] (hinv : π.bind κ = π) (hκ : ∀ x, π ≪ κ x)
    {ν : Measure X} [IsProbabilityMeasure ν] {C : ℝ≥0∞} (hν : ν ≤ C • π) (hC1 : 1 ≤ C) (hC : C ≠ ∞) {c : ℝ≥0∞} (hc : c ≠ 0) :
    ∃ n0, ∀ n, n0 ≤ n → TVLe c (fun f => ∫⁻ x, f x ∂pushN κ ν n) (fun f => ∫⁻ x, f x ∂π) := by
  by_cases hct : c = ∞
  · exact ⟨0, fun n _ f _ _ => by simp [hct]⟩
  obtain ⟨p, κs, hp, -, hdec, hpos⟩ := exists_density hκ
  have hC0 : C ≠ 0 := (zero_lt_one.trans_le hC1).ne'
  obtain ⟨ε, hε, hq⟩ := small_density hp hpos (c := c / (2 * C)) (ENNReal.div_ne_zero.mpr ⟨hc, ENNReal.mul_ne_top (by norm_num) hC⟩)
  have hle : ∀ n, pushN κ ν n ≤ C • π := fun n => by
    induction n with
    | zero => exact hν
    | succ n ih => exact bind_le_smul hinv ih
  let g := ε * (c / 2)
  have hg : g ≠ 0 := mul_ne_zero hε (ENNReal.div_ne_zero.mpr ⟨hc, by norm_num⟩)
  have hstep : ∀ (μ : Measure X) [IsProbabilityMeasure μ] (M : ℝ≥0∞), μ ≤ C • π → (∀ A, MeasurableSet A → μ A ≤ π A + M) →
      (∀ A, MeasurableSet A → μ A ≤ π A + c) ∨ ∀ A, MeasurableSet A → μ.bind κ A + g ≤ π A + M := fun μ _ M hμ hM => by
    obtain ⟨h, hh, hhC, rfl⟩ := bdd_density hμ hC
    have h1 : ∫⁻ x, h x ∂π = 1 := by
      have := measure_univ (μ := π.withDensity h)
      rwa [withDensity_apply _ MeasurableSet.univ, Measure.restrict_univ] at this
    by_cases hcm : ∫⁻ x, (h x - 1) ∂π ≤ c
    · left
      intro A hA
      rw [withDensity_apply _ hA]
      calc ∫⁻ x in A, h x ∂π ≤ ∫⁻ x in A, (1 + (h x - 1)) ∂π := lintegral_mono fun x => le_add_tsub
        _ = π A + ∫⁻ x in A, (h x - 1) ∂π := by rw [lintegral_add_left measurable_const, setLIntegral_one]
        _ ≤ π A + ∫⁻ x, (h x - 1) ∂π := by gcongr; exact Measure.restrict_le_self
        _ ≤ _ := by gcongr
    · right
      intro A hA
      have h2 := step_gain hinv hp hdec hh hC1 hhC h1 rfl ε hA
      have h3 := dens_dist hh hM
      refine le_trans ?_ (h2.trans (by gcongr))
      gcongr
      have hqm : Measurable fun y => π {x | p x y < ε} := by
        have hs : MeasurableSet {q : X × X | p q.2 q.1 < ε} := measurableSet_lt (hp.comp measurable_swap) measurable_const
        exact measurable_measure_prodMk_left hs
      calc g = ε * (c / 2) := rfl
        _ ≤ ε * (c - C * ∫⁻ y, π {x | p x y < ε} ∂π) := by
          gcongr
          have : C * ∫⁻ y, π {x | p x y < ε} ∂π ≤ c / 2 := by
            calc _ ≤ C * (c / (2 * C)) := by gcongr
              _ = c / 2 := by
                rw [ENNReal.div_eq_inv_mul, ENNReal.mul_inv (by simp) (by simp), ENNReal.div_eq_inv_mul]
                rw [show C * ((2⁻¹ * C⁻¹) * c) = (C * C⁻¹) * (2⁻¹ * c) by ring, ENNReal.mul_inv_cancel hC0 hC, one_mul]
          calc c / 2 = c - c / 2 := (ENNReal.sub_half hct).symm
            _ ≤ _ := tsub_le_tsub_left this c
        _ ≤ ε * ∫⁻ y, (c - C * π {x | p x y < ε}) ∂π := by
          gcongr
          rw [← lintegral_const_mul _ hqm]
          refine le_trans (le_of_eq ?_) (lintegral_sub_le _ _ (hqm.const_mul _))
          simp
        _ = ∫⁻ y, ε * (c - C * π {x | p x y < ε}) ∂π := (lintegral_const_mul _ (measurable_const.sub (hqm.const_mul _))).symm
        _ ≤ _ := by
          refine lintegral_mono fun y => ?_
          gcongr
          exact (not_le.mp hcm).le
  have hstay : ∀ (μ : Measure X) [IsProbabilityMeasure μ], μ ≤ C • π → (∀ A, MeasurableSet A → μ A ≤ π A + c) →
      ∀ A, MeasurableSet A → μ.bind κ A ≤ π A + c := fun μ _ hμ h A hA => by
    have h1 := tvLe_push (κ := κ) (dens_tv hμ hC h) (A.indicator 1) (measurable_one.indicator hA)
      (fun x => by by_cases hx : x ∈ A <;> simp [hx])
    have h2 := h1.1
    dsimp only at h2
    rwa [lintegral_indicator_one hA, lintegral_indicator_one hA, hinv] at h2
  have main : ∀ k, (∀ A, MeasurableSet A → pushN κ ν k A ≤ π A + c) ∨ ∀ A, MeasurableSet A → pushN κ ν k A + k * g ≤ π A + 1 := fun k => by
    induction k with
    | zero =>
      right
      intro A hA
      simp only [Nat.cast_zero, zero_mul, add_zero]
      exact prob_le_one.trans le_add_self
    | succ k ih =>
      rcases ih with h | h
      · exact Or.inl (hstay _ (hle k) h)
      · have hk : k * g ≤ 1 := by simpa using h ∅ MeasurableSet.empty
        have hkt : (k : ℝ≥0∞) * g ≠ ∞ := (hk.trans_lt ENNReal.one_lt_top).ne
        rcases hstep (pushN κ ν k) (1 - k * g) (hle k) (fun A hA => by
          refine (ENNReal.add_le_add_iff_right hkt).mp ?_
          rw [add_assoc, tsub_add_cancel_of_le hk]
          exact h A hA) with h2 | h2
        · exact Or.inl (hstay _ (hle k) h2)
        · right
          intro A hA
          have h3 := h2 A hA
          calc pushN κ ν (k + 1) A + ((k + 1 : ℕ) : ℝ≥0∞) * g = (pushN κ ν k).bind κ A + g + k * g := by
                push_cast
                rw [add_mul, one_mul, add_assoc, add_comm g]
                rfl
            _ ≤ π A + (1 - k * g) + k * g := by gcongr
            _ = π A + 1 := by rw [add_assoc, tsub_add_cancel_of_le hk]
  obtain ⟨n0, hn0⟩ : ∃ n0 : ℕ, 1 < n0 * g := by
    by_cases hgt : g = ∞
    · exact ⟨1, by simp [hgt]⟩
    · obtain ⟨k, hk⟩ := ENNReal.exists_nat_gt (ENNReal.inv_ne_top.mpr hg)
      refine ⟨k, ?_⟩
      calc 1 = g⁻¹ * g := (ENNReal.inv_mul_cancel hg hgt).symm
        _ < k * g := (ENNReal.mul_lt_mul_iff_left hg hgt).mpr hk
  refine ⟨n0, fun n hn => dens_tv (hle n) hC ?_⟩
  rcases main n with h | h
  · exact h
  · exfalso
    have := h ∅ MeasurableSet.empty
    simp only [measure_empty, zero_add] at this
    exact absurd (hn0.trans_le ((by gcongr : (n0 : ℝ≥0∞) * g ≤ n * g).trans this)) (lt_irrefl _)

end gain

/-- Sooner or later the law is close to one with a bounded density. -/
def Smooths (κ : Kernel X X) (π ν : Measure X) : Prop :=
  ∀ δ : ℝ≥0∞, δ ≠ 0 → ∃ (n : ℕ) (C : ℝ≥0∞) (ρ : Measure X), IsProbabilityMeasure ρ ∧ 1 ≤ C ∧ C ≠ ∞ ∧ ρ ≤ C • π ∧
    TVLe δ (fun f => ∫⁻ x, f x ∂pushN κ ν n) (fun f => ∫⁻ x, f x ∂ρ)

section starts
variable {κ : Kernel X X} {π : Measure X} [IsProbabilityMeasure π]

omit [IsProbabilityMeasure π] in
theorem Spec.TVLe.trans' {δ c : ℝ≥0∞} {P Q R : Ex X} (h1 : TVLe δ P Q) (h2 : TVLe c Q R) : TVLe (δ + c) P R := fun f hf hf1 => by
  obtain ⟨a, b⟩ := h1 f hf hf1
  obtain ⟨a', b'⟩ := h2 f hf hf1
  constructor
  · calc P f ≤ Q f + δ := a
      _ ≤ (R f + c) + δ := by gcongr
      _ = _ := by ring
  · calc R f ≤ Q f + c := b'
      _ ≤ (P f + δ) + c := by gcongr
      _ = _ := by ring

theorem smooths_mixes [MeasurableSpace.CountablyGenerated X] [IsMarkovKernel κ] (hinv : π.bind κ = π) (hκ : ∀ x, π ≪ κ x)
    {ν : Measure X} (hν : Smooths κ π ν) {c : ℝ≥0∞} (hc : c ≠ 0) :
    ∃ n0, ∀ n, n0 ≤ n → TVLe c (fun f => ∫⁻ x, f x ∂pushN κ ν n) (fun f => ∫⁻ x, f x ∂π) := by
  have hc2 : c / 2 ≠ 0 := ENNReal.div_ne_zero.mpr ⟨hc, by norm_num⟩
  obtain ⟨n1, C, ρ, _, hC1, hC, hρ, h1⟩ := hν (c / 2) hc2
  obtain ⟨n2, h2⟩ := mix_bounded hinv hκ hρ hC1 hC hc2
  refine ⟨n1 + n2, fun n hn => ?_⟩
  obtain ⟨k, rfl⟩ := Nat.exists_eq_add_of_le (le_trans (Nat.le_add_right n1 n2) hn)
  rw [pushN_add, ← ENNReal.add_halves c]
  exact Spec.TVLe.trans' (tvLe_pushN h1 k) (h2 k (by omega))

/-- A law with a density is close to one with a bounded density. -/
theorem near_bounded {ν : Measure X} [IsProbabilityMeasure ν] (h : ν ≪ π) {δ : ℝ≥0∞} (hδ : δ ≠ 0) :
    ∃ (C : ℝ≥0∞) (ρ : Measure X), IsProbabilityMeasure ρ ∧ 1 ≤ C ∧ C ≠ ∞ ∧ ρ ≤ C • π ∧
      TVLe δ (fun f => ∫⁻ x, f x ∂ν) (fun f => ∫⁻ x, f x ∂ρ) := by
  have hhm : Measurable (ν.rnDeriv π) := Measure.measurable_rnDeriv _ _
  obtain ⟨h', hh', e⟩ : ∃ h', Measurable h' ∧ ν = π.withDensity h' := ⟨ν.rnDeriv π, hhm, (Measure.withDensity_rnDeriv_eq ν π h).symm⟩
  have h1 : ∫⁻ x, h' x ∂π = 1 := by
    have := measure_univ (μ := ν)
    rwa [e, withDensity_apply _ MeasurableSet.univ, Measure.restrict_univ] at this
  have ht : Filter.Tendsto (fun k : ℕ => ∫⁻ x, (h' x - k) ∂π) Filter.atTop (nhds (∫⁻ _, 0 ∂π)) := by
    refine tendsto_lintegral_of_dominated_convergence h' (fun k => hh'.sub_const _) (fun k => Filter.Eventually.of_forall fun x => tsub_le_self)
      (by rw [h1]; exact ENNReal.one_ne_top) ?_
    have hfin : ∀ᵐ x ∂π, h' x < ∞ := ae_lt_top hh' (by rw [h1]; exact ENNReal.one_ne_top)
    filter_upwards [hfin] with x hx
    obtain ⟨k, hk⟩ := ENNReal.exists_nat_gt hx.ne
    refine tendsto_const_nhds.congr' ?_
    filter_upwards [Filter.eventually_ge_atTop k] with j hj
    exact (tsub_eq_zero_of_le (hk.le.trans (by exact_mod_cast hj))).symm
  rw [lintegral_zero] at ht
  obtain ⟨k, hk⟩ := (ENNReal.tendsto_nhds_zero.mp ht δ (pos_iff_ne_zero.mpr hδ)).exists
  have hpw : ∀ x, min (h' x) k + (h' x - k) = h' x := fun x => by
    rcases le_total (h' x) k with h2 | h2
    · rw [min_eq_left h2, tsub_eq_zero_of_le h2, add_zero]
    · rw [min_eq_right h2, add_tsub_cancel_of_le h2]
  have hmm : Measurable fun x => min (h' x) (k : ℝ≥0∞) := hh'.min measurable_const
  have hsum : ∫⁻ x, min (h' x) k ∂π + ∫⁻ x, (h' x - k) ∂π = 1 := by
    rw [← lintegral_add_left hmm, ← h1]
    exact lintegral_congr hpw
  obtain ⟨a, ha⟩ : ∃ a, a = ∫⁻ x, (h' x - k) ∂π := ⟨_, rfl⟩
  rw [← ha] at hsum hk
  have ha1 : a ≤ 1 := hsum ▸ le_add_self
  refine ⟨k + 1, π.withDensity fun x => min (h' x) k + a, ⟨?_⟩, le_add_self, by simp, ?_, fun f hf hf1 => ?_⟩
  · rw [withDensity_apply _ MeasurableSet.univ, Measure.restrict_univ, lintegral_add_left hmm, lintegral_const, measure_univ, mul_one, hsum]
  · rw [← withDensity_const]
    refine withDensity_mono (Filter.Eventually.of_forall fun x => ?_)
    exact add_le_add (min_le_right _ _) ha1
  · dsimp only
    rw [e, lintegral_withDensity_eq_lintegral_mul _ hh' hf, lintegral_withDensity_eq_lintegral_mul _ (hmm.add_const a) hf]
    have hb : ∀ g : X → ℝ≥0∞, ∫⁻ x, g x * f x ∂π ≤ ∫⁻ x, g x ∂π := fun g => lintegral_mono fun x => by
      calc g x * f x ≤ g x * 1 := by gcongr; exact hf1 x
        _ = g x := mul_one _
    constructor
    · calc ∫⁻ x, h' x * f x ∂π = ∫⁻ x, (min (h' x) k * f x + (h' x - k) * f x) ∂π := lintegral_congr fun x => by
            rw [← add_mul, hpw]
        _ = ∫⁻ x, min (h' x) k * f x ∂π + ∫⁻ x, (h' x - k) * f x ∂π := lintegral_add_left (hmm.mul hf) _
        _ ≤ ∫⁻ x, (min (h' x) k + a) * f x ∂π + δ := by
          gcongr
          · exact le_self_add
          · exact (hb _).trans (ha ▸ hk)
    · calc ∫⁻ x, (min (h' x) k + a) * f x ∂π = ∫⁻ x, (min (h' x) k * f x + a * f x) ∂π := lintegral_congr fun x => add_mul _ _ _
        _ = ∫⁻ x, min (h' x) k * f x ∂π + ∫⁻ x, a * f x ∂π := lintegral_add_left (hmm.mul hf) _
        _ ≤ ∫⁻ x, h' x * f x ∂π + δ := by
          gcongr
          · exact min_le_left _ _
          · exact (hb fun _ => a).trans (by rw [lintegral_const, measure_univ, mul_one]; exact hk)

theorem smooths_of_ac {ν : Measure X} [IsProbabilityMeasure ν] (h : ν ≪ π) : Smooths κ π ν := fun δ hδ => by
  obtain ⟨C, ρ, h1, h2, h3, h4, h5⟩ := near_bounded h hδ
  exact ⟨0, C, ρ, h1, h2, h3, h4, h5⟩

/-- Mass that a kernel keeps in `n` steps. -/
noncomputable def keepN (κs : Kernel X X) : ℕ → X → ℝ≥0∞
  | 0 => fun _ => 1
  | n + 1 => fun x => ∫⁻ y, keepN κs n y ∂κs x

theorem measurable_keepN (κs : Kernel X X) (n : ℕ) : Measurable (keepN κs n) := by
  induction n with
  | zero => exact measurable_const
  | succ n ih => exact ih.lintegral_kernel

theorem pushN_keepN (κs : Kernel X X) (n : ℕ) (μ : Measure X) : pushN κs μ n Set.univ = ∫⁻ x, keepN κs n x ∂μ := by
  induction n generalizing μ with
  | zero => simp [pushN, keepN]
  | succ n ih =>
    rw [show n + 1 = 1 + n from add_comm _ _, pushN_add, ih]
    show ∫⁻ x, keepN κs n x ∂(μ.bind κs) = _
    rw [lintegral_bindK _ _ (measurable_keepN _ _)]
    rw [add_comm 1 n]
    rfl

theorem bind_split {κs κa : Kernel X X} (hdec : ∀ x, κ x = κa x + κs x) (μ : Measure X) : μ.bind κ = μ.bind κa + μ.bind κs := by
  refine Measure.ext fun A hA => ?_
  rw [Measure.add_apply, Measure.bind_apply hA κ.measurable.aemeasurable, Measure.bind_apply hA κa.measurable.aemeasurable,
    Measure.bind_apply hA κs.measurable.aemeasurable, ← lintegral_add_left (κa.measurable_coe hA)]
  exact lintegral_congr fun x => by rw [hdec x, Measure.add_apply]

theorem bind_ac {κa : Kernel X X} {μ π' : Measure X} (h : ∀ᵐ x ∂μ, κa x ≪ π') : μ.bind κa ≪ π' := by
  refine Measure.AbsolutelyContinuous.mk fun A hA h0 => ?_
  rw [Measure.bind_apply hA κa.measurable.aemeasurable, lintegral_eq_zero_iff (κa.measurable_coe hA)]
  filter_upwards [h] with x hx
  exact hx h0

omit [IsProbabilityMeasure π] in
theorem bind_ac' {μ : Measure X} (hinv : π.bind κ = π) (h : μ ≪ π) : μ.bind κ ≪ π := by
  refine Measure.AbsolutelyContinuous.mk fun A hA h0 => ?_
  rw [← hinv, Measure.bind_apply hA κ.measurable.aemeasurable, lintegral_eq_zero_iff (κ.measurable_coe hA)] at h0
  rw [Measure.bind_apply hA κ.measurable.aemeasurable, lintegral_eq_zero_iff (κ.measurable_coe hA)]
  exact h.ae_le h0

theorem add_bindK (μ ν : Measure X) : (μ + ν).bind κ = μ.bind κ + ν.bind κ := by
  refine Measure.ext fun A hA => ?_
  rw [Measure.add_apply, Measure.bind_apply hA κ.measurable.aemeasurable, Measure.bind_apply hA κ.measurable.aemeasurable,
    Measure.bind_apply hA κ.measurable.aemeasurable, lintegral_add_measure]

omit [IsProbabilityMeasure π] in
theorem pushN_split {κs κa : Kernel X X} (hinv : π.bind κ = π) (hdec : ∀ x, κ x = κa x + κs x) (hac : ∀ x, κa x ≪ π) (μ : Measure X) (n : ℕ) :
    ∃ α : Measure X, α ≪ π ∧ pushN κ μ n = α + pushN κs μ n := by
  induction n with
  | zero => exact ⟨0, Measure.AbsolutelyContinuous.zero _, by simp [pushN]⟩
  | succ n ih =>
    obtain ⟨α, hα, e⟩ := ih
    refine ⟨α.bind κ + (pushN κs μ n).bind κa, Measure.AbsolutelyContinuous.add_left (bind_ac' hinv hα) (bind_ac (Filter.Eventually.of_forall hac)), ?_⟩
    show (pushN κ μ n).bind κ = _ + (pushN κs μ n).bind κs
    rw [e, add_bindK, bind_split hdec (pushN κs μ n), add_assoc]

/-- The part of the law that has not been smoothed disappears. -/
theorem keepN_tendsto {κs κa : Kernel X X} [IsMarkovKernel κ] [IsFiniteKernel κs] {p : X → X → ℝ≥0∞} (hp : Measurable (Function.uncurry p))
    (hinv : π.bind κ = π) (hdec : ∀ x, κ x = κa x + κs x) (ha : ∀ x, κa x = π.withDensity (p x)) (hpos : ∀ x, ∀ᵐ y ∂π, p x y ≠ 0) :
    ∀ᵐ x ∂π, Filter.Tendsto (fun n => keepN κs n x) Filter.atTop (nhds 0) := by
  have hm1 : ∀ x, κs x Set.univ ≤ 1 := fun x => by
    have := measure_univ (μ := κ x)
    rw [hdec x, Measure.add_apply] at this
    exact this ▸ le_add_self
  have hle : ∀ n x, keepN κs n x ≤ 1 := fun n => by
    induction n with
    | zero => exact fun x => le_rfl
    | succ n ih => exact fun x => (lintegral_mono ih).trans (by rw [lintegral_one]; exact hm1 x)
  have hanti : ∀ n x, keepN κs (n + 1) x ≤ keepN κs n x := fun n => by
    induction n with
    | zero => exact fun x => hle 1 x
    | succ n ih => exact fun x => lintegral_mono ih
  have hant : ∀ x, Antitone fun n => keepN κs n x := fun x => antitone_nat_of_succ_le fun n => hanti n x
  obtain ⟨b, hb⟩ : ∃ b : X → ℝ≥0∞, b = fun x => ⨅ n, keepN κs n x := ⟨_, rfl⟩
  have hbm : Measurable b := hb ▸ Measurable.iInf fun n => measurable_keepN κs n
  have hb1 : ∀ x, b x ≤ 1 := fun x => hb ▸ (iInf_le _ 0).trans (hle 0 x)
  have hfix : ∀ x, ∫⁻ y, b y ∂κs x = b x := fun x => by
    simp only [hb]
    rw [lintegral_iInf (fun n => measurable_keepN κs n) (fun i j hij y => hant y hij)
      (((lintegral_mono (hle 0)).trans (by rw [lintegral_one]; exact hm1 x)).trans_lt ENNReal.one_lt_top).ne]
    refine le_antisymm (le_iInf fun n => ?_) (le_iInf fun n => ?_)
    · exact (iInf_le _ n).trans (hanti n x)
    · exact iInf_le (fun n => keepN κs n x) (n + 1)
  have hp1 : ∀ x, Measurable (p x) := fun x => hp.comp measurable_prodMk_left
  have e1 : ∫⁻ x, (∫⁻ y, b y ∂κa x) ∂π + ∫⁻ x, b x ∂π = ∫⁻ x, b x ∂π := by
    conv_rhs => rw [← hinv]
    rw [lintegral_bindK _ _ hbm, ← lintegral_add_left hbm.lintegral_kernel]
    refine lintegral_congr fun x => ?_
    conv_lhs => rw [← hfix x]
    rw [hdec x, lintegral_add_measure]
  have e2 : ∫⁻ x, (∫⁻ y, b y ∂κa x) ∂π = 0 := by
    have hfin : ∫⁻ x, b x ∂π ≠ ∞ := ((lintegral_mono hb1).trans_lt (by rw [lintegral_one, measure_univ]; exact ENNReal.one_lt_top)).ne
    have : ∫⁻ x, (∫⁻ y, b y ∂κa x) ∂π + ∫⁻ x, b x ∂π = 0 + ∫⁻ x, b x ∂π := by rw [e1, zero_add]
    exact (ENNReal.add_left_inj hfin).mp this
  rw [lintegral_eq_zero_iff hbm.lintegral_kernel] at e2
  obtain ⟨x, hx⟩ := e2.exists
  have e3 : ∫⁻ y, p x y * b y ∂π = 0 := by
    have : ∫⁻ y, b y ∂κa x = 0 := hx
    rwa [ha x, lintegral_withDensity_eq_lintegral_mul _ (hp1 x) hbm] at this
  rw [lintegral_eq_zero_iff ((hp1 x).fun_mul hbm)] at e3
  filter_upwards [e3, hpos x] with y h1 h2
  have hby : b y = 0 := (mul_eq_zero.mp (by exact h1)).resolve_left h2
  have := tendsto_atTop_iInf (hant y)
  rw [hb] at hby
  dsimp only at hby
  rwa [hby] at this

/-- Almost every state is a good start. -/
theorem smooths_dirac [MeasurableSpace.CountablyGenerated X] [IsMarkovKernel κ] (hinv : π.bind κ = π) (hκ : ∀ x, π ≪ κ x) :
    ∀ᵐ x ∂π, Smooths κ π (Measure.dirac x) := by
  obtain ⟨p, κs, hp, hκs, hdec, hpos⟩ := exists_density hκ
  obtain ⟨κa, hκa⟩ : ∃ κa : Kernel X X, ∀ x, κa x = π.withDensity (p x) :=
    ⟨(Kernel.const X π).withDensity p, fun x => by rw [Kernel.withDensity_apply _ hp, Kernel.const_apply]⟩
  have hdec' : ∀ x, κ x = κa x + κs x := fun x => by rw [hκa x, ← hdec x]
  filter_upwards [keepN_tendsto hp hinv hdec' hκa hpos] with x hx δ hδ
  have hδ2 : δ / 2 ≠ 0 := ENNReal.div_ne_zero.mpr ⟨hδ, by norm_num⟩
  obtain ⟨n, hn⟩ := (ENNReal.tendsto_nhds_zero.mp hx (δ / 2) (pos_iff_ne_zero.mpr hδ2)).exists
  obtain ⟨α, hα, e⟩ := pushN_split hinv hdec' (fun x => hκa x ▸ withDensity_absolutelyContinuous _ _) (Measure.dirac x) n
  obtain ⟨β, hβ⟩ : ∃ β, β = pushN κs (Measure.dirac x) n Set.univ := ⟨_, rfl⟩
  have hβ' : β ≤ δ / 2 := by
    rw [hβ, pushN_keepN, lintegral_dirac' _ (measurable_keepN _ _)]
    exact hn
  have hm : α Set.univ + β = 1 := by
    have := measure_univ (μ := pushN κ (Measure.dirac x) n)
    rwa [e, Measure.add_apply, ← hβ] at this
  have hP : IsProbabilityMeasure (α + β • π) := ⟨by rw [Measure.add_apply, Measure.smul_apply, measure_univ (μ := π), smul_eq_mul, mul_one, hm]⟩
  have hac : α + β • π ≪ π := Measure.AbsolutelyContinuous.add_left hα Measure.smul_absolutelyContinuous
  obtain ⟨C, ρ, h1, h2, h3, h4, h5⟩ := near_bounded hac hδ2
  refine ⟨n, C, ρ, h1, h2, h3, h4, ?_⟩
  rw [← ENNReal.add_halves δ]
  refine Spec.TVLe.trans' (Q := fun f => ∫⁻ x, f x ∂(α + β • π)) (fun f hf hf1 => ?_) h5
  dsimp only
  have hb : ∀ μ : Measure X, ∫⁻ x, f x ∂μ ≤ μ Set.univ := fun μ => (lintegral_mono hf1).trans_eq (by rw [lintegral_one])
  rw [e, lintegral_add_measure, lintegral_add_measure]
  constructor
  · calc _ ≤ ∫⁻ x, f x ∂α + δ / 2 := by
          gcongr
          exact (hb _).trans (hβ ▸ hβ')
      _ ≤ _ := by gcongr; exact le_self_add
  · calc _ ≤ ∫⁻ x, f x ∂α + δ / 2 := by
          gcongr
          refine (hb _).trans (le_trans (le_of_eq ?_) hβ')
          rw [Measure.smul_apply, measure_univ, smul_eq_mul, mul_one]
      _ ≤ _ := by gcongr; exact le_self_add

end starts

end Verif
