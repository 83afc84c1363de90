import Verif.Lemmas.Reach
import Verif.Lemmas.Replicates
import Verif.Lemmas.Rotation
import Mathlib.MeasureTheory.Measure.Decomposition.Hahn
import Mathlib.MeasureTheory.Measure.Sub

/-!
# A kernel that reaches everything has at most one invariant law
-/

open scoped ENNReal
open MeasureTheory

namespace Verif
open Verif.Spec

variable {X : Type} [MeasurableSpace X]

theorem measure_eq_of_le {μ ν : Measure X} [IsFiniteMeasure μ] [IsFiniteMeasure ν] (h : μ ≤ ν) {P : X → ℝ≥0∞} (hP : Measurable P)
    (hpos : ∀ x, P x ≠ 0) (hfin : ∫⁻ x, P x ∂μ ≠ ∞) (he : ∫⁻ x, P x ∂ν = ∫⁻ x, P x ∂μ) : μ = ν := by
  have e := Measure.sub_add_cancel_of_le h
  rw [← e, lintegral_add_measure] at he
  have h0 : ∫⁻ x, P x ∂(ν - μ) = 0 := by
    have : ∫⁻ x, P x ∂(ν - μ) + ∫⁻ x, P x ∂μ = 0 + ∫⁻ x, P x ∂μ := by rw [he, zero_add]
    exact (ENNReal.add_left_inj hfin).mp this
  have h1 := (lintegral_eq_zero_iff hP).mp h0
  have h2 : ν - μ = 0 := by
    refine Measure.measure_univ_eq_zero.mp ?_
    refine measure_mono_null (fun x _ => ?_) (ae_iff.mp h1)
    exact hpos x
  rw [h2, zero_add] at e
  exact e

theorem Spec.Reaches.of_le {S : Type} {lam : Measure X} {K : S → Ex X} (h : ∀ s f, Measurable f → ∫⁻ x, f x ∂lam ≤ ∞ * K s f) : Reaches lam K := by
  intro s A hA hne h0
  have := le_top_mul_iff.mp (h s (A.indicator 1) (measurable_one.indicator hA)) h0
  rw [lintegral_indicator_one hA] at this
  exact hne this

/-- A Markov kernel that reaches every set of positive measure has at most one invariant law. -/
theorem invariant_unique {lam : Measure X} (hlam : lam ≠ 0) {K : X → Ex X} (hK : IsKer K) (hmass : ∀ x, K x (fun _ => 1) = 1)
    (hr : Reaches lam K) {π₁ π₂ : Measure X} [IsProbabilityMeasure π₁] [IsProbabilityMeasure π₂] (h₁ : IsInvariant π₁ K)
    (h₂ : IsInvariant π₂ K) : π₁ = π₂ := by
  obtain ⟨D, hD, hle1, hle2⟩ := hahn_decomposition π₁ π₂
  have l1 : π₂.restrict D ≤ π₁.restrict D := Measure.le_iff.mpr fun t ht => by
    rw [Measure.restrict_apply ht, Measure.restrict_apply ht]
    exact hle1 _ (ht.inter hD) Set.inter_subset_right
  have l2 : π₁.restrict Dᶜ ≤ π₂.restrict Dᶜ := Measure.le_iff.mpr fun t ht => by
    rw [Measure.restrict_apply ht, Measure.restrict_apply ht]
    exact hle2 _ (ht.inter hD.compl) Set.inter_subset_right
  let P : X → ℝ≥0∞ := fun x => K x (D.indicator 1)
  let P' : X → ℝ≥0∞ := fun x => K x (Dᶜ.indicator 1)
  have hi : Measurable (D.indicator (1 : X → ℝ≥0∞)) := measurable_one.indicator hD
  have hi' : Measurable (Dᶜ.indicator (1 : X → ℝ≥0∞)) := measurable_one.indicator hD.compl
  have hP : Measurable P := hK.measurable' hi
  have hP' : Measurable P' := hK.measurable' hi'
  have hsum : ∀ x, P x + P' x = 1 := fun x => by
    rw [← hmass x, ← hK.add x hi hi']
    exact congrArg _ (funext fun y => by
      by_cases hy : y ∈ D <;> simp [Set.indicator, hy])
  have hP1 : ∀ x, P x ≤ 1 := fun x => (hsum x) ▸ le_self_add
  have hP1' : ∀ x, P' x ≤ 1 := fun x => (hsum x) ▸ le_add_self
  have fin : ∀ (μ : Measure X) [IsFiniteMeasure μ] (f : X → ℝ≥0∞), (∀ x, f x ≤ 1) → ∫⁻ x, f x ∂μ ≠ ∞ := fun μ _ f hf =>
    ((lintegral_mono hf).trans_lt (by rw [lintegral_one]; exact measure_lt_top _ _)).ne
  -- the two balances
  have bal : ∀ (π : Measure X) [IsProbabilityMeasure π], IsInvariant π K →
      ∫⁻ x in Dᶜ, P x ∂π = ∫⁻ x in D, P' x ∂π := fun π _ h => by
    have e1 := h _ hi
    rw [lintegral_indicator_one hD] at e1
    have e2 : ∫⁻ x, P x ∂π = ∫⁻ x in D, P x ∂π + ∫⁻ x in Dᶜ, P x ∂π := (lintegral_add_compl P hD).symm
    have e3 : π D = ∫⁻ x in D, P x ∂π + ∫⁻ x in D, P' x ∂π := by
      rw [← lintegral_add_left hP]
      simp only [hsum]
      rw [lintegral_one, Measure.restrict_apply_univ]
    have e4 : ∫⁻ x in D, P x ∂π + ∫⁻ x in Dᶜ, P x ∂π = ∫⁻ x in D, P x ∂π + ∫⁻ x in D, P' x ∂π := e2.symm.trans (e1.trans e3)
    exact (ENNReal.add_right_inj (fin _ P hP1)).mp e4
  have b1 := bal π₁ h₁
  have b2 := bal π₂ h₂
  have m1 : ∫⁻ x in D, P' x ∂π₂ ≤ ∫⁻ x in D, P' x ∂π₁ := lintegral_mono' l1 le_rfl
  have m2 : ∫⁻ x in Dᶜ, P x ∂π₁ ≤ ∫⁻ x in Dᶜ, P x ∂π₂ := lintegral_mono' l2 le_rfl
  have q2 : ∫⁻ x in Dᶜ, P x ∂π₁ = ∫⁻ x in Dᶜ, P x ∂π₂ := le_antisymm m2 (by rw [b1, b2]; exact m1)
  have q1 : ∫⁻ x in D, P' x ∂π₂ = ∫⁻ x in D, P' x ∂π₁ := by rw [← b1, ← b2, q2]
  have glue : π₁.restrict D = π₂.restrict D → π₁.restrict Dᶜ = π₂.restrict Dᶜ → π₁ = π₂ := fun a b => by
    rw [← Measure.restrict_add_restrict_compl (μ := π₁) hD, a, b, Measure.restrict_add_restrict_compl hD]
  have hc : ∀ (π : Measure X) [IsProbabilityMeasure π], π D + π Dᶜ = 1 := fun π _ => by rw [measure_add_measure_compl hD, measure_univ]
  by_cases hD0 : lam D = 0
  · have hDc : lam Dᶜ ≠ 0 := fun h0 => hlam (Measure.measure_univ_eq_zero.mp (by rw [← measure_add_measure_compl hD, hD0, h0, add_zero]))
    have r1 := measure_eq_of_le l1 hP' (fun x => hr x _ hD.compl hDc) (fin _ P' hP1') q1.symm
    have m : π₁ Dᶜ = π₂ Dᶜ := by
      have h1 := hc π₁
      have h2 : π₂ D + π₂ Dᶜ = 1 := hc π₂
      have e : π₂ D = π₁ D := by
        have := congrArg (fun μ : Measure X => μ Set.univ) r1
        simpa using this
      rw [← h1, e] at h2
      exact ((ENNReal.add_right_inj (measure_ne_top _ _)).mp h2).symm
    exact glue r1.symm (measure_eq_of_le l2 (P := fun _ => 1) measurable_const (fun _ => one_ne_zero) (fin _ _ fun _ => le_rfl) (by simp [m]))
  · have r2 := measure_eq_of_le l2 hP (fun x => hr x _ hD hD0) (fin _ P hP1) q2.symm
    have m : π₁ D = π₂ D := by
      have h1 := hc π₁
      have h2 : π₂ D + π₂ Dᶜ = 1 := hc π₂
      have e : π₁ Dᶜ = π₂ Dᶜ := by
        have := congrArg (fun μ : Measure X => μ Set.univ) r2
        simpa using this
      rw [← h1, e] at h2
      exact ((ENNReal.add_left_inj (measure_ne_top _ _)).mp h2).symm
    exact glue (measure_eq_of_le l1 (P := fun _ => 1) measurable_const (fun _ => one_ne_zero) (fin _ _ fun _ => le_rfl) (by simp [m])).symm r2

/-- What makes a target the only invariant law of a kernel on trajectories and indices. -/
theorem onlyInvariant {N n : ℕ} {lam : Measure X} [SigmaFinite lam] {l : (Fin (n + 1) → X) → ℝ} (hl : Measurable l)
    (hZ : ∫⁻ x, ENNReal.ofReal (Real.exp (l x)) ∂(Measure.pi fun _ => lam) ≠ 0 ∧
      ∫⁻ x, ENNReal.ofReal (Real.exp (l x)) ∂(Measure.pi fun _ => lam) ≠ ∞)
    {K : (Fin (n + 1) → X) → (Fin (n + 1) → Fin (N + 1)) → Ex ((Fin (n + 1) → X) × (Fin (n + 1) → Fin (N + 1)))} (hK : MarkovStep K)
    (hrel : Relabels K) (hinv : InvariantFromAnyIndex lam l K)
    (hr : ∀ x b f, Measurable f → ∫⁻ x, f x ∂(Measure.pi fun _ => lam) ≤ ∞ * K x b (fun r => f r.1)) :
    Reaches (Measure.pi fun _ => lam) (fun s : (Fin (n + 1) → X) × (Fin (n + 1) → Fin (N + 1)) => K s.1 s.2 >>= fun r => pure r.1) ∧
      OnlyInvariant (lawOf (Measure.pi fun _ => lam) l) K := by
  have hP := lawOf_isProb hZ hl
  have hb : ∀ b, IsKer fun x => K x b >>= fun r => pure r.1 := fun b =>
    (hK.ker.comp (g := fun x : Fin (n + 1) → X => (x, b)) (by fun_prop)).bind
      (IsKer.pure (g := fun p : (Fin (n + 1) → X) × ((Fin (n + 1) → X) × (Fin (n + 1) → Fin (N + 1))) => p.2.1) (by fun_prop))
  have hlam : (Measure.pi fun _ : Fin (n + 1) => lam) ≠ 0 := fun h => hZ.1 (by rw [h]; simp)
  have h0 : ∀ b, IsInvariant (lawOf (Measure.pi fun _ => lam) l) (fun x => K x b >>= fun r => pure r.1) := fun b f hf => by
    rw [lintegral_lawOf hl ((hb b).measurable' hf), lintegral_lawOf hl hf]
    exact congrArg _ (hinv b f hf)
  have huni : ∀ b (π : Measure (Fin (n + 1) → X)) [IsProbabilityMeasure π], IsInvariant π (fun x => K x b >>= fun r => pure r.1) →
      π = lawOf (Measure.pi fun _ => lam) l := fun b π _ h =>
    invariant_unique hlam (hb b) (fun x => hK.mass x b) (Spec.Reaches.of_le fun x f hf => hr x b f hf) h (h0 b)
  refine ⟨Spec.Reaches.of_le fun s f hf => hr s.1 s.2 f hf, fun b π _ => ⟨huni b π, fun h => h ▸ h0 b⟩, fun ρ hρ h => ?_⟩
  have : IsProbabilityMeasure (ρ.map Prod.fst) := Measure.isProbabilityMeasure_map measurable_fst.aemeasurable
  refine huni (fun _ => 0) _ fun f hf => ?_
  rw [lintegral_map ((hb _).measurable' hf) measurable_fst, lintegral_map hf measurable_fst, ← h (fun s => f s.1) (by fun_prop)]
  refine lintegral_congr fun s => ?_
  exact hrel.indexFree s.1 (fun _ => 0) s.2 (fun x _ => f x) fun _ => hf

end Verif
