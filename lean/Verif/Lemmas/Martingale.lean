import Verif.Lemmas.Consistent
import Mathlib.Probability.Kernel.Composition.IntegralCompProd

/-!
# Sums of martingale differences along a chain
-/

open scoped ENNReal
open MeasureTheory ProbabilityTheory

namespace Verif
open Verif.Spec

variable {X : Type} [MeasurableSpace X] {κ : Kernel X X} [IsMarkovKernel κ] {step : Key → X → Ex X}

omit [MeasurableSpace X] in
theorem chain_head {n : ℕ} (keys : Fin n → Key) (x : X) (G : X → (Fin (n + 1) → X) → ℝ≥0∞) :
    chain step x keys (fun tr => G (tr 0) tr) = chain step x keys (G x) := by
  cases n <;> rfl

theorem measurable_insertHead (x : X) (n : ℕ) : Measurable fun r : Fin n → X => insert0 x r := by
  refine measurable_pi_lambda _ fun i => ?_
  refine Fin.cases ?_ (fun i => ?_) i
  · exact measurable_const
  · exact measurable_pi_apply i

/-- The law of the chain. -/
theorem StepOf.path (h : StepOf κ step) {n : ℕ} (keys : Fin n → Key) :
    ∃ P : Kernel X (Fin (n + 1) → X), IsMarkovKernel P ∧ ∀ x F, Measurable F → chain step x keys F = ∫⁻ tr, F tr ∂P x :=
  exists_markov (h.chain_ker keys) fun x => chain_mass h.mass keys x

/-- Increments that are functions of the past and of the new state, bounded, with mean zero given the past. -/
structure MartDiff (κ : Kernel X X) {n : ℕ} (D : Fin n → (Fin (n + 1) → X) → ℝ) : Prop where
  meas : ∀ i, Measurable (D i)
  bdd : ∀ i tr, |D i tr| ≤ 1
  adapted : ∀ i tr tr', (∀ j : Fin (n + 1), j ≤ i.succ → tr j = tr' j) → D i tr = D i tr'
  centred : ∀ i tr, ∫ y, D i (Function.update tr i.succ y) ∂κ (tr i.castSucc) = 0

omit [IsMarkovKernel κ] in
theorem MartDiff.tail {n : ℕ} {D : Fin (n + 1) → (Fin (n + 2) → X) → ℝ} (h : MartDiff κ D) (x : X) :
    MartDiff κ fun i rest => D i.succ (insert0 x rest) where
  meas i := (h.meas _).comp (measurable_insertHead x (n + 1))
  bdd i tr := h.bdd _ _
  adapted i tr tr' he := h.adapted _ _ _ fun j => Fin.cases (fun _ => rfl) (fun j hj => he j (Fin.succ_le_succ_iff.mp hj)) j
  centred i tr := by
    have := h.centred i.succ (insert0 x tr)
    have e : ∀ y, Function.update (insert0 x tr) i.succ.succ y = insert0 x (Function.update tr i.succ y) := fun y => by
      funext j
      refine Fin.cases ?_ (fun j => ?_) j
      · rw [Function.update_of_ne (Fin.succ_ne_zero _).symm]
        rfl
      · show Function.update (insert0 x tr) i.succ.succ y j.succ = Function.update tr i.succ y j
        by_cases hj : j = i.succ
        · subst hj
          simp
        · rw [Function.update_of_ne hj, Function.update_of_ne (fun h => hj (Fin.succ_injective _ h))]
          rfl
    simp only [e] at this
    exact this

/-- The sum has mean zero, and its mean square is at most the number of terms. -/
theorem MartDiff.moments (h : StepOf κ step) : ∀ {n : ℕ} (keys : Fin n → Key) {D : Fin n → (Fin (n + 1) → X) → ℝ}, MartDiff κ D →
    ∀ (P : Kernel X (Fin (n + 1) → X)) [IsMarkovKernel P], (∀ x F, Measurable F → chain step x keys F = ∫⁻ tr, F tr ∂P x) → ∀ x,
    (∫ tr, ∑ i, D i tr ∂P x = 0) ∧ ∫ tr, (∑ i, D i tr) ^ 2 ∂P x ≤ n := by
  intro n
  induction n with
  | zero => intro keys D hD P _ hP x; simp
  | succ n ih =>
    intro keys D hD P _ hP x
    obtain ⟨P', _, hP'⟩ := h.path (tailA keys)
    have IH := ih (tailA keys) (hD.tail x) P' hP'
    obtain ⟨S, hS⟩ : ∃ S : (Fin (n + 1) → X) → ℝ, S = fun rest => ∑ i : Fin n, D i.succ (insert0 x rest) := ⟨_, rfl⟩
    obtain ⟨d, hd⟩ : ∃ d : X → ℝ, d = fun y => D 0 (insert0 x fun _ => y) := ⟨_, rfl⟩
    have hSm : Measurable S := by
      rw [hS]
      exact Finset.measurable_sum _ fun i _ => (hD.tail x).meas i
    have hSb : ∀ r, |S r| ≤ n := fun r => by
      rw [hS]
      refine (Finset.abs_sum_le_sum_abs _ _).trans ((Finset.sum_le_sum fun i _ => hD.bdd i.succ (insert0 x r)).trans ?_)
      simp
    have hdm : Measurable d := by
      rw [hd]
      exact (hD.meas 0).comp ((measurable_insertHead x (n + 1)).comp (by fun_prop))
    have hdb : ∀ y, |d y| ≤ 1 := fun y => by rw [hd]; exact hD.bdd _ _
    have hd0 : ∫ y, d y ∂κ x = 0 := by
      have := hD.centred 0 (insert0 x fun _ => x)
      rw [hd]
      refine Eq.trans (integral_congr_ae (Filter.Eventually.of_forall fun y => hD.adapted 0 _ _ fun j hj => ?_)) this
      revert hj
      refine Fin.cases (fun _ => ?_) (fun j hj => ?_) j
      · rw [Function.update_of_ne (Fin.succ_ne_zero _).symm]
        rfl
      · have : j = 0 := Fin.ext (by have := Fin.succ_le_succ_iff.mp hj; simpa using this)
        subst this
        simp [insert0]
    -- the law of the chain after the first step
    have hlaw : P x = ((κ x) ⊗ₘ P').map fun p => insert0 x p.2 := by
      refine Measure.ext fun A hA => ?_
      have hm : Measurable fun p : X × (Fin (n + 1) → X) => insert0 x p.2 := (measurable_insertHead x (n + 1)).comp measurable_snd
      rw [Measure.map_apply hm hA, ← lintegral_indicator_one hA, ← lintegral_indicator_one (hm hA)]
      have hi : Measurable (A.indicator (1 : (Fin (n + 2) → X) → ℝ≥0∞)) := measurable_one.indicator hA
      rw [← hP x _ hi, Measure.lintegral_compProd ((measurable_one.indicator (hm hA)))]
      have h1 : ∀ y, ∫⁻ r, ((fun p : X × (Fin (n + 1) → X) => insert0 x p.2) ⁻¹' A).indicator 1 (y, r) ∂P' y =
          chain step y (tailA keys) (fun r => A.indicator 1 (insert0 x r)) := fun y =>
        (hP' y (fun r => A.indicator 1 (insert0 x r)) (hi.comp (measurable_insertHead x (n + 1)))).symm
      simp only [h1]
      exact h _ _ _ ((h.chain_ker _).measurable' (hi.comp (measurable_insertHead x (n + 1))))
    have hhead : ∀ y, (P' y).map (fun r => (r 0, r)) = (P' y).map fun r => (y, r) := fun y => by
      refine Measure.ext fun A hA => ?_
      have hi : Measurable (A.indicator (1 : X × (Fin (n + 1) → X) → ℝ≥0∞)) := measurable_one.indicator hA
      rw [← lintegral_indicator_one hA, lintegral_map hi (by fun_prop), ← lintegral_indicator_one hA, lintegral_map hi (by fun_prop)]
      rw [← hP' y (fun r => A.indicator 1 (r 0, r)) (hi.comp (by fun_prop)), ← hP' y (fun r => A.indicator 1 (y, r)) (hi.comp (by fun_prop))]
      exact chain_head (tailA keys) y fun y r => A.indicator 1 (y, r)
    have hsum : ∀ r, ∑ i, D i (insert0 x r) = d (r 0) + S r := fun r => by
      rw [Fin.sum_univ_succ, hS, hd]
      congr 1
      refine hD.adapted 0 _ _ fun j => Fin.cases (fun _ => rfl) (fun j hj => ?_) j
      have : j = 0 := Fin.ext (by have := Fin.succ_le_succ_iff.mp hj; simpa using this)
      subst this
      rfl
    have key : ∀ u : ℝ → ℝ, Measurable u → (∃ C, ∀ z : ℝ, |z| ≤ (n : ℝ) + 1 → |u z| ≤ C) → ∫ tr, u (∑ i, D i tr) ∂P x = ∫ y, ∫ r, u (d y + S r) ∂P' y ∂κ x := by
      intro u hu ⟨C, hC⟩
      have hDm : Measurable fun tr => u (∑ i, D i tr) := hu.comp (Finset.measurable_sum _ fun i _ => hD.meas i)
      have hm : Measurable fun p : X × (Fin (n + 1) → X) => insert0 x p.2 := (measurable_insertHead x (n + 1)).comp measurable_snd
      rw [hlaw, integral_map hm.aemeasurable hDm.aestronglyMeasurable]
      simp only [hsum]
      have hg : Measurable fun p : X × (Fin (n + 1) → X) => u (d (p.2 0) + S p.2) := by fun_prop
      have hb : ∀ y r, |u (d y + S r)| ≤ C := fun y r => hC _ ((abs_add_le _ _).trans (by linarith [hdb y, hSb r]))
      rw [Measure.integral_compProd (Integrable.of_bound hg.aestronglyMeasurable C (Filter.Eventually.of_forall fun p => hb _ _))]
      refine integral_congr_ae (Filter.Eventually.of_forall fun y => ?_)
      dsimp only
      have hg' : Measurable fun p : X × (Fin (n + 1) → X) => u (d p.1 + S p.2) := by fun_prop
      have h1 := integral_map (μ := P' y) (φ := fun r => (r 0, r)) (by fun_prop) hg'.aestronglyMeasurable
      have h2 := integral_map (μ := P' y) (φ := fun r => (y, r)) (by fun_prop) hg'.aestronglyMeasurable
      rw [hhead y] at h1
      exact h1.symm.trans h2
    have hSi : ∀ y, Integrable S (P' y) := fun y => Integrable.of_bound hSm.aestronglyMeasurable n (Filter.Eventually.of_forall hSb)
    have hS2 : ∀ y, Integrable (fun r => S r ^ 2) (P' y) := fun y => by
      refine Integrable.of_bound (hSm.pow_const 2).aestronglyMeasurable ((n : ℝ) ^ 2) (Filter.Eventually.of_forall fun r => ?_)
      rw [Real.norm_eq_abs, abs_pow]
      exact pow_le_pow_left₀ (abs_nonneg _) (hSb r) 2
    have hI1 : ∀ y, ∫ r, S r ∂P' y = 0 := fun y => by rw [hS]; exact (IH y).1
    have hI2 : ∀ y, ∫ r, S r ^ 2 ∂P' y ≤ n := fun y => by rw [hS]; exact (IH y).2
    constructor
    · have h1 := key (fun z => z) measurable_id ⟨n + 1, fun z hz => hz⟩
      rw [h1]
      have h2 : ∀ y, ∫ r, (d y + S r) ∂P' y = d y := fun y => by
        rw [integral_add (integrable_const _) (hSi y), hI1]
        simp
      simp only [h2, hd0]
    · have h1 := key (fun z => z ^ 2) (by fun_prop) ⟨(n + 1) ^ 2, fun z hz => by
        rw [abs_pow]
        exact pow_le_pow_left₀ (abs_nonneg _) hz 2⟩
      rw [h1]
      have h2 : ∀ y, ∫ r, (d y + S r) ^ 2 ∂P' y ≤ n + 1 := fun y => by
        have e : ∀ r, (d y + S r) ^ 2 = d y ^ 2 + 2 * d y * S r + S r ^ 2 := fun r => by ring
        simp only [e]
        have h4 : Integrable (fun r => d y ^ 2 + 2 * d y * S r) (P' y) := (integrable_const _).add ((hSi y).const_mul _)
        rw [integral_add h4 (hS2 y), integral_add (integrable_const _) ((hSi y).const_mul _), integral_const_mul, hI1]
        have h3 : d y ^ 2 ≤ 1 := by
          rw [← sq_abs]
          exact pow_le_one₀ (abs_nonneg _) (hdb y)
        have := hI2 y
        simp
        linarith
      have hint : Integrable (fun y => ∫ r, (d y + S r) ^ 2 ∂P' y) (κ x) := by
        refine Integrable.of_bound ?_ ((n : ℝ) + 1) (Filter.Eventually.of_forall fun y => ?_)
        · have hm : Measurable fun p : X × (Fin (n + 1) → X) => (d p.1 + S p.2) ^ 2 := by fun_prop
          exact (StronglyMeasurable.integral_kernel_prod_right' (κ := P') hm.stronglyMeasurable).aestronglyMeasurable
        · rw [Real.norm_eq_abs, abs_of_nonneg (integral_nonneg fun r => sq_nonneg _)]
          exact h2 y
      calc ∫ y, ∫ r, (d y + S r) ^ 2 ∂P' y ∂κ x ≤ ∫ _, ((n : ℝ) + 1) ∂κ x := integral_mono hint (integrable_const _) h2
        _ = ((n + 1 : ℕ) : ℝ) := by simp

/-- The mean square of a sum of martingale differences. -/
theorem MartDiff.sq (h : StepOf κ step) {n : ℕ} (keys : Fin n → Key) {D : Fin n → (Fin (n + 1) → X) → ℝ} (hD : MartDiff κ D) (x : X) :
    chain step x keys (fun tr => ENNReal.ofReal ((∑ i, D i tr) ^ 2)) ≤ n := by
  obtain ⟨P, _, hP⟩ := h.path keys
  have hm : Measurable fun tr => ∑ i, D i tr := Finset.measurable_sum _ fun i _ => hD.meas i
  rw [hP x _ (by fun_prop)]
  have hb : ∀ tr, |∑ i, D i tr| ≤ n := fun tr => (Finset.abs_sum_le_sum_abs _ _).trans ((Finset.sum_le_sum fun i _ => hD.bdd i tr).trans (by simp))
  have hi : Integrable (fun tr => (∑ i, D i tr) ^ 2) (P x) := Integrable.of_bound (hm.pow_const 2).aestronglyMeasurable ((n : ℝ) ^ 2)
    (Filter.Eventually.of_forall fun tr => by rw [Real.norm_eq_abs, abs_pow]; exact pow_le_pow_left₀ (abs_nonneg _) (hb tr) 2)
  rw [← ofReal_integral_eq_lintegral_ofReal hi (Filter.Eventually.of_forall fun _ => sq_nonneg _)]
  refine (ENNReal.ofReal_le_ofReal (MartDiff.moments h keys hD P hP x).2).trans (le_of_eq ?_)
  exact ENNReal.ofReal_natCast n

end Verif
