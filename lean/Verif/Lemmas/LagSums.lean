import Verif.Lemmas.Martingale
import Mathlib.Algebra.Order.Chebyshev

/-!
# Sums over pairs of states of a chain at a fixed lag
-/

open scoped ENNReal
open MeasureTheory ProbabilityTheory

namespace Verif
open Verif.Spec

variable {X : Type} [MeasurableSpace X] {κ : Kernel X X} {step : Key → X → Ex X}

/-- Entry `i` of a sequence, the last one if there is none. -/
def atN {α : Type} {n : ℕ} (a : Fin (n + 1) → α) (i : ℕ) : α := a ⟨min i n, by omega⟩

theorem atN_of_le {α : Type} {n : ℕ} (a : Fin (n + 1) → α) {i : ℕ} (h : i ≤ n) : atN a i = a ⟨i, by omega⟩ := by
  unfold atN
  congr 1
  exact Fin.ext (min_eq_left h)

theorem measurable_atN {n : ℕ} (i : ℕ) : Measurable fun a : Fin (n + 1) → X => atN a i := measurable_pi_apply _

theorem atN_update_of_ne {α : Type} {n : ℕ} (a : Fin (n + 1) → α) (k : Fin (n + 1)) (v : α) {i : ℕ} (hi : i ≤ n) (h : i ≠ k) :
    atN (Function.update a k v) i = atN a i := by
  rw [atN_of_le _ hi, atN_of_le _ hi]
  exact Function.update_of_ne (fun e => h (congrArg Fin.val e)) _ _

/-- Mean of `Φ y` after `j` steps from `z`. -/
noncomputable def stepMean (κ : Kernel X X) (Φ : X → X → ℝ) : ℕ → X → X → ℝ
  | 0 => Φ
  | j + 1 => fun y z => ∫ w, stepMean κ Φ j y w ∂κ z

variable [IsMarkovKernel κ]

theorem measurable_stepMean {Φ : X → X → ℝ} (hΦ : Measurable fun p : X × X => Φ p.1 p.2) (j : ℕ) :
    Measurable fun p : X × X => stepMean κ Φ j p.1 p.2 := by
  induction j with
  | zero => exact hΦ
  | succ j ih =>
    have h1 : Measurable fun q : (X × X) × X => stepMean κ Φ j q.1.1 q.2 :=
      ih.comp (f := fun q : (X × X) × X => (q.1.1, q.2)) (by fun_prop)
    exact (StronglyMeasurable.integral_kernel_prod_right' (κ := κ.comap Prod.snd measurable_snd) h1.stronglyMeasurable).measurable

theorem abs_stepMean_le {Φ : X → X → ℝ} {C : ℝ} (hC : ∀ y z, |Φ y z| ≤ C) (j : ℕ) (y z : X) : |stepMean κ Φ j y z| ≤ C := by
  induction j generalizing z with
  | zero => exact hC y z
  | succ j ih =>
    have := norm_integral_le_of_norm_le_const (μ := κ z) (f := fun w => stepMean κ Φ j y w) (Filter.Eventually.of_forall fun w => ih w)
    simp only [mul_one, probReal_univ] at this
    exact this

/-- The sums over pairs of states at lag `l`, centred given the first state of the pair. -/
theorem lag_sq (h : StepOf κ step) {Φ : X → X → ℝ} (hΦ : Measurable fun p : X × X => Φ p.1 p.2) (hC : ∀ y z, |Φ y z| ≤ 1 / 2) (l : ℕ)
    {w : ℕ → ℝ} (hw : ∀ i, |w i| ≤ 1) {n : ℕ} (keys : Fin n → Key) (x : X) :
    chain step x keys (fun tr => ENNReal.ofReal ((∑ i ∈ Finset.range (n + 1 - l), w i * (Φ (atN tr i) (atN tr (i + l)) -
      stepMean κ Φ l (atN tr i) (atN tr i))) ^ 2)) ≤ (l ^ 2 * n : ℕ) := by
  obtain ⟨D, hD⟩ : ∃ D : ℕ → Fin n → (Fin (n + 1) → X) → ℝ, D = fun (j : ℕ) (k : Fin n) (tr : Fin (n + 1) → X) => if j ≤ (k : ℕ) ∧ (k : ℕ) - j + l ≤ n then w (k - j) *
    (stepMean κ Φ (l - (j + 1)) (atN tr (k - j)) (atN tr (k + 1)) - stepMean κ Φ (l - j) (atN tr (k - j)) (atN tr k)) else 0 := ⟨_, rfl⟩
  have hm : ∀ j i k, Measurable fun tr : Fin (n + 1) → X => stepMean κ Φ j (atN tr i) (atN tr k) := fun j i k =>
    (measurable_stepMean hΦ j).comp (f := fun tr : Fin (n + 1) → X => (atN tr i, atN tr k)) ((measurable_atN i).prodMk (measurable_atN k))
  have hmart : ∀ j, j < l → MartDiff κ (D j) := fun j hj => by
    refine ⟨fun k => ?_, fun k tr => ?_, fun k tr tr' he => ?_, fun k tr => ?_⟩
    · rw [hD]
      dsimp only
      split_ifs
      · exact ((hm _ _ _).sub (hm _ _ _)).const_mul _
      · exact measurable_const
    · rw [hD]
      dsimp only
      split_ifs
      · rw [abs_mul]
        refine mul_le_one₀ (hw _) (abs_nonneg _) ((abs_sub _ _).trans ?_)
        have h1 := abs_stepMean_le (κ := κ) hC (l - (j + 1)) (atN tr (k - j)) (atN tr (k + 1))
        have h2 := abs_stepMean_le (κ := κ) hC (l - j) (atN tr (k - j)) (atN tr k)
        linarith
      · simp
    · have e : ∀ i : ℕ, i ≤ k + 1 → atN tr i = atN tr' i := fun i hi => by
        have hk := k.2
        rw [atN_of_le _ (by omega), atN_of_le _ (by omega)]
        exact he _ (Fin.le_def.mpr hi)
      rw [hD]
      dsimp only
      rw [e _ le_rfl, e k (by omega), e (k - j) (by omega)]
    · rw [hD]
      dsimp only
      split_ifs with hk
      · have hk2 := k.2
        have e1 : ∀ y, atN (Function.update tr k.succ y) (k + 1) = y := fun y => by
          rw [atN_of_le _ (by omega)]
          exact Function.update_self _ _ _
        have e2 : ∀ y (i : ℕ), i ≤ k → atN (Function.update tr k.succ y) i = atN tr i := fun y i hi =>
          atN_update_of_ne _ _ _ (by omega) (by rw [Fin.val_succ]; omega)
        simp only [e1, fun y => e2 y k le_rfl, fun y => e2 y (k - j) (Nat.sub_le _ _)]
        obtain ⟨r, hr⟩ : ∃ r, l - j = r + 1 := ⟨l - j - 1, by omega⟩
        have hr' : l - (j + 1) = r := by omega
        rw [hr, hr', integral_const_mul]
        have hu : Measurable fun y => stepMean κ Φ r (atN tr (k - j)) y := (measurable_stepMean hΦ r).comp (f := fun y => (atN tr (k - j), y)) (by fun_prop)
        have hi : Integrable (fun y => stepMean κ Φ r (atN tr (k - j)) y) (κ (tr k.castSucc)) :=
          Integrable.of_bound hu.aestronglyMeasurable (1 / 2) (Filter.Eventually.of_forall fun y => abs_stepMean_le hC _ _ _)
        rw [integral_sub hi (integrable_const _)]
        have e3 : atN tr k = tr k.castSucc := atN_of_le _ (by omega)
        have e4 : ∫ y, stepMean κ Φ r (atN tr (k - j)) y ∂κ (tr k.castSucc) = stepMean κ Φ (r + 1) (atN tr (k - j)) (tr k.castSucc) := rfl
        rw [e3, e4]
        simp
      · simp
  have hsum : ∀ tr : Fin (n + 1) → X, ∑ i ∈ Finset.range (n + 1 - l), w i * (Φ (atN tr i) (atN tr (i + l)) -
      stepMean κ Φ l (atN tr i) (atN tr i)) = ∑ j ∈ Finset.range l, ∑ k, D j k tr := fun tr => by
    have e1 : ∀ i, Φ (atN tr i) (atN tr (i + l)) - stepMean κ Φ l (atN tr i) (atN tr i) =
        ∑ j ∈ Finset.range l, (stepMean κ Φ (l - (j + 1)) (atN tr i) (atN tr (i + (j + 1))) - stepMean κ Φ (l - j) (atN tr i) (atN tr (i + j))) :=
      fun i => by
        rw [Finset.sum_range_sub fun j => stepMean κ Φ (l - j) (atN tr i) (atN tr (i + j))]
        simp only [Nat.sub_self, Nat.sub_zero, Nat.add_zero]
        rfl
    simp only [e1, Finset.mul_sum]
    rw [Finset.sum_comm]
    refine Finset.sum_congr rfl fun j hj => ?_
    rw [Finset.mem_range] at hj
    rw [hD]
    dsimp only
    rw [Fin.sum_univ_eq_sum_range (fun k => if j ≤ k ∧ k - j + l ≤ n then w (k - j) *
      (stepMean κ Φ (l - (j + 1)) (atN tr (k - j)) (atN tr (k + 1)) - stepMean κ Φ (l - j) (atN tr (k - j)) (atN tr k)) else 0) n]
    rw [← Finset.sum_filter]
    refine Finset.sum_nbij' (fun i => i + j) (fun k => k - j) ?_ ?_ ?_ ?_ ?_
    · intro i hi
      simp only [Finset.mem_filter, Finset.mem_range] at hi ⊢
      omega
    · intro k hk
      simp only [Finset.mem_filter, Finset.mem_range] at hk ⊢
      omega
    · intro i hi
      simp
    · intro k hk
      simp only [Finset.mem_filter, Finset.mem_range] at hk
      omega
    · intro i hi
      simp only [Nat.add_sub_cancel]
      rw [Nat.add_assoc]
  have hDm : ∀ j, Measurable fun tr : Fin (n + 1) → X => ∑ k, D j k tr := fun j => by
    by_cases hj : j < l
    · exact Finset.measurable_sum _ fun k _ => (hmart j hj).meas k
    · refine Finset.measurable_sum _ fun k _ => ?_
      rw [hD]
      dsimp only
      split_ifs
      · exact ((hm _ _ _).sub (hm _ _ _)).const_mul _
      · exact measurable_const
  obtain ⟨P, _, hP⟩ := h.path keys
  simp only [hsum]
  rw [hP x _ (((Finset.measurable_sum _ fun j _ => hDm j).pow_const 2).ennreal_ofReal)]
  calc ∫⁻ tr, ENNReal.ofReal ((∑ j ∈ Finset.range l, ∑ k, D j k tr) ^ 2) ∂P x
      ≤ ∫⁻ tr, (l : ℝ≥0∞) * ∑ j ∈ Finset.range l, ENNReal.ofReal ((∑ k, D j k tr) ^ 2) ∂P x := by
        refine lintegral_mono fun tr => ?_
        rw [← ENNReal.ofReal_sum_of_nonneg fun _ _ => sq_nonneg _, ← ENNReal.ofReal_natCast, ← ENNReal.ofReal_mul (Nat.cast_nonneg l)]
        refine ENNReal.ofReal_le_ofReal ?_
        have := sq_sum_le_card_mul_sum_sq (s := Finset.range l) (f := fun j => ∑ k, D j k tr)
        rwa [Finset.card_range] at this
    _ = l * ∑ j ∈ Finset.range l, ∫⁻ tr, ENNReal.ofReal ((∑ k, D j k tr) ^ 2) ∂P x := by
        have hj : ∀ j, Measurable fun tr : Fin (n + 1) → X => ENNReal.ofReal ((∑ k, D j k tr) ^ 2) := fun j => ((hDm j).pow_const 2).ennreal_ofReal
        rw [lintegral_const_mul _ (Finset.measurable_sum _ fun j _ => hj j), lintegral_finsetSum _ fun j _ => hj j]
    _ ≤ l * ∑ j ∈ Finset.range l, (n : ℝ≥0∞) := by
        refine mul_le_mul_right (Finset.sum_le_sum fun j hj => ?_) _
        have := MartDiff.sq h keys (hmart j (Finset.mem_range.mp hj)) x
        rwa [hP x _ (((hDm j).pow_const 2).ennreal_ofReal)] at this
    _ = (l ^ 2 * n : ℕ) := by
        rw [Finset.sum_const, Finset.card_range, nsmul_eq_mul]
        push_cast
        ring

end Verif
