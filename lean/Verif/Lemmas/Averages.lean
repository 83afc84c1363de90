import Verif.Lemmas.Mixing
import Verif.Lemmas.ChainInv

/-!
# Averages along a chain
-/

open scoped ENNReal
open MeasureTheory ProbabilityTheory Finset

namespace Verif
open Verif.Spec

variable {X : Type} [MeasurableSpace X] {κ : Kernel X X} [IsMarkovKernel κ] {step : Key → X → Ex X}

/-- Every step, whatever its key, is one step of the kernel. -/
def StepOf (κ : Kernel X X) (step : Key → X → Ex X) : Prop := ∀ key x f, Measurable f → step key x f = ∫⁻ y, f y ∂κ x

theorem StepOf.ker (h : StepOf κ step) (key : Key) : IsKer (step key) := ⟨κ, inferInstance, h key⟩

theorem StepOf.mass (h : StepOf κ step) (key : Key) (x : X) : step key x (fun _ => 1) = 1 := by
  rw [h key x _ measurable_const]; simp

theorem StepOf.chain_ker (h : StepOf κ step) {n : ℕ} (keys : Fin n → Key) : IsKer (fun s => chain step s keys) := Verif.chain_ker h.ker keys

theorem StepOf.chain_const (h : StepOf κ step) {n : ℕ} (keys : Fin n → Key) (x : X) (c : ℝ≥0∞) : chain step x keys (fun _ => c) = c := by
  rw [(h.chain_ker keys).const_fun x c, chain_mass h.mass, mul_one]

/-- A functional of what comes after the first state. -/
theorem StepOf.chain_tail (h : StepOf κ step) {n : ℕ} (keys : Fin (n + 1) → Key) {F : (Fin (n + 1) → X) → ℝ≥0∞} (hF : Measurable F) (x : X) :
    chain step x keys (fun tr => F (tailA tr)) = ∫⁻ y, chain step y (tailA keys) F ∂κ x := by
  show step (keys 0) x (fun y => chain step y (tailA keys) F) = _
  exact h _ _ _ ((h.chain_ker _).measurable' hF)

/-- The law of the state at time `i`. -/
theorem StepOf.chain_law (h : StepOf κ step) {n : ℕ} (keys : Fin n → Key) (i : Fin (n + 1)) (ν : Measure X) {f : X → ℝ≥0∞} (hf : Measurable f) :
    ∫⁻ x, chain step x keys (fun tr => f (tr i)) ∂ν = ∫⁻ x, f x ∂pushN κ ν i := by
  induction n generalizing ν with
  | zero =>
    obtain rfl : i = 0 := Fin.ext (by omega)
    rfl
  | succ n ih =>
    refine Fin.cases ?_ (fun j => ?_) i
    · refine lintegral_congr fun x => ?_
      show step (keys 0) x (fun y => chain step y (tailA keys) fun _ => f x) = f x
      simp only [h.chain_const]
      rw [h _ _ _ measurable_const]
      simp
    · have e : ∀ x, chain step x keys (fun tr => f (tr j.succ)) = ∫⁻ y, chain step y (tailA keys) (fun tr => f (tr j)) ∂κ x := fun x =>
        h.chain_tail keys (F := fun tr => f (tr j)) (by fun_prop) x
      simp only [e]
      rw [← lintegral_bindK κ ν ((h.chain_ker _).measurable' (f := fun tr => f (tr j)) (by fun_prop)), ih]
      rw [Fin.val_succ, Nat.add_comm (j : ℕ) 1, pushN_add]
      rfl

/-- The joint law of the states at times `i ≤ j` of a stationary chain. -/
theorem StepOf.chain_law₂ (h : StepOf κ step) {π : Measure X} (hinv : π.bind κ = π) {n : ℕ} (keys : Fin n → Key) (i j : Fin (n + 1)) (hij : i ≤ j)
    {f g : X → ℝ≥0∞} (hf : Measurable f) (hg : Measurable g) :
    ∫⁻ x, chain step x keys (fun tr => f (tr i) * g (tr j)) ∂π = ∫⁻ x, g x ∂pushN κ (π.withDensity f) (j - i : ℕ) := by
  induction n with
  | zero =>
    obtain rfl : i = 0 := Fin.ext (by omega)
    obtain rfl : j = 0 := Fin.ext (by omega)
    show ∫⁻ x, f x * g x ∂π = ∫⁻ x, g x ∂(π.withDensity f)
    rw [lintegral_withDensity_eq_lintegral_mul _ hf hg]
    rfl
  | succ n ih =>
    rcases Fin.eq_zero_or_eq_succ i with rfl | ⟨i, rfl⟩
    · have e : ∀ x, chain step x keys (fun tr => f (tr 0) * g (tr j)) = f x * chain step x keys (fun tr => g (tr j)) := fun x => by
        have e1 : chain step x keys (fun tr => f (tr 0) * g (tr j)) = chain step x keys (fun tr => f x * g (tr j)) := rfl
        rw [e1]
        exact (h.chain_ker keys).const_mul x (f x) (f := fun tr => g (tr j)) (by fun_prop)
      simp only [e]
      have hm : Measurable fun x => chain step x keys (fun tr => g (tr j)) := (h.chain_ker keys).measurable' (f := fun tr => g (tr j)) (by fun_prop)
      have e2 := h.chain_law keys j (π.withDensity f) hg
      rw [lintegral_withDensity_eq_lintegral_mul _ hf hm] at e2
      simpa using e2
    · obtain ⟨j, rfl⟩ : ∃ j', j = Fin.succ j' := Fin.exists_succ_eq.mpr (fun h0 => by subst h0; simp at hij) |>.imp fun _ => Eq.symm
      have e : ∀ x, chain step x keys (fun tr => f (tr i.succ) * g (tr j.succ)) =
          ∫⁻ y, chain step y (tailA keys) (fun tr => f (tr i) * g (tr j)) ∂κ x := fun x =>
        h.chain_tail keys (F := fun tr => f (tr i) * g (tr j)) (by fun_prop) x
      simp only [e]
      rw [← lintegral_bindK κ π ((h.chain_ker _).measurable' (f := fun tr => f (tr i) * g (tr j)) (by fun_prop)), hinv,
        ih (tailA keys) i j (Fin.succ_le_succ_iff.mp hij)]
      simp

theorem pushN_smul (κ : Kernel X X) (c : ℝ≥0∞) (ν : Measure X) (n : ℕ) : pushN κ (c • ν) n = c • pushN κ ν n := by
  induction n with
  | zero => rfl
  | succ n ih =>
    show (pushN κ (c • ν) n).bind κ = c • (pushN κ ν n).bind κ
    rw [ih]
    refine Measure.ext fun A hA => ?_
    rw [Measure.bind_apply hA κ.measurable.aemeasurable, lintegral_smul_measure, Measure.smul_apply, Measure.bind_apply hA κ.measurable.aemeasurable]

/-- Correlations vanish. -/
theorem correlation [MeasurableSpace.CountablyGenerated X] {π : Measure X} [IsProbabilityMeasure π] (hinv : π.bind κ = π) (hκ : ∀ x, π ≪ κ x)
    {f : X → ℝ≥0∞} (hf : Measurable f) (hf1 : ∀ x, f x ≤ 1) {δ : ℝ≥0∞} (hδ : δ ≠ 0) :
    ∃ h0 : ℕ, ∀ h, h0 ≤ h → ∫⁻ x, f x ∂pushN κ (π.withDensity f) h ≤ (∫⁻ x, f x ∂π) ^ 2 + δ := by
  obtain ⟨μ, hμ⟩ : ∃ μ, μ = ∫⁻ x, f x ∂π := ⟨_, rfl⟩
  have hμ1 : μ ≤ 1 := hμ ▸ (lintegral_mono hf1).trans (by rw [lintegral_one, measure_univ])
  have hμt : μ ≠ ∞ := (hμ1.trans_lt ENNReal.one_lt_top).ne
  by_cases h0 : μ = 0
  · refine ⟨0, fun h _ => ?_⟩
    have e : π.withDensity f = 0 := by
      rw [withDensity_eq_zero_iff hf.aemeasurable, ← lintegral_eq_zero_iff hf, ← hμ, h0]
    have e2 : ∀ h, pushN κ (0 : Measure X) h = 0 := fun h => by
      have := pushN_smul κ 0 π h
      simpa using this
    rw [e, e2]
    simp
  · have hP : IsProbabilityMeasure (μ⁻¹ • π.withDensity f) := ⟨by
      rw [Measure.smul_apply, withDensity_apply _ MeasurableSet.univ, Measure.restrict_univ, ← hμ, smul_eq_mul, ENNReal.inv_mul_cancel h0 hμt]⟩
    obtain ⟨n0, hn⟩ := smooths_mixes hinv hκ (smooths_of_ac (κ := κ)
      (Measure.smul_absolutelyContinuous.trans (withDensity_absolutelyContinuous π f) : μ⁻¹ • π.withDensity f ≪ π)) hδ
    refine ⟨n0, fun h hh => ?_⟩
    have h1 := (hn h hh f hf hf1).1
    dsimp only at h1
    rw [pushN_smul, lintegral_smul_measure, ← hμ, smul_eq_mul] at h1
    rw [← hμ]
    calc ∫⁻ x, f x ∂pushN κ (π.withDensity f) h = μ * (μ⁻¹ * ∫⁻ x, f x ∂pushN κ (π.withDensity f) h) := by
          rw [← mul_assoc, ENNReal.mul_inv_cancel h0 hμt, one_mul]
      _ ≤ μ * (μ + δ) := by gcongr
      _ = μ ^ 2 + μ * δ := by ring
      _ ≤ μ ^ 2 + 1 * δ := by gcongr
      _ = _ := by rw [one_mul]

theorem near_card {n : ℕ} (h0 : ℕ) (i : Fin n) : (#{j : Fin n | (j : ℕ) < i + h0 ∧ (i : ℕ) < j + h0}) ≤ 2 * h0 := by
  have : #{j : Fin n | (j : ℕ) < i + h0 ∧ (i : ℕ) < j + h0} ≤ #(Finset.Ico (i + 1 - h0 : ℕ) (i + h0)) := by
    refine Finset.card_le_card_of_injOn (fun j => (j : ℕ)) (fun j hj => ?_) (fun a _ b _ hab => Fin.ext hab)
    simp only [Finset.coe_filter, Finset.mem_univ, true_and, Set.mem_ofPred_eq] at hj
    simp only [Finset.coe_Ico, Set.mem_Ico]
    omega
  refine this.trans ?_
  rw [Nat.card_Ico]
  omega

/-- The second moment of a weighted sum along a stationary chain. -/
theorem second_moment (h : StepOf κ step) {π : Measure X} [IsProbabilityMeasure π] (hinv : π.bind κ = π)
    {f : X → ℝ≥0∞} (hf : Measurable f) (hf1 : ∀ x, f x ≤ 1) {c : ℝ≥0∞} {h0 : ℕ}
    (hc : ∀ h, h0 ≤ h → ∫⁻ x, f x ∂pushN κ (π.withDensity f) h ≤ c) {n : ℕ} (keys : Fin n → Key) (w : Fin (n + 1) → ℝ≥0∞) (hw : ∀ i, w i ≤ 1) :
    ∫⁻ x, chain step x keys (fun tr => (∑ i, w i * f (tr i)) ^ 2) ∂π ≤ (∑ i, w i) ^ 2 * c + (∑ i, w i) * (2 * h0 : ℕ) := by
  have hE : ∀ i j : Fin (n + 1), ∫⁻ x, chain step x keys (fun tr => f (tr i) * f (tr j)) ∂π ≤
      c + if (j : ℕ) < i + h0 ∧ (i : ℕ) < j + h0 then 1 else 0 := fun i j => by
    split_ifs with hij
    · refine le_trans ?_ le_add_self
      refine (lintegral_mono (fun x => (h.chain_ker keys).mono x (g := fun _ => 1) (by fun_prop) measurable_const
        fun tr => mul_le_one' (hf1 _) (hf1 _))).trans ?_
      simp [h.chain_const]
    · rw [add_zero]
      rcases le_total i j with hl | hl
      · rw [h.chain_law₂ hinv keys i j hl hf hf]
        refine hc _ ?_
        have : (i : ℕ) ≤ j := hl
        omega
      · have e : ∀ x, chain step x keys (fun tr => f (tr i) * f (tr j)) = chain step x keys (fun tr => f (tr j) * f (tr i)) := fun x =>
          Ex.congr_fun' _ fun tr => mul_comm _ _
        simp only [e]
        rw [h.chain_law₂ hinv keys j i hl hf hf]
        refine hc _ ?_
        have : (j : ℕ) ≤ i := hl
        omega
  have hm : ∀ i j, Measurable fun x => chain step x keys (fun tr => f (tr i) * f (tr j)) := fun i j =>
    (h.chain_ker keys).measurable' (f := fun tr => f (tr i) * f (tr j)) (by fun_prop)
  have e1 : ∀ x, chain step x keys (fun tr => (∑ i, w i * f (tr i)) ^ 2) =
      ∑ i, ∑ j, w i * w j * chain step x keys (fun tr => f (tr i) * f (tr j)) := fun x => by
    have e : chain step x keys (fun tr => (∑ i, w i * f (tr i)) ^ 2) =
        chain step x keys (fun tr => ∑ i, ∑ j, w i * w j * (f (tr i) * f (tr j))) := Ex.congr_fun' _ fun tr => by
      rw [sq, Finset.sum_mul_sum]
      exact Finset.sum_congr rfl fun i _ => Finset.sum_congr rfl fun j _ => by ring
    rw [e, (h.chain_ker keys).sum x univ (f := fun i tr => ∑ j, w i * w j * (f (tr i) * f (tr j))) (fun i _ => by fun_prop)]
    refine Finset.sum_congr rfl fun i _ => ?_
    rw [(h.chain_ker keys).sum x univ (f := fun j tr => w i * w j * (f (tr i) * f (tr j))) (fun j _ => by fun_prop)]
    exact Finset.sum_congr rfl fun j _ => (h.chain_ker keys).const_mul x _ (f := fun tr => f (tr i) * f (tr j)) (by fun_prop)
  simp only [e1]
  rw [lintegral_finsetSum _ fun i _ => Finset.measurable_fun_sum _ fun j _ => (hm i j).const_mul _]
  calc ∑ i, ∫⁻ x, ∑ j, w i * w j * chain step x keys (fun tr => f (tr i) * f (tr j)) ∂π
      = ∑ i, ∑ j, w i * w j * ∫⁻ x, chain step x keys (fun tr => f (tr i) * f (tr j)) ∂π := by
        refine Finset.sum_congr rfl fun i _ => ?_
        rw [lintegral_finsetSum _ fun j _ => (hm i j).const_mul _]
        exact Finset.sum_congr rfl fun j _ => lintegral_const_mul _ (hm i j)
    _ ≤ ∑ i, ∑ j, w i * w j * (c + if (j : ℕ) < i + h0 ∧ (i : ℕ) < j + h0 then 1 else 0) := by
        gcongr with i _ j _
        exact hE i j
    _ = (∑ i, w i) ^ 2 * c + ∑ i, w i * ∑ j, w j * if (j : ℕ) < i + h0 ∧ (i : ℕ) < j + h0 then 1 else 0 := by
        rw [sq, Finset.sum_mul_sum, Finset.sum_mul, ← Finset.sum_add_distrib]
        refine Finset.sum_congr rfl fun i _ => ?_
        rw [Finset.sum_mul, Finset.mul_sum, ← Finset.sum_add_distrib]
        exact Finset.sum_congr rfl fun j _ => by ring
    _ ≤ _ := by
        rw [Finset.sum_mul]
        gcongr with i _
        calc ∑ j, w j * (if (j : ℕ) < i + h0 ∧ (i : ℕ) < j + h0 then 1 else 0)
            ≤ ∑ j : Fin (n + 1), (if (j : ℕ) < i + h0 ∧ (i : ℕ) < j + h0 then 1 else 0) := by
              gcongr with j _
              exact mul_le_of_le_one_left' (hw j)
          _ = (#{j : Fin (n + 1) | (j : ℕ) < i + h0 ∧ (i : ℕ) < j + h0} : ℝ≥0∞) := by rw [Finset.sum_boole]
          _ ≤ _ := by exact_mod_cast near_card h0 i

/-- Expected squared distance of a weighted sum of `f` from `m` times the sum of the weights. -/
noncomputable def sqDev (step : Key → X → Ex X) (f : X → ℝ) (m : ℝ) {n : ℕ} (keys : Fin n → Key) (w : Fin (n + 1) → ℝ) (x : X) : ℝ≥0∞ :=
  chain step x keys fun tr => ENNReal.ofReal ((∑ i, w i * (f (tr i) - m)) ^ 2)

theorem measurable_devF {f : X → ℝ} (hf : Measurable f) (m : ℝ) {n : ℕ} (w : Fin n → ℝ) :
    Measurable fun tr : Fin n → X => ENNReal.ofReal ((∑ i, w i * (f (tr i) - m)) ^ 2) := by fun_prop

theorem measurable_sqDev (h : StepOf κ step) {f : X → ℝ} (hf : Measurable f) (m : ℝ) {n : ℕ} (keys : Fin n → Key) (w : Fin (n + 1) → ℝ) :
    Measurable (sqDev step f m keys w) := (h.chain_ker keys).measurable' (measurable_devF hf m w)

/-- The variance of a weighted sum along a stationary chain. -/
theorem variance_le (h : StepOf κ step) {π : Measure X} [IsProbabilityMeasure π] (hinv : π.bind κ = π)
    {f : X → ℝ} (hf : Measurable f) (hf1 : ∀ x, 0 ≤ f x ∧ f x ≤ 1) {m : ℝ} (hm0 : 0 ≤ m) (hm : ∫⁻ x, ENNReal.ofReal (f x) ∂π = ENNReal.ofReal m)
    {δ : ℝ≥0∞} {h0 : ℕ}
    (hc : ∀ h, h0 ≤ h → ∫⁻ x, ENNReal.ofReal (f x) ∂pushN κ (π.withDensity fun x => ENNReal.ofReal (f x)) h ≤ ENNReal.ofReal m ^ 2 + δ)
    {n : ℕ} (keys : Fin n → Key) (w : Fin (n + 1) → ℝ) (hw : ∀ i, 0 ≤ w i ∧ w i ≤ 1) :
    ∫⁻ x, sqDev step f m keys w x ∂π ≤ ENNReal.ofReal (∑ i, w i) ^ 2 * δ + ENNReal.ofReal (∑ i, w i) * (2 * h0 : ℕ) := by
  obtain ⟨W, hW⟩ : ∃ W, W = ∑ i, w i := ⟨_, rfl⟩
  have hW0 : 0 ≤ W := hW ▸ Finset.sum_nonneg fun i _ => (hw i).1
  have hfm : Measurable fun x => ENNReal.ofReal (f x) := hf.ennreal_ofReal
  have hWe : ∑ i, ENNReal.ofReal (w i) = ENNReal.ofReal W := by rw [hW, ENNReal.ofReal_sum_of_nonneg fun i _ => (hw i).1]
  have hS : ∀ tr : Fin (n + 1) → X, ∑ i, ENNReal.ofReal (w i) * ENNReal.ofReal (f (tr i)) = ENNReal.ofReal (∑ i, w i * f (tr i)) := fun tr => by
    rw [ENNReal.ofReal_sum_of_nonneg fun i _ => mul_nonneg (hw i).1 (hf1 _).1]
    exact Finset.sum_congr rfl fun i _ => (ENNReal.ofReal_mul (hw i).1).symm
  have h2 := second_moment h hinv hfm (fun x => ENNReal.ofReal_le_one.mpr (hf1 x).2) hc keys (fun i => ENNReal.ofReal (w i))
    fun i => ENNReal.ofReal_le_one.mpr (hw i).2
  rw [hWe] at h2
  have hpw : ∀ tr : Fin (n + 1) → X, ENNReal.ofReal ((∑ i, w i * (f (tr i) - m)) ^ 2) +
      2 * ENNReal.ofReal (W * m) * ∑ i, ENNReal.ofReal (w i) * ENNReal.ofReal (f (tr i)) =
      (∑ i, ENNReal.ofReal (w i) * ENNReal.ofReal (f (tr i))) ^ 2 + ENNReal.ofReal (W * m) ^ 2 := fun tr => by
    rw [hS tr]
    have hS0 : 0 ≤ ∑ i, w i * f (tr i) := Finset.sum_nonneg fun i _ => mul_nonneg (hw i).1 (hf1 _).1
    have hWm : 0 ≤ W * m := mul_nonneg hW0 hm0
    have e : ∑ i, w i * (f (tr i) - m) = ∑ i, w i * f (tr i) - W * m := by
      rw [hW, Finset.sum_mul, ← Finset.sum_sub_distrib]
      exact Finset.sum_congr rfl fun i _ => by ring
    rw [e, show (2 : ℝ≥0∞) = ENNReal.ofReal 2 by simp, ← ENNReal.ofReal_mul (by norm_num), ← ENNReal.ofReal_mul (by positivity),
      ← ENNReal.ofReal_add (by positivity) (by positivity), ← ENNReal.ofReal_pow hS0, ← ENNReal.ofReal_pow hWm, ← ENNReal.ofReal_add (by positivity) (by positivity)]
    congr 1
    ring
  have hSm : Measurable fun tr : Fin (n + 1) → X => ∑ i, ENNReal.ofReal (w i) * ENNReal.ofReal (f (tr i)) := by fun_prop
  have hmean : ∫⁻ x, chain step x keys (fun tr => ∑ i, ENNReal.ofReal (w i) * ENNReal.ofReal (f (tr i))) ∂π = ENNReal.ofReal (W * m) := by
    have e : ∀ x, chain step x keys (fun tr => ∑ i, ENNReal.ofReal (w i) * ENNReal.ofReal (f (tr i))) =
        ∑ i, ENNReal.ofReal (w i) * chain step x keys (fun tr => ENNReal.ofReal (f (tr i))) := fun x => by
      rw [(h.chain_ker keys).sum x univ (f := fun i tr => ENNReal.ofReal (w i) * ENNReal.ofReal (f (tr i))) (fun i _ => by fun_prop)]
      exact Finset.sum_congr rfl fun i _ => (h.chain_ker keys).const_mul x _ (f := fun tr => ENNReal.ofReal (f (tr i))) (by fun_prop)
    have hm' : ∀ i, Measurable fun x => chain step x keys (fun tr => ENNReal.ofReal (f (tr i))) := fun i =>
      (h.chain_ker keys).measurable' (f := fun tr => ENNReal.ofReal (f (tr i))) (by fun_prop)
    simp only [e]
    rw [lintegral_finsetSum _ fun i _ => (hm' i).const_mul _, ENNReal.ofReal_mul hW0, ← hWe, Finset.sum_mul]
    refine Finset.sum_congr rfl fun i _ => ?_
    rw [lintegral_const_mul _ (hm' i), h.chain_law keys i π hfm, pushN_inv hinv, hm]
  have hI : ∫⁻ x, sqDev step f m keys w x ∂π + 2 * ENNReal.ofReal (W * m) * ENNReal.ofReal (W * m) =
      ∫⁻ x, chain step x keys (fun tr => (∑ i, ENNReal.ofReal (w i) * ENNReal.ofReal (f (tr i))) ^ 2) ∂π + ENNReal.ofReal (W * m) ^ 2 := by
    have hm' : Measurable fun x => chain step x keys (fun tr => ∑ i, ENNReal.ofReal (w i) * ENNReal.ofReal (f (tr i))) :=
      (h.chain_ker keys).measurable' hSm
    conv_lhs => rw [← hmean]
    rw [hmean, ← hmean, ← lintegral_const_mul _ hm', ← lintegral_add_left (measurable_sqDev h hf m keys w)]
    have e1 : ENNReal.ofReal (W * m) ^ 2 = ∫⁻ _, ENNReal.ofReal (W * m) ^ 2 ∂π := by rw [lintegral_const, measure_univ, mul_one]
    rw [hmean, e1, ← lintegral_add_right _ measurable_const]
    refine lintegral_congr fun x => ?_
    rw [sqDev, ← (h.chain_ker keys).const_mul x _ hSm, ← (h.chain_ker keys).add x (measurable_devF hf m w) (hSm.const_mul _)]
    have e2 : ENNReal.ofReal (W * m) ^ 2 = chain step x keys (fun _ => ENNReal.ofReal (W * m) ^ 2) := (h.chain_const keys x _).symm
    rw [e2, ← (h.chain_ker keys).add x (hSm.pow_const 2) measurable_const]
    exact Ex.congr_fun' _ hpw
  have hfin : ENNReal.ofReal (W * m) ^ 2 ≠ ∞ := ENNReal.pow_ne_top ENNReal.ofReal_ne_top
  rw [← hW]
  refine (ENNReal.add_le_add_iff_right (a := 2 * ENNReal.ofReal (W * m) ^ 2) (ENNReal.mul_ne_top (by norm_num) hfin)).mp ?_
  calc ∫⁻ x, sqDev step f m keys w x ∂π + 2 * ENNReal.ofReal (W * m) ^ 2
      = ∫⁻ x, sqDev step f m keys w x ∂π + 2 * ENNReal.ofReal (W * m) * ENNReal.ofReal (W * m) := by rw [sq, mul_assoc]
    _ ≤ (ENNReal.ofReal W ^ 2 * (ENNReal.ofReal m ^ 2 + δ) + ENNReal.ofReal W * (2 * h0 : ℕ)) + ENNReal.ofReal (W * m) ^ 2 := by
        rw [hI]; gcongr
    _ = _ := by rw [ENNReal.ofReal_mul hW0]; ring

/-- Steps that the sum does not look at. -/
theorem sqDev_shift (h : StepOf κ step) {f : X → ℝ} (hf : Measurable f) (m : ℝ) (n0 : ℕ) {n : ℕ} (keys : Fin n → Key) (w : Fin (n + 1) → ℝ)
    (hw : ∀ i, 0 ≤ w i ∧ w i ≤ 1) (h0 : ∀ i : Fin (n + 1), (i : ℕ) < n0 → w i = 0) (ν : Measure X) :
    ∃ (k : ℕ) (keys' : Fin k → Key) (w' : Fin (k + 1) → ℝ), (∀ i, 0 ≤ w' i ∧ w' i ≤ 1) ∧ ∑ i, w' i = ∑ i, w i ∧
      ∫⁻ x, sqDev step f m keys w x ∂ν = ∫⁻ x, sqDev step f m keys' w' x ∂pushN κ ν n0 := by
  induction n0 generalizing n ν with
  | zero => exact ⟨n, keys, w, hw, rfl, rfl⟩
  | succ n0 ih =>
    cases n with
    | zero =>
      have e0 : ∀ i, w i = 0 := fun i => h0 i (by omega)
      refine ⟨0, keys, w, hw, rfl, ?_⟩
      have e : ∀ x, sqDev step f m keys w x = 0 := fun x => by
        have : (fun tr : Fin (0 + 1) → X => ENNReal.ofReal ((∑ i, w i * (f (tr i) - m)) ^ 2)) = fun _ => 0 := funext fun tr => by simp [e0]
        rw [sqDev, this, h.chain_const]
      simp [e]
    | succ n =>
      obtain ⟨k, keys', w', hw', hs, e⟩ := ih (tailA keys) (tailA w) (fun i => hw i.succ)
        (fun i hi => h0 i.succ (by rw [Fin.val_succ]; omega)) (ν.bind κ)
      have hz : w 0 = 0 := h0 0 (by simp)
      refine ⟨k, keys', w', hw', ?_, ?_⟩
      · rw [hs, Fin.sum_univ_succ w, hz, zero_add]
        rfl
      · rw [show n0 + 1 = 1 + n0 from add_comm _ _, pushN_add]
        refine Eq.trans ?_ e
        rw [lintegral_bindK κ ν (measurable_sqDev h hf m _ _)]
        refine lintegral_congr fun x => ?_
        refine Eq.trans ?_ (h.chain_tail keys (measurable_devF hf m (tailA w)) x)
        refine Ex.congr_fun' _ fun tr => ?_
        rw [Fin.sum_univ_succ, hz, zero_mul, zero_add]
        rfl

omit [MeasurableSpace X] in
/-- The weighted sum over all times and the one from time `n0` on. -/
theorem dev_split {f : X → ℝ} {m : ℝ} (hf1 : ∀ x, |f x - m| ≤ 1) (n0 : ℕ) {n : ℕ} {w : Fin n → ℝ} (hw : ∀ i, 0 ≤ w i ∧ w i ≤ 1) (tr : Fin n → X) :
    (∑ i, w i * (f (tr i) - m)) ^ 2 ≤ 2 * (n0 : ℝ) ^ 2 + 2 * (∑ i : Fin n, (if (i : ℕ) < n0 then 0 else w i) * (f (tr i) - m)) ^ 2 := by
  have e : ∑ i, w i * (f (tr i) - m) = ∑ i : Fin n, (if (i : ℕ) < n0 then w i else 0) * (f (tr i) - m) +
      ∑ i : Fin n, (if (i : ℕ) < n0 then 0 else w i) * (f (tr i) - m) := by
    rw [← Finset.sum_add_distrib]
    refine Finset.sum_congr rfl fun i _ => ?_
    split_ifs <;> ring
  have hb : |∑ i : Fin n, (if (i : ℕ) < n0 then w i else 0) * (f (tr i) - m)| ≤ n0 := by
    calc _ ≤ ∑ i : Fin n, |(if (i : ℕ) < n0 then w i else 0) * (f (tr i) - m)| := Finset.abs_sum_le_sum_abs _ _
      _ ≤ ∑ i : Fin n, if (i : ℕ) < n0 then (1 : ℝ) else 0 := by
        refine Finset.sum_le_sum fun i _ => ?_
        split_ifs
        · rw [abs_mul, abs_of_nonneg (hw i).1]
          exact mul_le_one₀ (hw i).2 (abs_nonneg _) (hf1 _)
        · simp
      _ = (#{i : Fin n | (i : ℕ) < n0} : ℝ) := by rw [Finset.sum_boole]
      _ ≤ n0 := by
        have : #{i : Fin n | (i : ℕ) < n0} ≤ #(Finset.range n0) :=
          Finset.card_le_card_of_injOn (fun j => (j : ℕ)) (fun j hj => by simpa using hj) (fun a _ b _ hab => Fin.ext hab)
        rw [Finset.card_range] at this
        exact_mod_cast this
  rw [e]
  obtain ⟨a, ha⟩ : ∃ a, a = ∑ i : Fin n, (if (i : ℕ) < n0 then w i else 0) * (f (tr i) - m) := ⟨_, rfl⟩
  rw [← ha] at hb ⊢
  have h1 : a ^ 2 ≤ (n0 : ℝ) ^ 2 := sq_le_sq' (by linarith [abs_le.mp hb |>.1]) (abs_le.mp hb).2
  generalize ∑ i : Fin n, (if (i : ℕ) < n0 then 0 else w i) * (f (tr i) - m) = b
  nlinarith [sq_nonneg (a - b)]

omit [MeasurableSpace X] in
theorem dev_le {f : X → ℝ} {m : ℝ} (hf1 : ∀ x, |f x - m| ≤ 1) {n : ℕ} {w : Fin n → ℝ} (hw : ∀ i, 0 ≤ w i ∧ w i ≤ 1) (tr : Fin n → X) :
    (∑ i, w i * (f (tr i) - m)) ^ 2 ≤ (∑ i, w i) ^ 2 := by
  have : |∑ i, w i * (f (tr i) - m)| ≤ ∑ i, w i := by
    refine (Finset.abs_sum_le_sum_abs _ _).trans (Finset.sum_le_sum fun i _ => ?_)
    rw [abs_mul, abs_of_nonneg (hw i).1]
    exact mul_le_of_le_one_right (hw i).1 (hf1 _)
  exact sq_le_sq' (by linarith [(abs_le.mp this).1]) (abs_le.mp this).2

/-- Weighted averages along a chain approach the mean under the invariant law. -/
theorem averages [MeasurableSpace.CountablyGenerated X] (h : StepOf κ step) {π : Measure X} [IsProbabilityMeasure π] (hinv : π.bind κ = π)
    (hκ : ∀ x, π ≪ κ x) {ν : Measure X} (hν : Smooths κ π ν) [IsProbabilityMeasure ν]
    {f : X → ℝ} (hf : Measurable f) (hf1 : ∀ x, 0 ≤ f x ∧ f x ≤ 1) {η : ℝ≥0∞} (hη : η ≠ 0) :
    ∃ W0 : ℝ, ∀ (n : ℕ) (keys : Fin n → Key) (w : Fin (n + 1) → ℝ), (∀ i, 0 ≤ w i ∧ w i ≤ 1) → W0 ≤ ∑ i, w i →
      ∫⁻ x, sqDev step f (∫ x, f x ∂π) keys w x ∂ν ≤ ENNReal.ofReal (∑ i, w i) ^ 2 * η := by
  by_cases hηt : η = ∞
  · refine ⟨1, fun n keys w _ hW => ?_⟩
    rw [hηt, ENNReal.mul_top (pow_ne_zero _ (ENNReal.ofReal_pos.mpr (by linarith)).ne')]
    exact le_top
  obtain ⟨m, hm⟩ : ∃ m, m = ∫ x, f x ∂π := ⟨_, rfl⟩
  have hm' : ∫⁻ x, ENNReal.ofReal (f x) ∂π = ENNReal.ofReal m := by
    rw [hm, ofReal_integral_eq_lintegral_ofReal]
    · exact Integrable.of_bound hf.aestronglyMeasurable 1 (Filter.Eventually.of_forall fun x => by
        rw [Real.norm_eq_abs, abs_of_nonneg (hf1 x).1]; exact (hf1 x).2)
    · exact Filter.Eventually.of_forall fun x => (hf1 x).1
  have hm0 : 0 ≤ m := hm ▸ integral_nonneg fun x => (hf1 x).1
  have hm1 : m ≤ 1 := by
    have : ENNReal.ofReal m ≤ 1 := hm' ▸ (lintegral_mono fun x => ENNReal.ofReal_le_one.mpr (hf1 x).2).trans (by rw [lintegral_one, measure_univ])
    exact ENNReal.ofReal_le_one.mp this
  have hfd : ∀ x, |f x - m| ≤ 1 := fun x => abs_le.mpr ⟨by linarith [(hf1 x).1], by linarith [(hf1 x).2]⟩
  rw [← hm]
  have h8 : η / 8 ≠ 0 := ENNReal.div_ne_zero.mpr ⟨hη, by norm_num⟩
  obtain ⟨n0, C, ρ, _, hC1, hC, hρ, htv⟩ := hν (η / 8) h8
  have hC0 : C ≠ 0 := (zero_lt_one.trans_le hC1).ne'
  obtain ⟨h0, hh0⟩ := correlation hinv hκ hf.ennreal_ofReal (fun x => ENNReal.ofReal_le_one.mpr (hf1 x).2) (δ := η / 8 / C)
    (ENNReal.div_ne_zero.mpr ⟨h8, hC⟩)
  rw [hm'] at hh0
  obtain ⟨R, hR⟩ : ∃ R : ℝ≥0∞, R = (8 * (n0 : ℝ≥0∞) ^ 2 + 16 * C * h0) / η := ⟨_, rfl⟩
  have hRt : R ≠ ∞ := hR ▸ ENNReal.div_ne_top (ENNReal.add_ne_top.mpr ⟨ENNReal.mul_ne_top (by norm_num) (ENNReal.pow_ne_top (ENNReal.natCast_ne_top _)),
    ENNReal.mul_ne_top (ENNReal.mul_ne_top (by norm_num) hC) (ENNReal.natCast_ne_top _)⟩) hη
  refine ⟨max 1 R.toReal, fun n keys w hw hW => ?_⟩
  obtain ⟨W, hWd⟩ : ∃ W, W = ∑ i, w i := ⟨_, rfl⟩
  rw [← hWd] at hW ⊢
  obtain ⟨V, hV⟩ : ∃ V, V = ENNReal.ofReal W := ⟨_, rfl⟩
  have hV1 : 1 ≤ V := by
    rw [hV, ← ENNReal.ofReal_one]
    exact ENNReal.ofReal_le_ofReal (le_trans (le_max_left _ _) hW)
  have hVR : R ≤ V := by
    rw [hV, ← ENNReal.ofReal_toReal hRt]
    exact ENNReal.ofReal_le_ofReal (le_trans (le_max_right _ _) hW)
  have hVt : V ≠ ∞ := hV ▸ ENNReal.ofReal_ne_top
  have hV0 : V ≠ 0 := (zero_lt_one.trans_le hV1).ne'
  have hbig : 8 * (n0 : ℝ≥0∞) ^ 2 + 16 * C * h0 ≤ V * η := by
    have := mul_le_mul_left hVR η
    rwa [hR, ENNReal.div_mul_cancel hη hηt] at this
  -- drop the first steps
  obtain ⟨w2, hw2⟩ : ∃ w2 : Fin (n + 1) → ℝ, w2 = fun (i : Fin (n + 1)) => if (i : ℕ) < n0 then 0 else w i := ⟨_, rfl⟩
  have hw2' : ∀ i, 0 ≤ w2 i ∧ w2 i ≤ 1 := fun i => by
    rw [hw2]
    dsimp only
    split_ifs
    · exact ⟨le_rfl, zero_le_one⟩
    · exact hw i
  obtain ⟨k, keys', w', hw', hs, he⟩ := sqDev_shift h hf m n0 keys w2 hw2' (fun i hi => by rw [hw2]; exact if_pos hi) ν
  have hsum : ∑ i, w' i ≤ W := by
    rw [hs, hWd]
    refine Finset.sum_le_sum fun i _ => ?_
    rw [hw2]
    dsimp only
    split_ifs
    · exact (hw i).1
    · exact le_rfl
  have hsum0 : 0 ≤ ∑ i, w' i := Finset.sum_nonneg fun i _ => (hw' i).1
  have hsV : ENNReal.ofReal (∑ i, w' i) ≤ V := hV ▸ ENNReal.ofReal_le_ofReal hsum
  have s1 : ∫⁻ x, sqDev step f m keys w x ∂ν ≤ 2 * (n0 : ℝ≥0∞) ^ 2 + 2 * ∫⁻ x, sqDev step f m keys w2 x ∂ν := by
    rw [← lintegral_const_mul _ (measurable_sqDev h hf m keys w2)]
    have e : (2 * (n0 : ℝ≥0∞) ^ 2) = ∫⁻ _, 2 * (n0 : ℝ≥0∞) ^ 2 ∂ν := by rw [lintegral_const, measure_univ, mul_one]
    rw [e, ← lintegral_add_left measurable_const]
    refine lintegral_mono fun x => ?_
    have e2 : 2 * (n0 : ℝ≥0∞) ^ 2 = chain step x keys (fun _ => 2 * (n0 : ℝ≥0∞) ^ 2) := (h.chain_const keys x _).symm
    rw [e2, sqDev, sqDev, ← (h.chain_ker keys).const_mul x _ (measurable_devF hf m w2),
      ← (h.chain_ker keys).add x measurable_const ((measurable_devF hf m w2).const_mul _)]
    refine (h.chain_ker keys).mono x (measurable_devF hf m w) (measurable_const.add ((measurable_devF hf m w2).const_mul _)) fun tr => ?_
    have := dev_split (m := m) hfd n0 hw tr
    refine (ENNReal.ofReal_le_ofReal this).trans ?_
    rw [ENNReal.ofReal_add (by positivity) (by positivity), ENNReal.ofReal_mul (by norm_num), ENNReal.ofReal_mul (by norm_num),
      ENNReal.ofReal_pow (by positivity), ENNReal.ofReal_natCast, ENNReal.ofReal_ofNat, hw2]
  have s2 : ∀ x, sqDev step f m keys' w' x ≤ V ^ 2 := fun x => by
    rw [sqDev, ← h.chain_const keys' x (V ^ 2)]
    refine (h.chain_ker keys').mono x (measurable_devF hf m w') measurable_const fun tr => ?_
    refine (ENNReal.ofReal_le_ofReal (dev_le hfd hw' tr)).trans ?_
    rw [ENNReal.ofReal_pow hsum0]
    gcongr
  have hVV : V ^ 2 ≠ 0 := pow_ne_zero _ hV0
  have hVVt : V ^ 2 ≠ ∞ := ENNReal.pow_ne_top hVt
  have hmd := measurable_sqDev h hf m keys' w'
  have s3 : ∫⁻ x, sqDev step f m keys' w' x ∂pushN κ ν n0 ≤ ∫⁻ x, sqDev step f m keys' w' x ∂ρ + V ^ 2 * (η / 8) := by
    have := (htv (fun x => (V ^ 2)⁻¹ * sqDev step f m keys' w' x) (hmd.const_mul _) fun x => by
      calc (V ^ 2)⁻¹ * sqDev step f m keys' w' x ≤ (V ^ 2)⁻¹ * V ^ 2 := by gcongr; exact s2 x
        _ = 1 := ENNReal.inv_mul_cancel hVV hVVt).1
    dsimp only at this
    rw [lintegral_const_mul _ hmd, lintegral_const_mul _ hmd] at this
    have h2 := mul_le_mul_right this (V ^ 2)
    rwa [mul_add, ← mul_assoc, ← mul_assoc, ENNReal.mul_inv_cancel hVV hVVt, one_mul, one_mul] at h2
  have s4 : ∫⁻ x, sqDev step f m keys' w' x ∂ρ ≤ C * (V ^ 2 * (η / 8 / C) + V * (2 * h0 : ℕ)) := by
    calc ∫⁻ x, sqDev step f m keys' w' x ∂ρ ≤ ∫⁻ x, sqDev step f m keys' w' x ∂(C • π) := lintegral_mono' hρ le_rfl
      _ = C * ∫⁻ x, sqDev step f m keys' w' x ∂π := by rw [lintegral_smul_measure, smul_eq_mul]
      _ ≤ C * (ENNReal.ofReal (∑ i, w' i) ^ 2 * (η / 8 / C) + ENNReal.ofReal (∑ i, w' i) * (2 * h0 : ℕ)) := by
        gcongr
        exact variance_le h hinv hf hf1 hm0 hm' hh0 keys' w' hw'
      _ ≤ _ := by gcongr
  have e5 : C * (V ^ 2 * (η / 8 / C)) = V ^ 2 * (η / 8) := by
    rw [ENNReal.div_eq_inv_mul (b := C)]
    rw [show C * (V ^ 2 * (C⁻¹ * (η / 8))) = (C * C⁻¹) * (V ^ 2 * (η / 8)) by ring, ENNReal.mul_inv_cancel hC0 hC, one_mul]
  have e8 : 8 * (η / 8) = η := ENNReal.mul_div_cancel (by norm_num) (by norm_num)
  have fin : ∫⁻ x, sqDev step f m keys w x ∂ν ≤ 2 * (n0 : ℝ≥0∞) ^ 2 + 4 * C * h0 * V + 4 * (V ^ 2 * (η / 8)) := by
    refine s1.trans ?_
    rw [he]
    calc 2 * (n0 : ℝ≥0∞) ^ 2 + 2 * ∫⁻ x, sqDev step f m keys' w' x ∂pushN κ ν n0
        ≤ 2 * (n0 : ℝ≥0∞) ^ 2 + 2 * (C * (V ^ 2 * (η / 8 / C) + V * (2 * h0 : ℕ)) + V ^ 2 * (η / 8)) := by
          gcongr
          exact s3.trans (by gcongr)
      _ = _ := by
        rw [mul_add C, e5]
        push_cast
        ring
  have hlast : 2 * (n0 : ℝ≥0∞) ^ 2 + 4 * C * h0 * V ≤ V ^ 2 * (2 * (η / 8)) := by
    have : 2 * (n0 : ℝ≥0∞) ^ 2 + 4 * C * h0 ≤ V * (2 * (η / 8)) := by
      have h4 : 4 * (2 * (n0 : ℝ≥0∞) ^ 2 + 4 * C * h0) ≤ 4 * (V * (2 * (η / 8))) := by
        calc _ = 8 * (n0 : ℝ≥0∞) ^ 2 + 16 * C * h0 := by ring
          _ ≤ V * η := hbig
          _ = V * (8 * (η / 8)) := by rw [e8]
          _ = _ := by ring
      exact (ENNReal.mul_le_mul_iff_right (by norm_num) (by norm_num)).mp h4
    calc 2 * (n0 : ℝ≥0∞) ^ 2 + 4 * C * h0 * V ≤ (2 * (n0 : ℝ≥0∞) ^ 2) * V + 4 * C * h0 * V := add_le_add_left (le_mul_of_one_le_right' hV1) _
      _ = (2 * (n0 : ℝ≥0∞) ^ 2 + 4 * C * h0) * V := by ring
      _ ≤ (V * (2 * (η / 8))) * V := by gcongr
      _ = _ := by ring
  rw [← hV]
  calc _ ≤ _ := fin
    _ ≤ V ^ 2 * (2 * (η / 8)) + 4 * (V ^ 2 * (η / 8)) := by gcongr
    _ = V ^ 2 * (6 * (η / 8)) := by ring
    _ ≤ V ^ 2 * (8 * (η / 8)) := by gcongr; norm_num
    _ = _ := by rw [e8]

end Verif
