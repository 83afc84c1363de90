import Verif.Lemmas.DoeblinNear
import Verif.Spec.RunAverages

/-!
# Mean squared error of averages over chains that settle
-/

open scoped ENNReal
open MeasureTheory ProbabilityTheory Finset

namespace Verif
open Verif.Spec Verif.Model

variable {S X : Type} [MeasurableSpace S] [MeasurableSpace X]

theorem cov_le {a h p e : ℝ≥0∞} (ha : a ≤ 1) (hh : h ≤ 1) (hp : p ≤ 1) (h1 : h ≤ p + e) (h2 : p ≤ h + e) :
    a * h + p * p ≤ p * (a + h) + e := by
  rcases eq_or_ne e ∞ with rfl | he
  · simp
  have ha' := ne_top_of_le_ne_top ENNReal.one_ne_top ha
  have hh' := ne_top_of_le_ne_top ENNReal.one_ne_top hh
  have hp' := ne_top_of_le_ne_top ENNReal.one_ne_top hp
  lift a to NNReal using ha'
  lift h to NNReal using hh'
  lift p to NNReal using hp'
  lift e to NNReal using he
  norm_cast at *
  rw [← NNReal.coe_le_coe] at *
  push_cast at *
  have a0 := a.coe_nonneg
  have p0 := p.coe_nonneg
  have e0 := e.coe_nonneg
  rcases le_total (p : ℝ) a with c | c
  · nlinarith [mul_le_mul_of_nonneg_left h1 (sub_nonneg.mpr c)]
  · nlinarith [mul_le_mul_of_nonneg_left h2 (sub_nonneg.mpr c)]

/-- Two samples of a chain that settles are nearly uncorrelated if there are many steps between them. -/
theorem chain_pair_le {step : Key → S → Ex S} (hk : ∀ key, IsKer (step key)) (hm : ∀ key s, step key s (fun _ => 1) = 1) {p : S → X}
    (hp : Measurable p) {π : Measure X} [IsProbabilityMeasure π] {e : ℕ → ℝ≥0∞}
    (hset : ∀ {T : ℕ} (keys : Fin T → Key) (i : Fin (T + 1)) s, TVLe (e i) (fun f => chain step s keys fun tr => f (p (tr i)))
      fun f => ∫⁻ x, f x ∂π)
    {f : X → ℝ≥0∞} (hf : Measurable f) (hf1 : ∀ x, f x ≤ 1) {T : ℕ} (keys : Fin T → Key) (i j : Fin (T + 1)) (hij : i ≤ j) (s : S) :
    chain step s keys (fun tr => f (p (tr i)) * f (p (tr j))) + (∫⁻ x, f x ∂π) * ∫⁻ x, f x ∂π ≤
      (∫⁻ x, f x ∂π) * (chain step s keys (fun tr => f (p (tr i))) + chain step s keys fun tr => f (p (tr j))) + e (j - i : ℕ) := by
  have hle : ∀ {T : ℕ} (keys : Fin T → Key) (i : Fin (T + 1)) (s : S), chain step s keys (fun tr => f (p (tr i))) ≤ 1 :=
    fun keys i s => ((chain_ker hk keys).mono s (by fun_prop) measurable_const fun tr => hf1 _).trans (chain_mass hm keys s).le
  have hπ1 : ∫⁻ x, f x ∂π ≤ 1 := (lintegral_mono hf1).trans (by rw [lintegral_one, measure_univ])
  have start : ∀ {T : ℕ} (keys : Fin T → Key) (F : S → (Fin (T + 1) → S) → ℝ≥0∞) (s : S),
      chain step s keys (fun tr => F (tr 0) tr) = chain step s keys (fun tr => F s tr) := fun {T} keys F s => by
    cases T with
    | zero => rfl
    | succ T => rfl
  induction T generalizing s with
  | zero =>
    have hi : i = 0 := by omega
    have hj : j = 0 := by omega
    subst hi hj
    obtain ⟨a, b⟩ := hset keys 0 s f hf hf1
    exact cov_le (hf1 _) (hf1 _) hπ1 a b
  | succ T ih =>
    refine Fin.cases (fun hij => ?_) (fun i' hij => ?_) i hij
    · obtain ⟨a, b⟩ := hset keys j s f hf hf1
      have e1 : chain step s keys (fun tr => f (p (tr 0)) * f (p (tr j))) = f (p s) * chain step s keys fun tr => f (p (tr j)) := by
        rw [start keys (fun s0 tr => f (p s0) * f (p (tr j))) s, (chain_ker hk keys).const_mul s _ (by fun_prop)]
      have e2 : chain step s keys (fun tr => f (p (tr 0))) = f (p s) := by
        rw [start keys (fun s0 _ => f (p s0)) s, (chain_ker hk keys).const_fun s, chain_mass hm, mul_one]
      rw [e1, e2]
      exact cov_le (hf1 _) (hle keys j s) hπ1 a b
    · obtain ⟨j', rfl⟩ := Fin.exists_succ_eq.mpr (show j ≠ 0 from fun h => by subst h; exact absurd hij (by simp))
      have hij' : i' ≤ j' := Fin.succ_le_succ_iff.mp hij
      have ec : ∀ F : (Fin (T + 1) → S) → ℝ≥0∞, chain step s keys (fun tr => F fun k => tr k.succ) =
          step (keys 0) s fun s1 => chain step s1 (tailA keys) F := fun F => rfl
      have m1 : ∀ F : (Fin (T + 1) → S) → ℝ≥0∞, Measurable F → Measurable fun s1 => chain step s1 (tailA keys) F := fun F hF =>
        (chain_ker hk (tailA keys)).measurable' hF
      rw [ec fun tr => f (p (tr i')) * f (p (tr j')), ec fun tr => f (p (tr i')), ec fun tr => f (p (tr j'))]
      have M1 := m1 (fun tr => f (p (tr i')) * f (p (tr j'))) (by fun_prop)
      have M2 := m1 (fun tr => f (p (tr i'))) (by fun_prop)
      have M3 := m1 (fun tr => f (p (tr j'))) (by fun_prop)
      have M4 : Measurable fun s1 => chain step s1 (tailA keys) (fun tr => f (p (tr i'))) + chain step s1 (tailA keys) fun tr => f (p (tr j')) :=
        M2.add M3
      have M5 : Measurable fun s1 => (∫⁻ x, f x ∂π) * (chain step s1 (tailA keys) (fun tr => f (p (tr i'))) +
          chain step s1 (tailA keys) fun tr => f (p (tr j'))) := M4.const_mul _
      have hc : ∀ c, step (keys 0) s (fun _ => c) = c := fun c => by rw [(hk _).const_fun, hm, mul_one]
      have h := (hk (keys 0)).mono s (f := fun s1 => chain step s1 (tailA keys) (fun tr => f (p (tr i')) * f (p (tr j'))) +
          (∫⁻ x, f x ∂π) * ∫⁻ x, f x ∂π)
        (g := fun s1 => (∫⁻ x, f x ∂π) * (chain step s1 (tailA keys) (fun tr => f (p (tr i'))) +
          chain step s1 (tailA keys) fun tr => f (p (tr j'))) + e (j' - i' : ℕ)) (M1.add_const _)
        (M5.add_const _) fun s1 => ih (tailA keys) i' j' hij' s1
      rw [(hk (keys 0)).add s M1 measurable_const, hc, (hk (keys 0)).add s M5 measurable_const, hc,
        (hk (keys 0)).const_mul s _ M4, (hk (keys 0)).add s M2 M3] at h
      simpa using h

/-- Mean squared error of an average from the covariances. -/
theorem mse_of_pairs {Ω : Type} [MeasurableSpace Ω] {D : Unit → Ex Ω} (hD : IsKer D) (h1 : D () (fun _ => 1) = 1) {M : ℕ} (hM : M ≠ 0)
    {Y : Fin M → Ω → ℝ} (hY : ∀ k, Measurable (Y k)) (h0 : ∀ k ω, 0 ≤ Y k ω ∧ Y k ω ≤ 1) {p : ℝ} (hp : 0 ≤ p)
    {e : Fin M → Fin M → ℝ≥0∞}
    (he : ∀ k l, D () (fun ω => ENNReal.ofReal (Y k ω) * ENNReal.ofReal (Y l ω)) + ENNReal.ofReal p * ENNReal.ofReal p ≤
      ENNReal.ofReal p * (D () (fun ω => ENNReal.ofReal (Y k ω)) + D () fun ω => ENNReal.ofReal (Y l ω)) + e k l) :
    D () (fun ω => ENNReal.ofReal (((∑ k, Y k ω) / M - p) ^ 2)) ≤ (∑ k, ∑ l, e k l) / (M * M : ℝ≥0∞) := by
  have hM' : (0 : ℝ) < M := by exact_mod_cast Nat.pos_of_ne_zero hM
  let c : ℝ≥0∞ := ENNReal.ofReal ((M * M : ℝ)⁻¹)
  have hYm : ∀ k, Measurable fun ω => ENNReal.ofReal (Y k ω) := fun k => (hY k).ennreal_ofReal
  have hle : ∀ k, D () (fun ω => ENNReal.ofReal (Y k ω)) ≤ 1 := fun k =>
    (hD.mono () (hYm k) measurable_const fun ω => ENNReal.ofReal_le_one.mpr (h0 k ω).2).trans h1.le
  -- the two sides of the expanded square
  let A : Ω → ℝ≥0∞ := fun ω => ∑ k, ∑ l, c * (ENNReal.ofReal (Y k ω) * ENNReal.ofReal (Y l ω) + ENNReal.ofReal p * ENNReal.ofReal p)
  let C : Ω → ℝ≥0∞ := fun ω => ∑ k, ∑ l, c * (ENNReal.ofReal p * (ENNReal.ofReal (Y k ω) + ENNReal.ofReal (Y l ω)))
  have hsq : ∀ ω, ENNReal.ofReal (((∑ k, Y k ω) / M - p) ^ 2) + C ω = A ω := fun ω => by
    have eA : A ω = ENNReal.ofReal (∑ k, ∑ l, (M * M : ℝ)⁻¹ * (Y k ω * Y l ω + p * p)) := by
      rw [ENNReal.ofReal_sum_of_nonneg fun k _ => sum_nonneg fun l _ => mul_nonneg (by positivity)
        (add_nonneg (mul_nonneg (h0 k ω).1 (h0 l ω).1) (mul_nonneg hp hp))]
      refine sum_congr rfl fun k _ => ?_
      rw [ENNReal.ofReal_sum_of_nonneg fun l _ => mul_nonneg (by positivity)
        (add_nonneg (mul_nonneg (h0 k ω).1 (h0 l ω).1) (mul_nonneg hp hp))]
      refine sum_congr rfl fun l _ => ?_
      rw [ENNReal.ofReal_mul (by positivity), ENNReal.ofReal_add (mul_nonneg (h0 k ω).1 (h0 l ω).1) (mul_nonneg hp hp),
        ENNReal.ofReal_mul (h0 k ω).1, ENNReal.ofReal_mul hp]
    have eC : C ω = ENNReal.ofReal (∑ k, ∑ l, (M * M : ℝ)⁻¹ * (p * (Y k ω + Y l ω))) := by
      rw [ENNReal.ofReal_sum_of_nonneg fun k _ => sum_nonneg fun l _ => mul_nonneg (by positivity)
        (mul_nonneg hp (add_nonneg (h0 k ω).1 (h0 l ω).1))]
      refine sum_congr rfl fun k _ => ?_
      rw [ENNReal.ofReal_sum_of_nonneg fun l _ => mul_nonneg (by positivity)
        (mul_nonneg hp (add_nonneg (h0 k ω).1 (h0 l ω).1))]
      refine sum_congr rfl fun l _ => ?_
      rw [ENNReal.ofReal_mul (by positivity), ENNReal.ofReal_mul hp, ENNReal.ofReal_add (h0 k ω).1 (h0 l ω).1]
    rw [eA, eC, ← ENNReal.ofReal_add (sq_nonneg _) (sum_nonneg fun k _ => sum_nonneg fun l _ => mul_nonneg (by positivity)
        (mul_nonneg hp (add_nonneg (h0 k ω).1 (h0 l ω).1)))]
    refine congrArg _ ?_
    simp only [← mul_sum, sum_add_distrib, sum_const, card_univ, Fintype.card_fin, nsmul_eq_mul, ← sum_mul]
    generalize (∑ k, Y k ω) = q
    field_simp
    ring
  have hAm : ∀ k l, Measurable fun ω => ENNReal.ofReal (Y k ω) * ENNReal.ofReal (Y l ω) := fun k l => (hYm k).mul (hYm l)
  have hBm : ∀ k l, Measurable fun ω => ENNReal.ofReal (Y k ω) + ENNReal.ofReal (Y l ω) := fun k l => (hYm k).add (hYm l)
  have hCm : Measurable C := Finset.measurable_fun_sum _ fun k _ => Finset.measurable_fun_sum _ fun l _ =>
    ((hBm k l).const_mul _).const_mul _
  have hFm : Measurable fun ω => ENNReal.ofReal (((∑ k, Y k ω) / M - p) ^ 2) :=
    ((((Finset.measurable_fun_sum _ fun k _ => hY k).div_const _).sub_const _).pow_const _).ennreal_ofReal
  have eA : D () A = ∑ k, ∑ l, c * (D () (fun ω => ENNReal.ofReal (Y k ω) * ENNReal.ofReal (Y l ω)) + ENNReal.ofReal p * ENNReal.ofReal p) := by
    rw [hD.sum () univ (f := fun k ω => ∑ l, c * (ENNReal.ofReal (Y k ω) * ENNReal.ofReal (Y l ω) + ENNReal.ofReal p * ENNReal.ofReal p))
      fun k _ => Finset.measurable_fun_sum _ fun l _ => ((hAm k l).add_const _).const_mul _]
    refine sum_congr rfl fun k _ => ?_
    rw [hD.sum () univ (f := fun l ω => c * (ENNReal.ofReal (Y k ω) * ENNReal.ofReal (Y l ω) + ENNReal.ofReal p * ENNReal.ofReal p))
      fun l _ => ((hAm k l).add_const _).const_mul _]
    refine sum_congr rfl fun l _ => ?_
    rw [hD.const_mul () c ((hAm k l).add_const _), hD.add () (hAm k l) measurable_const, hD.const_fun, h1, mul_one]
  have eC : D () C = ∑ k, ∑ l, c * (ENNReal.ofReal p * (D () (fun ω => ENNReal.ofReal (Y k ω)) + D () fun ω => ENNReal.ofReal (Y l ω))) := by
    rw [hD.sum () univ (f := fun k ω => ∑ l, c * (ENNReal.ofReal p * (ENNReal.ofReal (Y k ω) + ENNReal.ofReal (Y l ω))))
      fun k _ => Finset.measurable_fun_sum _ fun l _ => ((hBm k l).const_mul _).const_mul _]
    refine sum_congr rfl fun k _ => ?_
    rw [hD.sum () univ (f := fun l ω => c * (ENNReal.ofReal p * (ENNReal.ofReal (Y k ω) + ENNReal.ofReal (Y l ω))))
      fun l _ => ((hBm k l).const_mul _).const_mul _]
    refine sum_congr rfl fun l _ => ?_
    rw [hD.const_mul () c ((hBm k l).const_mul _), hD.const_mul () _ (hBm k l), hD.add () (hYm k) (hYm l)]
  have hsum : D () (fun ω => ENNReal.ofReal (((∑ k, Y k ω) / M - p) ^ 2)) + D () C = D () A := by
    rw [← hD.add () hFm hCm]
    exact congrArg _ (funext hsq)
  have hfin : D () C ≠ ∞ := by
    rw [eC]
    refine ENNReal.sum_ne_top.mpr fun k _ => ENNReal.sum_ne_top.mpr fun l _ => ENNReal.mul_ne_top ENNReal.ofReal_ne_top
      (ENNReal.mul_ne_top ENNReal.ofReal_ne_top (ENNReal.add_ne_top.mpr ⟨?_, ?_⟩)) <;>
    exact ne_top_of_le_ne_top ENNReal.one_ne_top (hle _)
  have hA : D () A ≤ (∑ k, ∑ l, e k l) / (M * M : ℝ≥0∞) + D () C := by
    have ecM : (∑ k, ∑ l, e k l) / (M * M : ℝ≥0∞) = ∑ k, ∑ l, c * e k l := by
      simp only [← mul_sum]
      rw [ENNReal.div_eq_inv_mul]
      refine congrArg (· * _) ?_
      show _ = ENNReal.ofReal _
      rw [ENNReal.ofReal_inv_of_pos (by positivity), ENNReal.ofReal_mul hM'.le, ENNReal.ofReal_natCast]
    rw [ecM, eA, eC, ← sum_add_distrib]
    refine sum_le_sum fun k _ => ?_
    rw [← sum_add_distrib]
    refine sum_le_sum fun l _ => ?_
    rw [← mul_add, add_comm (e k l)]
    exact mul_le_mul_right (he k l) c
  rw [← hsum] at hA
  exact (ENNReal.add_le_add_iff_right hfin).mp hA

/-- Sum of a geometric sequence of the distance to `k`. -/
theorem sum_dist_le {c : ℝ≥0∞} (hc : c ≤ 1) {M : ℕ} (k : Fin M) :
    ∑ l : Fin M, (1 - c) ^ ((max k l : ℕ) - (min k l : ℕ)) ≤ 2 / c := by
  have hg : ∀ (s : Finset (Fin M)) (φ : Fin M → ℕ), Set.InjOn φ s → ∑ l ∈ s, (1 - c) ^ φ l ≤ c⁻¹ := fun s φ hφ => by
    rw [← sum_image (f := fun j => (1 - c) ^ j) hφ]
    refine (ENNReal.sum_le_tsum _).trans ?_
    rw [ENNReal.tsum_geometric, ENNReal.sub_sub_cancel ENNReal.one_ne_top hc]
  rw [← sum_filter_add_sum_filter_not univ (fun l => l ≤ k)]
  have e : 2 / c = c⁻¹ + c⁻¹ := by rw [ENNReal.div_eq_inv_mul, mul_two]
  rw [e]
  refine add_le_add (hg _ _ ?_) (hg _ _ ?_)
  · intro a ha b hb h
    simp only [coe_filter, mem_univ, true_and, Set.mem_ofPred_eq, Fin.le_def] at ha hb
    simp only [max_eq_left ha, max_eq_left hb, min_eq_right ha, min_eq_right hb] at h
    omega
  · intro a ha b hb h
    simp only [coe_filter, mem_univ, true_and, Set.mem_ofPred_eq, Fin.le_def, not_le] at ha hb
    simp only [max_eq_right ha.le, max_eq_right hb.le, min_eq_left ha.le, min_eq_left hb.le] at h
    omega

/-- Averages over every `g`-th state of a chain that settles at rate `c` up to the error `δ`. -/
theorem averages_of_settles {step : Key → S → Ex S} (hk : ∀ key, IsKer (step key)) (hm : ∀ key s, step key s (fun _ => 1) = 1) {p : S → X}
    (hp : Measurable p) {π : Measure X} [IsProbabilityMeasure π] {c δ : ℝ≥0∞} (hc : c ≤ 1)
    (hset : ∀ {T : ℕ} (keys : Fin T → Key) (i : Fin (T + 1)) s, TVLe ((1 - c) ^ (i : ℕ) + δ)
      (fun f => chain step s keys fun tr => f (p (tr i))) fun f => ∫⁻ x, f x ∂π)
    {T M g : ℕ} (hM : M ≠ 0) (hg : g ≠ 0) (keys : Fin T → Key) {τ : Fin M → Fin (T + 1)} {o : ℕ} (hτ : ∀ k, (τ k : ℕ) = k * g + o) (s : S) :
    AveragesNear (2 / (c * M) + δ) π fun F => chain step s keys fun tr => F fun k => p (tr (τ k)) := by
  intro a b f hf hab
  have hne : Nonempty X := by
    by_contra h
    rw [not_nonempty_iff] at h
    exact IsProbabilityMeasure.ne_zero π (Measure.measure_univ_eq_zero.mp (by rw [Set.univ_eq_empty_iff.mpr h, measure_empty]))
  obtain ⟨x₀⟩ := hne
  have hab' : a ≤ b := (hab x₀).1.trans (hab x₀).2
  have hM' : (0 : ℝ) < M := by exact_mod_cast Nat.pos_of_ne_zero hM
  have hMne : (M : ℝ≥0∞) ≠ 0 := by exact_mod_cast hM
  have hMt : (M : ℝ≥0∞) ≠ ∞ := ENNReal.natCast_ne_top _
  rcases hab'.eq_or_lt with rfl | hlt
  · have e : ∀ x, f x = a := fun x => le_antisymm (hab x).2 (hab x).1
    have ez : ∀ xs : Fin M → X, avgOf f xs - ∫ x, f x ∂π = 0 := fun xs => by
      simp only [avgOf, e, sum_const, card_univ, Fintype.card_fin, nsmul_eq_mul, integral_const, probReal_univ, one_smul]
      field_simp
      ring
    simp only [ez]
    simp [(chain_ker hk keys).zero s]
  · have hba : 0 < b - a := sub_pos.mpr hlt
    let f0 : X → ℝ := fun x => (f x - a) / (b - a)
    have hf0 : Measurable f0 := (hf.sub_const _).div_const _
    have h01 : ∀ x, 0 ≤ f0 x ∧ f0 x ≤ 1 := fun x =>
      ⟨div_nonneg (by linarith [(hab x).1]) hba.le, (div_le_one hba).mpr (by linarith [(hab x).2])⟩
    have hint : Integrable f0 π := Integrable.of_bound hf0.aestronglyMeasurable 1 (Filter.Eventually.of_forall fun x => by
      rw [Real.norm_eq_abs, abs_of_nonneg (h01 x).1]
      exact (h01 x).2)
    have hf' : ∀ x, f x = a + (b - a) * f0 x := fun x => by
      show f x = a + (b - a) * ((f x - a) / (b - a))
      field_simp
      ring
    have eI : ∫ x, f x ∂π = a + (b - a) * ∫ x, f0 x ∂π := by
      rw [integral_congr_ae (Filter.Eventually.of_forall hf'), integral_add (integrable_const _) (hint.const_mul _),
        integral_const_mul, integral_const, probReal_univ, one_smul]
    have eA : ∀ xs : Fin M → X, avgOf f xs - ∫ x, f x ∂π = (b - a) * ((∑ k, f0 (xs k)) / M - ∫ x, f0 x ∂π) := fun xs => by
      rw [eI, avgOf, sum_congr rfl fun k _ => hf' (xs k), sum_add_distrib, ← mul_sum, sum_const, card_univ, Fintype.card_fin, nsmul_eq_mul]
      field_simp
      ring
    have h0 : 0 ≤ ∫ x, f0 x ∂π := integral_nonneg fun x => (h01 x).1
    let F0 : X → ℝ≥0∞ := fun x => ENNReal.ofReal (f0 x)
    have hF0 : Measurable F0 := hf0.ennreal_ofReal
    have hF1 : ∀ x, F0 x ≤ 1 := fun x => ENNReal.ofReal_le_one.mpr (h01 x).2
    have eP : ∫⁻ x, F0 x ∂π = ENNReal.ofReal (∫ x, f0 x ∂π) :=
      (ofReal_integral_eq_lintegral_ofReal hint (Filter.Eventually.of_forall fun x => (h01 x).1)).symm
    have key := mse_of_pairs (D := fun _ => chain step s keys) ((chain_ker hk keys).comp (g := fun _ : Unit => s) measurable_const)
      (chain_mass hm keys s) hM (Y := fun k tr => f0 (p (tr (τ k)))) (fun k => by fun_prop) (fun k tr => h01 _) h0
      (e := fun k l => (1 - c) ^ ((max k l : ℕ) - (min k l : ℕ)) + δ) (fun k l => by
        have hd : ∀ k l : Fin M, k ≤ l → (1 - c) ^ ((τ l : ℕ) - τ k) ≤ (1 - c) ^ ((max k l : ℕ) - (min k l : ℕ)) := fun k l h => by
          refine pow_le_pow_of_le_one bot_le tsub_le_self ?_
          have h' : (k : ℕ) ≤ l := h
          rw [hτ, hτ, max_eq_right h', min_eq_left h', Nat.add_sub_add_right, ← Nat.sub_mul]
          exact Nat.le_mul_of_pos_right _ (Nat.pos_of_ne_zero hg)
        have hle : ∀ k l : Fin M, k ≤ l → τ k ≤ τ l := fun k l h => by
          rw [Fin.le_def, hτ, hτ]
          exact Nat.add_le_add_right (Nat.mul_le_mul_right _ h) _
        have hpair := fun (k l : Fin M) (h : k ≤ l) => chain_pair_le hk hm hp (e := fun i => (1 - c) ^ i + δ) hset hF0 hF1 keys (τ k) (τ l) (hle k l h) s
        rw [← eP]
        rcases le_total k l with h | h
        · exact (hpair k l h).trans (add_le_add_right (add_le_add_left (hd k l h) _) _)
        · have h2 := (hpair l k h).trans (add_le_add_right (add_le_add_left (hd l k h) _) _)
          rw [add_comm (chain step s keys fun tr => F0 (p (tr (τ l)))), max_comm, min_comm,
            show (fun tr : Fin (T + 1) → S => F0 (p (tr (τ l))) * F0 (p (tr (τ k)))) = fun tr => F0 (p (tr (τ k))) * F0 (p (tr (τ l)))
              from funext fun tr => mul_comm _ _] at h2
          exact h2)
    have hsum : (∑ k : Fin M, ∑ l : Fin M, ((1 - c) ^ ((max k l : ℕ) - (min k l : ℕ)) + δ)) / (M * M : ℝ≥0∞) ≤ 2 / (c * M) + δ := by
      calc _ ≤ (M * (2 / c) + M * M * δ) / (M * M : ℝ≥0∞) := by
            gcongr
            simp only [sum_add_distrib, sum_const, card_univ, Fintype.card_fin, nsmul_eq_mul]
            refine add_le_add ?_ (le_of_eq (mul_assoc _ _ _).symm)
            refine (sum_le_sum fun k _ => sum_dist_le hc k).trans ?_
            simp
        _ = 2 / (c * M) + δ := by
            rw [ENNReal.add_div]
            refine congrArg₂ (· + ·) ?_ ?_
            · rw [ENNReal.mul_div_mul_left _ _ hMne hMt, ENNReal.div_eq_inv_mul, ENNReal.div_eq_inv_mul, ENNReal.div_eq_inv_mul,
                ENNReal.mul_inv (Or.inr hMt) (Or.inr hMne), ← mul_assoc, mul_comm c⁻¹]
            · rw [mul_comm, mul_div_assoc, ENNReal.div_self (mul_ne_zero hMne hMne) (ENNReal.mul_ne_top hMt hMt), mul_one]
    have hmeas : Measurable fun tr : Fin (T + 1) → S => ENNReal.ofReal (((∑ k, f0 (p (tr (τ k)))) / M - ∫ x, f0 x ∂π) ^ 2) := by fun_prop
    calc chain step s keys (fun tr => ENNReal.ofReal ((avgOf f (fun k => p (tr (τ k))) - ∫ x, f x ∂π) ^ 2))
        = chain step s keys (fun tr => ENNReal.ofReal ((b - a) ^ 2) *
            ENNReal.ofReal (((∑ k, f0 (p (tr (τ k)))) / M - ∫ x, f0 x ∂π) ^ 2)) := by
          refine Ex.congr_fun' _ fun tr => ?_
          rw [eA, mul_pow, ENNReal.ofReal_mul (sq_nonneg _)]
      _ = ENNReal.ofReal ((b - a) ^ 2) * chain step s keys (fun tr => ENNReal.ofReal (((∑ k, f0 (p (tr (τ k)))) / M - ∫ x, f0 x ∂π) ^ 2)) :=
          (chain_ker hk keys).const_mul s _ hmeas
      _ ≤ ENNReal.ofReal ((b - a) ^ 2) * (2 / (c * M) + δ) := by
          gcongr
          exact key.trans hsum
      _ = _ := mul_comm _ _

/-- Chebyshev's inequality for averages. -/
theorem AveragesNear.cheb {M : ℕ} {c : ℝ≥0∞} {π : Measure X} {D : Ex (Fin M → X)} (h : AveragesNear c π D)
    (hD : IsKer fun _ : Unit => D) {a b η : ℝ} (hη : 0 < η) {f : X → ℝ} (hf : Measurable f) (hab : ∀ x, a ≤ f x ∧ f x ≤ b) :
    D ({xs | η ≤ |avgOf f xs - ∫ x, f x ∂π|}.indicator 1) ≤ c * ENNReal.ofReal ((b - a) ^ 2) * ENNReal.ofReal ((η ^ 2)⁻¹) := by
  have hm : Measurable fun xs : Fin M → X => ENNReal.ofReal ((avgOf f xs - ∫ x, f x ∂π) ^ 2) := by
    unfold avgOf
    fun_prop
  have hs : MeasurableSet {xs : Fin M → X | η ≤ |avgOf f xs - ∫ x, f x ∂π|} := by
    unfold avgOf
    exact measurableSet_le measurable_const (by fun_prop)
  calc D ({xs | η ≤ |avgOf f xs - ∫ x, f x ∂π|}.indicator 1)
      ≤ D (fun xs => ENNReal.ofReal ((η ^ 2)⁻¹) * ENNReal.ofReal ((avgOf f xs - ∫ x, f x ∂π) ^ 2)) := by
        refine hD.mono () (measurable_one.indicator hs) (hm.const_mul _) fun xs => ?_
        by_cases hx : xs ∈ {xs : Fin M → X | η ≤ |avgOf f xs - ∫ x, f x ∂π|}
        · rw [Set.indicator_of_mem hx, Pi.one_apply, ← ENNReal.ofReal_mul (by positivity), ENNReal.one_le_ofReal, ← sq_abs (_ - _)]
          rw [← div_eq_inv_mul, one_le_div (by positivity)]
          exact pow_le_pow_left₀ hη.le hx 2
        · rw [Set.indicator_of_notMem hx]
          exact bot_le
    _ = ENNReal.ofReal ((η ^ 2)⁻¹) * D (fun xs => ENNReal.ofReal ((avgOf f xs - ∫ x, f x ∂π) ^ 2)) := hD.const_mul () _ hm
    _ ≤ ENNReal.ofReal ((η ^ 2)⁻¹) * (c * ENNReal.ofReal ((b - a) ^ 2)) := by
        gcongr
        exact h a b f hf hab
    _ = _ := mul_comm _ _

end Verif
