import Mathlib.MeasureTheory.Integral.Lebesgue.Countable
import Verif.Model.Resampling
import Verif.Spec.Prob
import Verif.Lemmas.FinSum

/-!
# Exact laws of the resampling functions (expectation semantics)
-/

open scoped ENNReal
open MeasureTheory Finset

namespace Verif
open Model Spec

instance : IsProbabilityMeasure unifM := ⟨by simp [unifM]⟩

/-- Law of finitely-valued functions of independent variables. -/
theorem lintegral_pi_discrete {n : ℕ} {β : Type} [Fintype β] [MeasurableSpace β]
    [MeasurableSingletonClass β] (μ : Measure ℝ) [IsProbabilityMeasure μ]
    (h : Fin n → ℝ → β) (hh : ∀ t, Measurable (h t)) (F : (Fin n → β) → ℝ≥0∞) :
    ∫⁻ us, F (fun t => h t (us t)) ∂(Measure.pi fun _ : Fin n => μ) =
      ∑ κ : Fin n → β, (∏ t, μ (h t ⁻¹' {κ t})) * F κ := by
  have hm : Measurable (fun (us : Fin n → ℝ) (t : Fin n) => h t (us t)) :=
    measurable_pi_lambda _ fun t => (hh t).comp (measurable_pi_apply t)
  have hF : Measurable F := measurable_of_countable F
  rw [← lintegral_map (μ := Measure.pi fun _ : Fin n => μ) hF hm, lintegral_fintype]
  refine sum_congr rfl fun κ _ => ?_
  rw [Measure.map_apply hm (measurableSet_singleton κ), mul_comm]
  congr 1
  have : (fun (us : Fin n → ℝ) (t : Fin n) => h t (us t)) ⁻¹' {κ} =
      Set.pi Set.univ fun t => h t ⁻¹' {κ t} := by
    ext us; simp [funext_iff]
  rw [this, Measure.pi_pi]

theorem catP_of_isProb {n : ℕ} {w : Fin n → ℝ} (hw : IsProb w) (i : Fin n) :
    catP w i = ENNReal.ofReal (w i) := by simp [catP, hw.sum_one]

theorem sum_ofReal_of_isProb {n : ℕ} {w : Fin n → ℝ} (hw : IsProb w) :
    ∑ i, ENNReal.ofReal (w i) = 1 := by
  rw [← ENNReal.ofReal_sum_of_nonneg fun i _ => hw.nonneg i, hw.sum_one, ENNReal.ofReal_one]

theorem maxA_pos {n : ℕ} {w : Fin (n + 1) → ℝ} (hw : IsProb w) : 0 < maxA w := by
  by_contra hcon
  have h0 : ∀ k, w k = 0 := fun k => le_antisymm ((le_maxA w k).trans (not_lt.mp hcon)) (hw.nonneg k)
  have := hw.sum_one
  simp [h0] at this

/-- Probability that entry `t` of (unconditional) killing is `l`. -/
noncomputable def killK {n : ℕ} (w : Fin (n + 1) → ℝ) (t l : Fin (n + 1)) : ℝ :=
  (if t = l then w t / maxA w else 0) + (1 - w t / maxA w) * w l

theorem ratio_mem {n : ℕ} {w : Fin (n + 1) → ℝ} (hw : IsProb w) (t : Fin (n + 1)) :
    0 ≤ w t / maxA w ∧ w t / maxA w ≤ 1 :=
  ⟨div_nonneg (hw.nonneg t) (maxA_pos hw).le, (div_le_one (maxA_pos hw)).mpr (le_maxA w t)⟩

theorem killK_nonneg {n : ℕ} {w : Fin (n + 1) → ℝ} (hw : IsProb w) (t l : Fin (n + 1)) :
    0 ≤ killK w t l := by
  have h := ratio_mem hw t
  unfold killK
  have h2 : 0 ≤ (1 - w t / maxA w) * w l := mul_nonneg (by linarith) (hw.nonneg l)
  split_ifs <;> linarith

theorem killK_sum {n : ℕ} {w : Fin (n + 1) → ℝ} (hw : IsProb w) (t : Fin (n + 1)) :
    ∑ l, killK w t l = 1 := by
  simp [killK, sum_add_distrib, ← mul_sum, hw.sum_one]

theorem killK_sum' {n : ℕ} {w : Fin (n + 1) → ℝ} (hw : IsProb w) (l : Fin (n + 1)) :
    ∑ t, killK w t l = (n + 1) * w l := by
  have hm := (maxA_pos hw).ne'
  simp only [killK, sum_add_distrib, ← sum_mul, sum_sub_distrib, ← sum_div, hw.sum_one]
  simp
  field_simp
  ring

theorem unifM_killed {a b : ℝ} (hb : 0 < b) (ha : 0 ≤ a) :
    unifM {u | a ≤ u * b} = ENNReal.ofReal (1 - a / b) := by
  have h1 : {u : ℝ | a ≤ u * b} = Set.Ici (a / b) := by
    ext u; simp [div_le_iff₀ hb]
  have h2 : Set.Ici (a / b) ∩ Set.Ico 0 1 = Set.Ico (a / b) 1 := by
    ext u; simp only [Set.mem_inter_iff, Set.mem_Ici, Set.mem_Ico]
    have : 0 ≤ a / b := by positivity
    constructor
    · rintro ⟨h, _, h'⟩; exact ⟨h, h'⟩
    · rintro ⟨h, h'⟩; exact ⟨h, this.trans h, h'⟩
  rw [h1, unifM, Measure.restrict_apply measurableSet_Ici, h2, Real.volume_Ico]

theorem unifM_not_killed {a b : ℝ} (hb : 0 < b) (hab : a ≤ b) :
    unifM {u | ¬ a ≤ u * b} = ENNReal.ofReal (a / b) := by
  have h1 : {u : ℝ | ¬ a ≤ u * b} = Set.Iio (a / b) := by
    ext u; simp [lt_div_iff₀ hb]
  have h2 : Set.Iio (a / b) ∩ Set.Ico 0 1 = Set.Ico 0 (a / b) := by
    ext u; simp only [Set.mem_inter_iff, Set.mem_Iio, Set.mem_Ico]
    have : a / b ≤ 1 := (div_le_one hb).mpr hab
    constructor
    · rintro ⟨h, h', _⟩; exact ⟨h', h⟩
    · rintro ⟨h, h'⟩; exact ⟨h', h, h'.trans_le this⟩
  rw [h1, unifM, Measure.restrict_apply measurableSet_Iio, h2, Real.volume_Ico]
  simp

/-- Law of unconditional killing: independent entries with probabilities `killK`. -/
theorem killing_law_false {n : ℕ} {w : Fin (n + 1) → ℝ} (hw : IsProb w) (key : Key)
    (i j : Fin (n + 1)) (f : (Fin (n + 1) → Fin (n + 1)) → ℝ≥0∞) :
    (killing key w i j false : Ex _) f =
      ∑ a, (∏ t, ENNReal.ofReal (killK w t (a t))) * f a := by
  have hmax := maxA_pos hw
  show ∫⁻ us : Fin (n + 1) → ℝ, (∑ r : Fin (n + 1) → Fin (n + 1), (∏ t, catP w (r t)) *
      f (fun t => if us t * maxA w ≥ w t then r t else t)) ∂_ = _
  have key1 := lintegral_pi_discrete (n := n + 1) unifM
    (fun t u => decide (w t ≤ u * maxA w))
    (fun t => by
      apply measurable_to_bool
      have : (fun u => decide (w t ≤ u * maxA w)) ⁻¹' {true} = {u | w t ≤ u * maxA w} := by
        ext u; simp
      rw [this]
      exact measurableSet_le measurable_const (measurable_id.mul_const _))
    (fun κ => ∑ r : Fin (n + 1) → Fin (n + 1), (∏ t, catP w (r t)) *
      f (fun t => if κ t then r t else t))
  simp only [decide_eq_true_eq] at key1
  refine Eq.trans key1 ?_
  have key2 := sum_prod_map (n := n + 1) (α := Bool × Fin (n + 1)) (β := Fin (n + 1))
    (fun t p => unifM ((fun u => decide (w t ≤ u * maxA w)) ⁻¹' {p.1}) * catP w p.2)
    (fun t p => if p.1 then p.2 else t) f
  have key3 : ∀ t l, (∑ p : Bool × Fin (n + 1), if (if p.1 then p.2 else t) = l then
      unifM ((fun u => decide (w t ≤ u * maxA w)) ⁻¹' {p.1}) * catP w p.2 else 0) =
      ENNReal.ofReal (killK w t l) := by
    intro t l
    have hr := ratio_mem hw t
    have hs : ∑ k, catP w k = 1 := by
      simp only [catP_of_isProb hw, sum_ofReal_of_isProb hw]
    have e1 : ((fun u => decide (w t ≤ u * maxA w)) ⁻¹' {true}) = {u | w t ≤ u * maxA w} := by
      ext u; simp
    have e2 : ((fun u => decide (w t ≤ u * maxA w)) ⁻¹' {false}) = {u | ¬ w t ≤ u * maxA w} := by
      ext u; simp
    rw [Fintype.sum_prod_type, Fintype.sum_bool]
    simp only [if_true, Bool.false_eq_true, if_false, e1, e2]
    rw [unifM_killed hmax (hw.nonneg t),
      unifM_not_killed hmax (le_maxA w t), sum_ite_eq' univ l]
    simp only [mem_univ, if_true]
    have h2 : (∑ x : Fin (n + 1), if t = l then ENNReal.ofReal (w t / maxA w) * catP w x else 0) =
        if t = l then ENNReal.ofReal (w t / maxA w) else 0 := by
      split_ifs with h
      · rw [← mul_sum, hs, mul_one]
      · simp
    rw [h2, catP_of_isProb hw, ← ENNReal.ofReal_mul (by linarith), killK,
      ENNReal.ofReal_add (by split_ifs <;> linarith) (mul_nonneg (by linarith) (hw.nonneg l)),
      add_comm]
    congr 1
    split_ifs <;> simp
  simp only [key3] at key2
  rw [← key2]
  simp only [mul_sum]
  rw [← Fintype.sum_prod_type']
  refine Fintype.sum_equiv (Equiv.arrowProdEquivProdArrow (Fin (n + 1)) (fun _ => Bool)
    (fun _ => Fin (n + 1))).symm _ _ ?_
  rintro ⟨κ, r⟩
  simp only [Equiv.arrowProdEquivProdArrow, Equiv.coe_fn_symm_mk, prod_mul_distrib]
  rw [mul_assoc]
  rfl

theorem killingJProb_isProb {n : ℕ} {w : Fin (n + 1) → ℝ} (hw : IsProb w) (i : Fin (n + 1)) :
    IsProb (killingJProb w i) ∧
      ∀ J, w i * killingJProb w i J = killK w J i / (n + 1) := by
  have hmax := maxA_pos hw
  have hN : (0 : ℝ) < n + 1 := by positivity
  set p0 : Fin (n + 1) → ℝ := atSet (fun t => (1 - w t / maxA w) / (n + 1)) i 0 with hp0
  have hp0n : ∀ t, 0 ≤ p0 t := by
    intro t
    rw [hp0, atSet_apply]
    split_ifs
    · exact le_rfl
    · have := ratio_mem hw t; exact div_nonneg (by linarith) hN.le
  have hsum : ∑ t, p0 t = 1 - (1 + (1 - w i) / maxA w) / (n + 1) := by
    have h1 : ∑ t, p0 t = (∑ t, (1 - w t / maxA w) / (n + 1)) - (1 - w i / maxA w) / (n + 1) := by
      rw [← Finset.add_sum_erase univ p0 (mem_univ i),
        ← Finset.add_sum_erase univ (fun t => (1 - w t / maxA w) / ((n : ℝ) + 1)) (mem_univ i)]
      have : ∑ x ∈ univ.erase i, p0 x = ∑ x ∈ univ.erase i, (1 - w x / maxA w) / ((n : ℝ) + 1) :=
        sum_congr rfl fun x hx => by rw [hp0, atSet_ne _ _ (ne_of_mem_erase hx)]
      rw [this, hp0, atSet_same]; ring
    rw [h1, ← sum_div, sum_sub_distrib, ← sum_div, hw.sum_one]
    simp
    field_simp
    ring
  have hwi := hw.le_one i
  have hpos : 0 ≤ 1 - ∑ t, p0 t := by
    rw [hsum]
    have : 0 ≤ (1 - w i) / maxA w := div_nonneg (by linarith) hmax.le
    have : 0 ≤ (1 + (1 - w i) / maxA w) / (n + 1) := by positivity
    linarith
  have hdef : killingJProb w i = atSet p0 i (1 - ∑ t, p0 t) := by
    simp only [killingJProb, ← hp0, max_eq_left hpos]
  refine ⟨⟨fun k => ?_, ?_⟩, fun J => ?_⟩
  · rw [hdef, atSet_apply]; split_ifs
    · exact hpos
    · exact hp0n k
  · rw [hdef, ← Finset.add_sum_erase univ _ (mem_univ i), atSet_same]
    have : ∑ x ∈ univ.erase i, atSet p0 i (1 - ∑ t, p0 t) x = ∑ x ∈ univ.erase i, p0 x :=
      sum_congr rfl fun x hx => by rw [atSet_ne _ _ (ne_of_mem_erase hx)]
    rw [this]
    have h2 : p0 i = 0 := by rw [hp0, atSet_same]
    have h3 := Finset.add_sum_erase univ p0 (mem_univ i)
    rw [h2] at h3
    linarith
  · rw [hdef, atSet_apply]
    split_ifs with h
    · subst h
      rw [hsum, killK]
      simp only [if_true]
      field_simp
      ring
    · rw [hp0, atSet_ne _ _ h, killK]
      simp only [h, if_false, zero_add]
      ring

/-- Law of conditional killing, as a mixture over the rotation. -/
theorem killing_law_true {n : ℕ} {w : Fin (n + 1) → ℝ} (hw : IsProb w) (key : Key)
    (i j : Fin (n + 1)) (f : (Fin (n + 1) → Fin (n + 1)) → ℝ≥0∞) :
    (killing key w i j true : Ex _) f =
      ∑ J, ENNReal.ofReal (killingJProb w i J) *
        ∑ a, (∏ t, ENNReal.ofReal (killK w (t - (j - J)) (a t))) * f (atSet a j i) := by
  have h1 : (killing key w i j true : Ex _) f =
      (killing key w i j false : Ex _) (fun idx =>
        ∑ J, catP (killingJProb w i) J * f (atSet (roll idx (j - J)) j i)) := rfl
  rw [h1, killing_law_false hw]
  simp only [mul_sum]
  rw [sum_comm]
  refine sum_congr rfl fun J _ => ?_
  have h2 := sum_prod_roll (fun t l => ENNReal.ofReal (killK w t l)) (j - J)
    (fun a => f (atSet a j i))
  rw [catP_of_isProb (killingJProb_isProb hw i).1, ← mul_sum, ← h2, mul_sum]
  refine sum_congr rfl fun a _ => by ring

end Verif
