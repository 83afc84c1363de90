import Mathlib.Tactic.NormNum
import Mathlib.Tactic.FinCases
import Verif.Lemmas.ResamplingLaw
import Verif.Lemmas.Normalize

/-!
# C01 - C06: resampling
-/

open scoped ENNReal
open Finset

namespace Verif.Props
open Verif Verif.Model Verif.Spec Verif.Poss

variable {n : ℕ}

/-! ## C01: the pin -/

/-- C01 (multinomial): whatever is drawn, entry `j` of the result is `i`. -/
theorem C01_multinomial_pin (key : Key) (w : Fin (n + 1) → ℝ) (i j : Fin (n + 1)) :
    Always (multinomial key w i j true) (fun a => a j = i) := by
  refine always_bind' fun a => ?_
  exact always_pure (by simp)

/-- C01 (killing): whatever is drawn, entry `j` of the result is `i`. -/
theorem C01_killing_pin (key : Key) (w : Fin (n + 1) → ℝ) (i j : Fin (n + 1)) :
    Always (killing key w i j true) (fun a => a j = i) := by
  refine always_bind' fun us => always_bind' fun repl => always_bind' fun J => ?_
  exact always_pure (by simp)

/-- The draws of `choice` always have at least one possible outcome. -/
theorem exists_supp (p : Fin (n + 1) → ℝ) : ∃ i, Supp p i := by
  by_cases h : ∃ i, 0 < p i
  · obtain ⟨i, hi⟩ := h; exact ⟨i, Or.inl hi⟩
  · exact ⟨0, Or.inr fun j => not_lt.mp fun hj => h ⟨j, hj⟩⟩

/-- C01: the previous statements are not vacuous, some result is always possible. -/
theorem C01_possible (key : Key) (w : Fin (n + 1) → ℝ) (i j : Fin (n + 1)) :
    (∃ a L, (multinomial key w i j true : Poss _) a L) ∧
      ∃ a L, (killing key w i j true : Poss _) a L := by
  obtain ⟨l, hl⟩ := exists_supp w
  obtain ⟨J, hJ⟩ := exists_supp (killingJProb w i)
  refine ⟨⟨_, _, fun _ => l, _, _, ⟨fun _ => hl, rfl⟩, ⟨rfl, rfl⟩, rfl⟩, ?_⟩
  exact ⟨_, _, fun _ => 0, _, _, ⟨fun _ => by norm_num, rfl⟩, ⟨fun _ => l, _, _, ⟨fun _ => hl, rfl⟩,
    ⟨J, _, _, ⟨hJ, rfl⟩, ⟨rfl, rfl⟩, rfl⟩, rfl⟩, rfl⟩

/-- Without conditioning the pin does not hold in general (the hypothesis `conditional = true` is
needed): here entry 0 may be `0` although `i = 1`. -/
example : ¬ Always (multinomial [] ![(1 : ℝ) / 2, 1 / 2] (1 : Fin 2) 0 false) (fun a => a 0 = 1) := by
  intro h
  have := h (fun _ => 0) _ ⟨fun _ => 0, _, _, ⟨fun _ => Or.inl (by norm_num), rfl⟩, ⟨rfl, rfl⟩, rfl⟩
  simp at this

/-! ## C02: conditional multinomial -/

/-- C02: the conditional scheme is the unconditional one conditioned on `a j = i`, as an identity
between expectations of an arbitrary function of the ancestor vector. -/
theorem C02_multinomial_conditional {w : Fin (n + 1) → ℝ} (hw : IsProb w) (key key' : Key)
    (i j : Fin (n + 1)) (f : (Fin (n + 1) → Fin (n + 1)) → ℝ≥0∞) :
    ENNReal.ofReal (w i) * (multinomial key w i j true : Ex _) f =
      (multinomial key' w i j false : Ex _) (fun a => if a j = i then f a else 0) := by
  have h := sum_prod_update (fun _ l => catP w l) j i
    (by simp only [catP_of_isProb hw, sum_ofReal_of_isProb hw]) f
  rw [catP_of_isProb hw] at h
  exact h

theorem indicator_eq (i j : Fin (n + 1)) (a : Fin (n + 1) → Fin (n + 1)) :
    (fun b : Fin (n + 1) → Fin (n + 1) => if b j = i then (if b = a then (1 : ℝ≥0∞) else 0) else 0) =
      fun b => (if b = a then 1 else 0) * (if a j = i then 1 else 0) := by
  funext b
  by_cases hb : b = a
  · subst hb; simp
  · simp [hb]

/-- C02, pointwise form. -/
theorem C02_multinomial_pointwise {w : Fin (n + 1) → ℝ} (hw : IsProb w) (key key' : Key)
    (i j : Fin (n + 1)) (a : Fin (n + 1) → Fin (n + 1)) :
    ENNReal.ofReal (w i) * Ex.Pr (multinomial key w i j true) (· = a) =
      Ex.Pr (multinomial key' w i j false) (· = a) * (if a j = i then 1 else 0) := by
  rw [Ex.Pr, C02_multinomial_conditional hw key key', Ex.Pr, indicator_eq]
  show (∑ b, _ * (_ * _)) = (∑ b, _) * _
  rw [sum_mul]
  exact sum_congr rfl fun b _ => (mul_assoc _ _ _).symm

/-- C02: the unconditional scheme draws every entry independently from `w`; in particular each entry
has marginal `w`. -/
theorem C02_multinomial_marginal {w : Fin (n + 1) → ℝ} (hw : IsProb w) (key : Key)
    (i j t l : Fin (n + 1)) :
    Ex.Pr (multinomial key w i j false) (fun a => a t = l) = ENNReal.ofReal (w l) := by
  have hs : ∑ k, catP w k = 1 := by simp only [catP_of_isProb hw, sum_ofReal_of_isProb hw]
  have := sum_prod_marginal (fun _ : Fin (n + 1) => catP w) t (fun _ => hs)
    (fun k => if k = l then 1 else 0)
  refine Eq.trans this ?_
  simp [catP_of_isProb hw]

example : IsProb ![(1 : ℝ) / 4, 3 / 4, 0] :=
  ⟨fun k => by fin_cases k <;> norm_num, by norm_num [Fin.sum_univ_succ]⟩

/-! ## C03: conditional killing -/

/-- Specification: unconditional killing followed by a uniformly distributed rotation. -/
noncomputable def rotatedKilling (key key' : Key) (w : Fin (n + 1) → ℝ) :
    Ex (Fin (n + 1) → Fin (n + 1)) := do
  let idx ← killing key w 0 0 false
  let s ← choice key' (fun _ : Fin (n + 1) => (1 : ℝ))
  pure (fun k => idx (k - s))

theorem rotatedKilling_law {w : Fin (n + 1) → ℝ} (hw : IsProb w) (key key' : Key)
    (f : (Fin (n + 1) → Fin (n + 1)) → ℝ≥0∞) :
    rotatedKilling key key' w f =
      ENNReal.ofReal (1 / (n + 1)) *
        ∑ s, ∑ a, (∏ t, ENNReal.ofReal (killK w (t - s) (a t))) * f a := by
  have h1 : rotatedKilling key key' w f = (killing key w 0 0 false : Ex _)
      (fun idx => ∑ s, catP (fun _ : Fin (n + 1) => (1 : ℝ)) s * f (roll idx s)) := rfl
  have h2 : ∀ s, catP (fun _ : Fin (n + 1) => (1 : ℝ)) s = ENNReal.ofReal (1 / (n + 1)) := by
    intro s; simp [catP]
  rw [h1, killing_law_false hw]
  simp only [h2, mul_sum]
  rw [sum_comm]
  refine sum_congr rfl fun s _ => ?_
  have h3 := sum_prod_roll (fun t l => ENNReal.ofReal (killK w t l)) s f
  rw [← mul_sum (a := ENNReal.ofReal (1 / ((n : ℝ) + 1))), ← h3, mul_sum]
  refine sum_congr rfl fun a _ => by ring

/-- C03: conditional killing is rotated killing conditioned on `a j = i`. -/
theorem C03_killing_conditional {w : Fin (n + 1) → ℝ} (hw : IsProb w) (key key' key'' : Key)
    (i j : Fin (n + 1)) (f : (Fin (n + 1) → Fin (n + 1)) → ℝ≥0∞) :
    ENNReal.ofReal (w i) * (killing key w i j true : Ex _) f =
      rotatedKilling key' key'' w (fun a => if a j = i then f a else 0) := by
  rw [killing_law_true hw, rotatedKilling_law hw, mul_sum, mul_sum]
  refine Fintype.sum_equiv (Equiv.subLeft j) _ _ fun J => ?_
  have hJ := (killingJProb_isProb hw i).2 J
  have hu := sum_prod_update (fun t l => ENNReal.ofReal (killK w (t - (j - J)) l)) j i
    (by
      rw [← ENNReal.ofReal_sum_of_nonneg fun l _ => killK_nonneg hw _ l, killK_sum hw,
        ENNReal.ofReal_one]) f
  have hj : j - (j - J) = J := sub_sub_cancel j J
  rw [hj] at hu
  simp only [Equiv.subLeft_apply]
  rw [← hu, ← mul_assoc, ← mul_assoc]
  congr 1
  rw [← ENNReal.ofReal_mul (hw.nonneg i), hJ, ← ENNReal.ofReal_mul (by positivity)]
  congr 1; ring

/-- C03: the entries of rotated killing have marginal law `w`. -/
theorem C03_rotated_marginal {w : Fin (n + 1) → ℝ} (hw : IsProb w) (key' key'' : Key)
    (t l : Fin (n + 1)) :
    Ex.Pr (rotatedKilling key' key'' w) (fun a => a t = l) = ENNReal.ofReal (w l) := by
  rw [Ex.Pr, rotatedKilling_law hw]
  have h1 : ∀ s : Fin (n + 1), (∑ a : Fin (n + 1) → Fin (n + 1),
      (∏ t, ENNReal.ofReal (killK w (t - s) (a t))) * (if a t = l then 1 else 0)) =
      ENNReal.ofReal (killK w (t - s) l) := by
    intro s
    have := sum_prod_marginal (fun t l => ENNReal.ofReal (killK w (t - s) l)) t (fun t => by
      rw [← ENNReal.ofReal_sum_of_nonneg fun l _ => killK_nonneg hw _ l, killK_sum hw,
        ENNReal.ofReal_one]) (fun k => if k = l then 1 else 0)
    refine Eq.trans this ?_
    simp
  simp only [h1]
  have h2 : ∑ s, ENNReal.ofReal (killK w (t - s) l) = ∑ s, ENNReal.ofReal (killK w s l) :=
    (Equiv.subLeft t).sum_comp (fun s => ENNReal.ofReal (killK w s l))
  rw [h2, ← ENNReal.ofReal_sum_of_nonneg fun s _ => killK_nonneg hw s l, killK_sum' hw,
    ← ENNReal.ofReal_mul (by positivity)]
  congr 1; field_simp

/-- C03, pointwise form: `w_i · P(conditional = a) = R(a) · 1[a_j = i]`. -/
theorem C03_killing_pointwise {w : Fin (n + 1) → ℝ} (hw : IsProb w) (key key' key'' : Key)
    (i j : Fin (n + 1)) (a : Fin (n + 1) → Fin (n + 1)) :
    ENNReal.ofReal (w i) * Ex.Pr (killing key w i j true) (· = a) =
      Ex.Pr (rotatedKilling key' key'' w) (· = a) * (if a j = i then 1 else 0) := by
  rw [Ex.Pr, C03_killing_conditional hw key key' key'', Ex.Pr, indicator_eq, rotatedKilling_law hw,
    rotatedKilling_law hw, mul_assoc, sum_mul]
  congr 1
  refine sum_congr rfl fun s _ => ?_
  rw [sum_mul]
  exact sum_congr rfl fun b _ => (mul_assoc _ _ _).symm

/-- The conditional law has total mass one. -/
theorem C03_killing_mass {w : Fin (n + 1) → ℝ} (hw : IsProb w) (key : Key) (i j : Fin (n + 1)) :
    (killing key w i j true : Ex _) (fun _ => 1) = 1 := by
  rw [killing_law_true hw]
  have h1 : ∀ J : Fin (n + 1), ∑ a : Fin (n + 1) → Fin (n + 1),
      (∏ t, ENNReal.ofReal (killK w (t - (j - J)) (a t))) * 1 = 1 := by
    intro J
    simp only [mul_one]
    refine sum_prod_eq_one (fun t l => ENNReal.ofReal (killK w (t - (j - J)) l)) fun t => ?_
    rw [← ENNReal.ofReal_sum_of_nonneg fun l _ => killK_nonneg hw _ l, killK_sum hw,
        ENNReal.ofReal_one]
  simp only [h1]
  simp only [mul_one]
  exact sum_ofReal_of_isProb (killingJProb_isProb hw i).1

/-! ## C04: unbiasedness -/

/-- C04: the expected number of copies of particle `l` is `(number of particles) · w l`. -/
theorem C04_killing_unbiased {w : Fin (n + 1) → ℝ} (hw : IsProb w) (key : Key)
    (i j l : Fin (n + 1)) :
    (killing key w i j false : Ex _) (fun a => ∑ t, if a t = l then 1 else 0) =
      ENNReal.ofReal ((n + 1) * w l) := by
  rw [killing_law_false hw]
  simp only [mul_sum]
  rw [sum_comm, ← killK_sum' hw, ENNReal.ofReal_sum_of_nonneg fun t _ => killK_nonneg hw t l]
  refine sum_congr rfl fun t _ => ?_
  have := sum_prod_marginal (fun t l => ENNReal.ofReal (killK w t l)) t (fun t => by
      rw [← ENNReal.ofReal_sum_of_nonneg fun l _ => killK_nonneg hw _ l, killK_sum hw,
        ENNReal.ofReal_one]) (fun k => if k = l then 1 else 0)
  refine Eq.trans this ?_
  simp

/-! ## C05: uniform weights -/

theorem maxA_const (c : ℝ) : maxA (fun _ : Fin (n + 1) => c) = c := by
  obtain ⟨k, hk⟩ := maxA_mem (fun _ : Fin (n + 1) => c)
  exact hk

/-- C05 (unconditional): with equal weights killing returns the identity. -/
theorem C05_killing_uniform (key : Key) (c : ℝ) (hc : 0 < c) (i j : Fin (n + 1)) :
    Always (killing key (fun _ => c) i j false) (fun a => ∀ t, a t = t) := by
  refine always_bind (R := fun us => ∀ t, 0 ≤ us t ∧ us t < 1) (fun us L h => h.1) fun us hus => ?_
  refine always_bind' fun repl => always_pure fun t => ?_
  have : us t * c < c := by nlinarith [(hus t).2]
  simp [maxA_const, this]

/-- C05 (conditional): with equal weights conditional killing is the rotation taking `i` to `j`; it is
the identity when `i = j`. -/
theorem C05_killing_uniform_conditional (key : Key) (c : ℝ) (hc : 0 < c) (i j : Fin (n + 1)) :
    Always (killing key (fun _ => c) i j true)
      (fun a => (∀ t, a t = t + (i - j)) ∧ (i = j → ∀ t, a t = t)) := by
  refine always_bind (R := fun us => ∀ t, 0 ≤ us t ∧ us t < 1) (fun us L h => h.1) fun us hus => ?_
  refine always_bind' fun repl => ?_
  have hJ : ∀ J, Supp (killingJProb (fun _ : Fin (n + 1) => c) i) J → J = i := by
    intro J hJ
    have h0 : atSet (fun _ : Fin (n + 1) => (1 - c / c) / ((n : ℝ) + 1)) i 0 = fun _ => 0 := by
      funext t; rw [atSet_apply, div_self hc.ne']; simp
    have hdef : killingJProb (fun _ : Fin (n + 1) => c) i = atSet (fun _ => 0) i 1 := by
      simp only [killingJProb, maxA_const, h0]; simp
    rw [hdef] at hJ
    by_contra hne
    rcases hJ with h | h
    · rw [atSet_ne _ _ hne] at h; exact lt_irrefl _ h
    · have := h i; rw [atSet_same] at this; linarith
  refine always_bind (R := fun J => J = i) (fun J L h => hJ J h.1) fun J hJi => ?_
  subst hJi
  have hmain : ∀ t, atSet (roll (fun t => if us t * maxA (fun _ : Fin (n + 1) => c) ≥ c then repl t
      else t) (j - J)) j J t = t + (J - j) := by
    intro t
    rw [atSet_apply]
    split_ifs with h
    · subst h; simp
    · have : us (t - (j - J)) * c < c := by nlinarith [(hus (t - (j - J))).2]
      simp only [roll_apply, maxA_const, ge_iff_le, not_le.mpr this, if_false]
      rw [sub_eq_add_neg, neg_sub]
  refine always_pure ⟨hmain, ?_⟩
  intro h t
  rw [hmain t, h]; simp

/-- With non-uniform weights killing may move a particle, so uniformity is needed in C05. -/
example : ¬ Always (killing [] ![(1 : ℝ) / 4, 3 / 4] (0 : Fin 2) 0 false) (fun a => ∀ t, a t = t) := by
  intro h
  have hm : maxA ![(1 : ℝ) / 4, 3 / 4] = 3 / 4 := by
    apply le_antisymm
    · obtain ⟨k, hk⟩ := maxA_mem ![(1 : ℝ) / 4, 3 / 4]
      rw [hk]; fin_cases k <;> norm_num
    · exact le_maxA ![(1 : ℝ) / 4, 3 / 4] 1
  have := h _ _ ⟨fun _ => 1 / 2, _, _, ⟨fun _ => by norm_num, rfl⟩,
    ⟨fun _ => 1, _, _, ⟨fun _ => Or.inl (by norm_num), rfl⟩, ⟨rfl, rfl⟩, rfl⟩, rfl⟩ 0
  norm_num [hm] at this

/-! ## C06: normalize -/

/-- C06: `normalize` returns a strictly positive probability vector. -/
theorem C06_normalize_isProb (lw : Fin (n + 1) → ℝ) :
    IsProb (normalizeW lw) ∧ ∀ k, 0 < normalizeW lw k :=
  ⟨normalize_isProb lw, normalize_pos lw⟩

/-- C06: the log-space version is the logarithm of the other one. -/
theorem C06_normalize_log_space (lw : Fin (n + 1) → ℝ) (k : Fin (n + 1)) :
    Real.exp (normalizeLog lw k) = normalizeW lw k ∧ normalizeLog lw k = Real.log (normalizeW lw k) :=
  ⟨rfl, by rw [normalizeW, Real.log_exp]⟩

/-- C06: ratios are those of the exponentiated log-weights. -/
theorem C06_normalize_ratio (lw : Fin (n + 1) → ℝ) (k l : Fin (n + 1)) :
    normalizeW lw k / normalizeW lw l = Real.exp (lw k - lw l) := by
  rw [normalizeW, normalizeW, ← Real.exp_sub]; simp [normalizeLog]

/-- C06: additive constants are irrelevant. -/
theorem C06_normalize_shift (lw : Fin (n + 1) → ℝ) (c : ℝ) :
    normalizeW (fun k => lw k + c) = normalizeW lw ∧
      normalizeLog (fun k => lw k + c) = normalizeLog lw :=
  ⟨normalize_add_const lw c, normalizeLog_add_const lw c⟩

example : normalizeW ![Real.log 1, Real.log 3] 1 = 3 / 4 := by
  rw [normalize_eq, Fin.sum_univ_two]
  simp only [Matrix.cons_val_zero, Matrix.cons_val_one]
  rw [Real.exp_log (by norm_num), Real.exp_log (by norm_num)]
  norm_num

end Verif.Props
