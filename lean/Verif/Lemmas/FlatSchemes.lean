import Verif.Lemmas.Genealogy

/-!
# Resampling schemes and ancestor moves with nearly equal weights
-/

open scoped ENNReal Topology
open MeasureTheory Finset Filter

namespace Verif
open Verif.Model Verif.Spec

variable {N n d : ℕ}

/-! ## Multinomial resampling -/

theorem multinomial_offspring (key : Key) {w : Fin (N + 1) → ℝ} (hw : IsProb w) (i j l : Fin (N + 1)) :
    offspring (fun w i j => (multinomial (n := N) key w i j true : Ex _)) w i j l = N * ENNReal.ofReal (w l) := by
  have e : offspring (fun w i j => (multinomial (n := N) key w i j true : Ex _)) w i j l =
      ∑ a : Fin (N + 1) → Fin (N + 1), (∏ t, catP w (a t)) * ∑ c ∈ univ.erase j, (if atSet a j i c = l then (1 : ℝ≥0∞) else 0) := rfl
  rw [e, offspring_prod (p := fun _ => catP w) fun _ => by simp only [catP_of_isProb hw, sum_ofReal_of_isProb hw]]
  rw [sum_const, card_erase_of_mem (mem_univ _), card_univ, Fintype.card_fin, catP_of_isProb hw, nsmul_eq_mul]
  simp

noncomputable def multLo (N : ℕ) (S : ℝ) : ℝ≥0∞ := N * ENNReal.ofReal (Real.exp (-S) / (N + 1))
noncomputable def multHi (N : ℕ) (S : ℝ) : ℝ≥0∞ := N * ENNReal.ofReal (Real.exp S / (N + 1))

theorem multinomial_flat (h : ∀ key, CondResampling fun w i j => (multinomial (n := N) key w i j true : Ex _)) :
    FlatRes (N := N) (fun key w i j c => multinomial key w i j c) (multLo N) (multHi N) where
  good := h
  lower key S w _ hw i j l _ := by
    rw [multinomial_offspring key hw.prob]
    exact mul_le_mul_right (ENNReal.ofReal_le_ofReal (hw.lo l)) _
  upper key S w _ hw i j l _ := by
    rw [multinomial_offspring key hw.prob]
    exact mul_le_mul_right (ENNReal.ofReal_le_ofReal (hw.hi l)) _

/-! ## Killing -/

noncomputable def killLo (N : ℕ) (S : ℝ) : ℝ≥0∞ := ENNReal.ofReal (Real.exp (-S) - (1 - Real.exp (-(S + S))) * ((N + 1) * Real.exp S))
noncomputable def killHi (S : ℝ) : ℝ≥0∞ := ENNReal.ofReal (Real.exp S)

theorem killK_flat {S : ℝ} {w : Fin (N + 1) → ℝ} (hw : FlatW S w) {i l : Fin (N + 1)} (hl : l ≠ i) (J : Fin (N + 1)) :
    killK w J i * killK w J l ≤ 1 - Real.exp (-(S + S)) := by
  have hm := maxA_pos hw.prob
  have hmax : maxA w ≤ Real.exp S / (N + 1) := by
    obtain ⟨k, hk⟩ := maxA_mem w
    rw [hk]
    exact hw.hi k
  have hr : Real.exp (-(S + S)) ≤ w J / maxA w := by
    rw [le_div_iff₀ hm]
    calc Real.exp (-(S + S)) * maxA w ≤ Real.exp (-(S + S)) * (Real.exp S / (N + 1)) := mul_le_mul_of_nonneg_left hmax (Real.exp_pos _).le
      _ = Real.exp (-S) / (N + 1) := by rw [← mul_div_assoc, ← Real.exp_add]; congr 2; ring
      _ ≤ w J := hw.lo J
  have h1 := ratio_mem hw.prob J
  have hle : ∀ k, killK w J k ≤ 1 := fun k => by
    rw [← killK_sum hw.prob J]
    exact single_le_sum (fun k _ => killK_nonneg hw.prob J k) (mem_univ k)
  have hwl : ∀ k, w k ≤ 1 := fun k => by
    rw [← hw.prob.sum_one]
    exact single_le_sum (fun k _ => hw.prob.nonneg k) (mem_univ k)
  have hoff : ∀ k, J ≠ k → killK w J k ≤ 1 - Real.exp (-(S + S)) := fun k hk => by
    unfold killK
    rw [if_neg hk, zero_add]
    have := hwl k
    have := hw.prob.nonneg k
    nlinarith
  by_cases h : J = i
  · have h2 := hoff l (by rw [h]; exact hl.symm)
    have h3 := killK_nonneg hw.prob J l
    have h4 := hle i
    nlinarith [killK_nonneg hw.prob J i]
  · have h2 := hoff i h
    have h3 := killK_nonneg hw.prob J i
    have h4 := hle l
    nlinarith [killK_nonneg hw.prob J l]

theorem killing_flat (h : ∀ key, CondResampling fun w i j => (killing (n := N) key w i j true : Ex _)) :
    FlatRes (N := N) (fun key w i j c => killing key w i j c) (killLo N) killHi where
  good := h
  lower key S w hS hw i j l hl := by
    rw [killing_offspring key hw.prob]
    refine ENNReal.ofReal_le_ofReal ?_
    obtain ⟨hp, hpK⟩ := killingJProb_isProb hw.prob i
    have hN : (0 : ℝ) < N + 1 := by positivity
    have h1 : Real.exp (-S) ≤ (N + 1) * w l := by
      have := hw.lo l
      rw [div_le_iff₀ hN] at this
      linarith
    have h2 : w i * ∑ J, killingJProb w i J * killK w J l ≤ 1 - Real.exp (-(S + S)) := by
      have h3 : w i * ∑ J, killingJProb w i J * killK w J l = (∑ J, killK w J i * killK w J l) / (N + 1) := by
        rw [mul_sum, sum_div]
        refine sum_congr rfl fun J _ => ?_
        rw [← mul_assoc, hpK J]
        ring
      rw [h3, div_le_iff₀ hN]
      calc ∑ J, killK w J i * killK w J l ≤ ∑ _J : Fin (N + 1), (1 - Real.exp (-(S + S))) := sum_le_sum fun J _ => killK_flat hw hl J
        _ = _ := by rw [sum_const, card_univ, Fintype.card_fin, nsmul_eq_mul]; push_cast; ring
    have h0 : 0 ≤ ∑ J, killingJProb w i J * killK w J l := sum_nonneg fun J _ => mul_nonneg (hp.nonneg J) (killK_nonneg hw.prob _ _)
    have h4 : ∑ J, killingJProb w i J * killK w J l ≤ (1 - Real.exp (-(S + S))) * ((N + 1) * Real.exp S) := by
      have h5 : 1 ≤ w i * ((N + 1) * Real.exp S) := by
        have h6 := mul_le_mul_of_nonneg_right (hw.lo i) (by positivity : 0 ≤ (N + 1) * Real.exp S)
        refine le_trans (le_of_eq ?_) h6
        rw [div_mul_eq_mul_div, mul_left_comm, ← Real.exp_add, neg_add_cancel, Real.exp_zero, mul_one, div_self hN.ne']
      calc ∑ J, killingJProb w i J * killK w J l ≤ (w i * ((N + 1) * Real.exp S)) * ∑ J, killingJProb w i J * killK w J l := le_mul_of_one_le_left h0 h5
        _ = (w i * ∑ J, killingJProb w i J * killK w J l) * ((N + 1) * Real.exp S) := by ring
        _ ≤ _ := mul_le_mul_of_nonneg_right h2 (by positivity)
    linarith
  upper key S w hS hw i j l hl := by
    refine (killing_few key w hw.prob i j l).trans ?_
    have hN : (0 : ℝ) < N + 1 := by positivity
    have h : ENNReal.ofReal ((N + 1) * w l) = (N + 1) * ENNReal.ofReal (w l) := by
      rw [ENNReal.ofReal_mul (by positivity), ENNReal.ofReal_add (by positivity) zero_le_one, ENNReal.ofReal_natCast, ENNReal.ofReal_one]
    rw [← h]
    refine ENNReal.ofReal_le_ofReal ?_
    have := hw.hi l
    rw [le_div_iff₀ hN] at this
    linarith

/-! ## Ancestor moves -/

/-- A move of the last index whose probabilities are known when the weights are nearly equal. -/
structure FlatMove (mv : AncestorMove Ex N) (lo hi : ℝ → ℝ≥0∞) : Prop where
  on : ∀ key w, IsProb w → ∀ b, ExOn (moveIndex mv key w b) fun _ => True
  lower : ∀ key S w, 0 ≤ S → FlatW S w → ∀ b (q : Fin (N + 1) → ℝ≥0∞), q b = 0 → lo S * ∑ k, q k ≤ moveIndex mv key w b q
  upper : ∀ key S w, 0 ≤ S → FlatW S w → ∀ b (q : Fin (N + 1) → ℝ≥0∞), q b = 0 → moveIndex mv key w b q ≤ hi S * ∑ k, q k
  hom : ∀ key w b, ExHom (moveIndex mv key w b)

noncomputable def barkerLo (N : ℕ) (S : ℝ) : ℝ≥0∞ := ENNReal.ofReal (Real.exp (-S) / (N + 1))
noncomputable def barkerHi (N : ℕ) (S : ℝ) : ℝ≥0∞ := ENNReal.ofReal (Real.exp S / (N + 1))

theorem barker_flatMove : FlatMove (N := N) (fun key w => barker_move key w) (barkerLo N) (barkerHi N) where
  on key w hw b := ExOn.ofKer (barker_moveInvariant key).ker (x := (w, b)) (barker_mass key hw b)
  lower key S w _ hw b q _ := by
    show _ ≤ ∑ i, catP w i * q i
    rw [mul_sum]
    refine sum_le_sum fun k _ => mul_le_mul_left ?_ _
    rw [catP_of_isProb hw.prob]
    exact ENNReal.ofReal_le_ofReal (hw.lo k)
  upper key S w _ hw b q _ := by
    show ∑ i, catP w i * q i ≤ _
    rw [mul_sum]
    refine sum_le_sum fun k _ => mul_le_mul_left ?_ _
    rw [catP_of_isProb hw.prob]
    exact ENNReal.ofReal_le_ofReal (hw.hi k)
  hom key w b c f := by
    show ∑ i, catP w i * (c * f i) = c * ∑ i, catP w i * f i
    rw [mul_sum]
    exact sum_congr rfl fun i _ => by ring

/-- Bound on the probability that a forced move returns a given other index. -/
noncomputable def forceFl (N : ℕ) (S : ℝ) : ℝ := if 1e-11 ≤ Real.exp (-(S + S)) then Real.exp (-(S + S)) * (Real.exp (-(S + S)) / N) else 0

noncomputable def forceHi (N : ℕ) (S : ℝ) : ℝ≥0∞ := ENNReal.ofReal (1 - (N - 1) * forceFl N S)

theorem forceQ_flat (hN : 1 ≤ N) {S : ℝ} (hS : 0 ≤ S) {w : Fin (N + 1) → ℝ} (h : FlatW S w) {k l : Fin (N + 1)} (hne : l ≠ k) : forceFl N S ≤ forceQ w k l := by
  unfold forceFl
  split_ifs with hc0
  swap
  · exact forceQ_nonneg h.prob k l
  have hw := h.prob
  set c := Real.exp (-(S + S)) with hc
  have hc1 : c ≤ 1 := Real.exp_le_one_iff.mpr (by linarith)
  have hcp : 0 < c := Real.exp_pos _
  have hNp : (0 : ℝ) < N + 1 := by positivity
  have hN0 : (0 : ℝ) < N := by exact_mod_cast hN
  have hcw : ∀ i j, c * w i ≤ w j := fun i j => by
    calc c * w i ≤ c * (Real.exp S / (N + 1)) := mul_le_mul_of_nonneg_left (h.hi i) hcp.le
      _ = Real.exp (-S) / (N + 1) := by rw [hc, ← mul_div_assoc, ← Real.exp_add]; congr 2; ring
      _ ≤ w j := h.lo j
  have hk0 := hw.nonneg k
  have hk : w k < 1 - 1e-12 := by
    have h1 := pair_le_one hw hne
    have h2 := hcw k l
    by_contra h3
    rw [not_lt] at h3
    have h4 : 1e-11 * (1 - 1e-12) ≤ c * w k := mul_le_mul hc0 h3 (by norm_num) hcp.le
    have h5 : w k + c * w k ≤ 1 := by linarith
    norm_num at h3 h4
    linarith
  have hkt : w k < forceThreshold (N + 1) := lt_of_lt_of_le hk (forceThreshold_ge _)
  have hk1 : 0 < 1 - w k := by linarith
  have h1 := pair_le_one hw hne
  have hr : forceRest w k l = w l / (1 - w k) := by
    simp only [forceRest, hkt, if_true]
    rw [atSet_ne _ _ hne]
  rw [forceQ, hr, mul_comm]
  refine mul_le_mul ?_ ?_ hcp.le (div_nonneg (hw.nonneg l) hk1.le)
  · rw [div_le_div_iff₀ hN0 hk1]
    have h2 : c * (1 - w k) = ∑ i ∈ univ.erase k, c * w i := by
      have := Finset.add_sum_erase univ w (mem_univ k)
      rw [hw.sum_one] at this
      rw [← mul_sum]
      congr 1
      linarith
    rw [h2]
    calc ∑ i ∈ univ.erase k, c * w i ≤ ∑ _i ∈ univ.erase k, w l := sum_le_sum fun i _ => hcw i l
      _ = w l * N := by simp [mul_comm]
  · unfold forceAcc
    split_ifs with hh
    · exact hc1
    · have hl1 : w l < w k := by
        by_contra h3
        exact hh ⟨by linarith, not_lt.mp h3⟩
      rw [le_div_iff₀ (by linarith)]
      nlinarith [hcw k l, mul_le_mul_of_nonneg_right hc1 (by linarith : 0 ≤ 1 - w k - w l)]

theorem force_flatMove (hN : 1 ≤ N) : FlatMove (N := N) (fun key w => force_move key w) (fun S => ENNReal.ofReal (forceFl N S)) (forceHi N) where
  on key w hw b := ExOn.ofKer (force_moveKer key) (x := (w, b)) (force_mass key hw b)
  lower key S w hS hw b q hq := by
    have e : moveIndex (fun key w => force_move key w) key w b q = (force_move key w b : Ex _) fun r => q r.1 := rfl
    rw [e, force_move_law' hw.prob, hq, mul_zero, add_zero, ← add_sum_erase _ _ (mem_univ b), hq, zero_add, mul_sum]
    exact sum_le_sum fun l hl => mul_le_mul_left (ENNReal.ofReal_le_ofReal (forceQ_flat hN hS hw (ne_of_mem_erase hl))) _
  upper key S w hS hw b q hq := by
    have e : moveIndex (fun key w => force_move key w) key w b q = (force_move key w b : Ex _) fun r => q r.1 := rfl
    rw [e, force_move_law' hw.prob, hq, mul_zero, add_zero, ← add_sum_erase (f := q) _ (mem_univ b), hq, zero_add, mul_sum]
    refine sum_le_sum fun l hl => mul_le_mul_left (ENNReal.ofReal_le_ofReal ?_) _
    have h1 := forceQ_sum_le hw.prob b
    rw [← add_sum_erase _ _ hl] at h1
    have h2 : ∑ _i ∈ (univ.erase b).erase l, forceFl N S ≤ ∑ i ∈ (univ.erase b).erase l, forceQ w b i :=
      sum_le_sum fun i hi => forceQ_flat hN hS hw (ne_of_mem_erase (mem_of_mem_erase hi))
    rw [sum_const, card_erase_of_mem hl, card_erase_of_mem (mem_univ _), card_univ, Fintype.card_fin, nsmul_eq_mul, Nat.add_sub_cancel, Nat.cast_sub hN, Nat.cast_one] at h2
    linarith
  hom key w b c f := (force_moveKer key).const_mul (w, b) c (measurable_of_finite f)

/-! ## Limits -/

theorem multLo_lim (N : ℕ) : Tendsto (multLo N) (𝓝 0) (𝓝 (ENNReal.ofReal (N / (N + 1)))) := by
  have h : Continuous (multLo N) := by
    unfold multLo
    exact ENNReal.continuous_const_mul (by simp) |>.comp (ENNReal.continuous_ofReal.comp (by fun_prop))
  have e : multLo N 0 = ENNReal.ofReal (N / (N + 1)) := by
    unfold multLo
    rw [neg_zero, Real.exp_zero, ← ENNReal.ofReal_natCast, ← ENNReal.ofReal_mul (by positivity), mul_one_div]
  rw [← e]
  exact h.tendsto 0

theorem multHi_lim (N : ℕ) : Tendsto (multHi N) (𝓝 0) (𝓝 (ENNReal.ofReal (N / (N + 1)))) := by
  have h : Continuous (multHi N) := by
    unfold multHi
    exact ENNReal.continuous_const_mul (by simp) |>.comp (ENNReal.continuous_ofReal.comp (by fun_prop))
  have e : multHi N 0 = ENNReal.ofReal (N / (N + 1)) := by
    unfold multHi
    rw [Real.exp_zero, ← ENNReal.ofReal_natCast, ← ENNReal.ofReal_mul (by positivity), mul_one_div]
  rw [← e]
  exact h.tendsto 0

theorem killLo_lim (N : ℕ) : Tendsto (killLo N) (𝓝 0) (𝓝 (ENNReal.ofReal 1)) := by
  have h : Continuous (killLo N) := by
    unfold killLo
    exact ENNReal.continuous_ofReal.comp (by fun_prop)
  have e : killLo N 0 = ENNReal.ofReal 1 := by simp [killLo]
  rw [← e]
  exact h.tendsto 0

theorem killHi_lim : Tendsto killHi (𝓝 0) (𝓝 (ENNReal.ofReal 1)) := by
  have h : Continuous killHi := by
    unfold killHi
    exact ENNReal.continuous_ofReal.comp (by fun_prop)
  have e : killHi 0 = ENNReal.ofReal 1 := by simp [killHi]
  rw [← e]
  exact h.tendsto 0

theorem barkerLo_lim (N : ℕ) : Tendsto (barkerLo N) (𝓝 0) (𝓝 (ENNReal.ofReal (1 / (N + 1)))) := by
  have h : Continuous (barkerLo N) := by
    unfold barkerLo
    exact ENNReal.continuous_ofReal.comp (by fun_prop)
  have e : barkerLo N 0 = ENNReal.ofReal (1 / (N + 1)) := by simp [barkerLo]
  rw [← e]
  exact h.tendsto 0

theorem barkerHi_lim (N : ℕ) : Tendsto (barkerHi N) (𝓝 0) (𝓝 (ENNReal.ofReal (1 / (N + 1)))) := by
  have h : Continuous (barkerHi N) := by
    unfold barkerHi
    exact ENNReal.continuous_ofReal.comp (by fun_prop)
  have e : barkerHi N 0 = ENNReal.ofReal (1 / (N + 1)) := by simp [barkerHi]
  rw [← e]
  exact h.tendsto 0

theorem forceFl_lim (N : ℕ) : Tendsto (forceFl N) (𝓝 0) (𝓝 (1 / N)) := by
  have h : Continuous fun S : ℝ => Real.exp (-(S + S)) * (Real.exp (-(S + S)) / N) := by fun_prop
  have h1 := h.tendsto 0
  simp only [add_zero, neg_zero, Real.exp_zero, one_mul] at h1
  refine h1.congr' ?_
  have h2 : Continuous fun S : ℝ => Real.exp (-(S + S)) := by fun_prop
  have h3 : ∀ᶠ S in 𝓝 (0 : ℝ), (1e-11 : ℝ) < Real.exp (-(S + S)) := (h2.tendsto 0).eventually (lt_mem_nhds (by simp; norm_num))
  filter_upwards [h3] with S hS
  rw [forceFl, if_pos hS.le]

theorem measurable_forceFl (N : ℕ) : Measurable (forceFl N) := by
  unfold forceFl
  exact Measurable.ite (measurableSet_le measurable_const (by fun_prop)) (by fun_prop) measurable_const

theorem forceHi_lim (hN : 1 ≤ N) : Tendsto (forceHi N) (𝓝 0) (𝓝 (ENNReal.ofReal (1 / N))) := by
  have h := ((forceFl_lim N).const_mul ((N : ℝ) - 1)).const_sub 1
  have hN0 : (0 : ℝ) < N := by exact_mod_cast hN
  have e : 1 - ((N : ℝ) - 1) * (1 / N) = 1 / N := by field_simp; ring
  rw [e] at h
  exact (ENNReal.continuous_ofReal.tendsto _).comp h

end Verif
