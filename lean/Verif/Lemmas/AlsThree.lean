import Verif.Lemmas.AlsKernel
import Verif.Lemmas.HeavyMoves

/-!
# `al_csmc_s.kernel` with backward sampling and three times
-/

open scoped ENNReal
open MeasureTheory ProbabilityTheory Finset

namespace Verif
open Verif.Spec Verif.Model

variable {N d : ℕ} {G : Type}
variable (Gamma0 : Vec d → ℝ) (Gamma0_grad : Vec d → Vec d) (Gammat : Vec d → Vec d → G → ℝ)
  (Gammat_grad0 Gammat_grad1 : Vec d → Vec d → G → Vec d) (Gparams : Fin 2 → G) (ells deltas : Fin 3 → ℝ)
  (u : Fin 3 → Vec d) (xs : Fin 3 → Fin (N + 1) → Vec d)

/-- Log-weights at time zero. -/
noncomputable def threeW0 (i : Fin (N + 1)) : ℝ := alsG0Tilde Gamma0 Gamma0_grad (xs 0 i) (deltas 0) (ells 0) (u 0)

/-- Log-weights at time one, given the ancestors. -/
noncomputable def threeW1 (A0 : Fin (N + 1) → Fin (N + 1)) (i : Fin (N + 1)) : ℝ :=
  alsG1Tilde Gamma0_grad Gammat Gammat_grad0 Gammat_grad1 (xs 0 (A0 i)) (xs 1 i) ⟨deltas 0, ells 0, u 0⟩
    ⟨deltas 1, ells 1, u 1, Gparams 0⟩

/-- Log-weights at time two, given the ancestors. -/
noncomputable def threeW2 (A0 A1 : Fin (N + 1) → Fin (N + 1)) (i : Fin (N + 1)) : ℝ :=
  alsGtTilde Gammat Gammat_grad0 Gammat_grad1 (xs 0 (A0 (A1 i))) (xs 1 (A1 i)) (xs 2 i)
    ⟨deltas 1, ells 1, u 1, Gparams 0⟩ ⟨deltas 2, ells 2, u 2, Gparams 1⟩

/-- Increment at time two, as the backward pass uses it. -/
noncomputable def threeGt (y x x' : Vec d) : ℝ :=
  alsGammatTilde Gammat Gammat_grad0 Gammat_grad1 y x x' ⟨deltas 1, ells 1, u 1, Gparams 0⟩
    ⟨deltas 2, ells 2, u 2, Gparams 1⟩

/-- Increment at time one, as the backward pass uses it. -/
noncomputable def threeG1 (y x : Vec d) : ℝ :=
  alsGamma1Tilde Gamma0_grad Gammat Gammat_grad0 Gammat_grad1 y x ⟨deltas 0, ells 0, u 0⟩
    ⟨deltas 1, ells 1, u 1, Gparams 0⟩

theorem als_three_eq (key : Key) (b : Fin 3 → Fin (N + 1)) (resampling : Resampling Ex N) (mv : AncestorMove Ex N)
    (f : (Fin 3 → Vec d) → ℝ≥0∞) :
    (alsForward (n := 0) key b Gamma0 Gamma0_grad Gammat Gammat_grad0 Gammat_grad1 Gparams ells deltas resampling u xs >>= fun F =>
      alsPass (n := 0) key b Gamma0_grad Gammat Gammat_grad0 Gammat_grad1 Gparams ells deltas u mv true F : Ex _)
      (fun r => f r.1) =
    resampling (keysResampling key 2 0) (normalizeW fun i => threeW0 Gamma0 Gamma0_grad ells deltas u xs i -
        maxA fun i => threeW0 Gamma0 Gamma0_grad ells deltas u xs i) (b 0) (b 1) true fun A0 =>
      resampling (keysResampling key 2 1) (normalizeW fun i => threeW1 Gamma0_grad Gammat Gammat_grad0 Gammat_grad1 Gparams ells
          deltas u xs A0 i) (b 1) (b 2) true fun A1 =>
        moveIndex mv (lastA (splitKey (splitKey key 5 2) 3)) (normalizeW fun i => threeW2 Gammat Gammat_grad0 Gammat_grad1 Gparams
            ells deltas u xs A0 A1 i - maxA fun i => threeW2 Gammat Gammat_grad0 Gammat_grad1 Gparams
            ells deltas u xs A0 A1 i) (b 2) fun B2 =>
          (choice (last2A (splitKey (splitKey key 5 2) 3)) (normalizeW fun i =>
            threeGt Gammat Gammat_grad0 Gammat_grad1 Gparams ells deltas u (xs 0 (A0 (A1 i))) (xs 1 i) (xs 2 B2) +
              threeW1 Gamma0_grad Gammat Gammat_grad0 Gammat_grad1 Gparams ells deltas u xs A0 i) : Ex _) fun B1 =>
            (choice (splitKey (splitKey key 5 2) 3 0) (normalizeW fun i =>
              threeG1 Gamma0_grad Gammat Gammat_grad0 Gammat_grad1 Gparams ells deltas u (xs 0 i) (xs 1 B1) +
              threeGt Gammat Gammat_grad0 Gammat_grad1 Gparams ells deltas u (xs 0 i) (xs 1 B1) (xs 2 B2) +
              (threeW0 Gamma0 Gamma0_grad ells deltas u xs i -
                maxA fun i => threeW0 Gamma0 Gamma0_grad ells deltas u xs i)) : Ex _) fun B0 =>
              f (insert0 (xs 0 B0) (snocA (snocA (fun t : Fin 0 => t.elim0) (xs 1 B1)) (xs 2 B2))) := by
  rfl

section
variable {Y A : Type} [MeasurableSpace Y] [MeasurableSpace A] [Finite A] [DiscreteMeasurableSpace A]

/-- A draw is at least its value at one outcome, times the probability of that outcome. -/
theorem IsKer.ge_single {K : Y → Ex A} (hK : IsKer K) (p : Y) (a : A) [DecidableEq A] {c : ℝ≥0∞}
    (hc : c ≤ K p fun a' => if a' = a then 1 else 0) (F : A → ℝ≥0∞) : c * F a ≤ K p F := by
  have h1 := hK.const_mul p (F a) (f := fun a' => if a' = a then (1 : ℝ≥0∞) else 0) (measurable_of_finite _)
  rw [mul_comm]
  refine le_trans (mul_le_mul_right hc _) (h1.ge.trans ?_)
  refine hK.mono p (measurable_of_finite _) (measurable_of_finite _) fun a' => ?_
  split_ifs with h
  · rw [h, mul_one]
  · rw [mul_zero]; exact zero_le

end

theorem choice_ge (key : Key) {w : Fin (N + 1) → ℝ} (hw : IsProb w) {k : Fin (N + 1)} {h : ℝ} (hk : h ≤ w k)
    (F : Fin (N + 1) → ℝ≥0∞) : ENNReal.ofReal h * F k ≤ (choice key w : Ex _) F := by
  show _ ≤ ∑ i, catP w i * F i
  simp only [catP_of_isProb hw]
  exact (mul_le_mul_left (ENNReal.ofReal_le_ofReal hk) _).trans
    (single_le_sum (f := fun i => ENNReal.ofReal (w i) * F i) (fun _ _ => zero_le) (mem_univ k))

theorem normalizeW_sub_const (lw : Fin (N + 1) → ℝ) (c : ℝ) : (normalizeW fun i => lw i - c) = normalizeW lw :=
  normalize_congr_const ⟨-c, fun i => sub_eq_add_neg _ _⟩

/-- With heavy particle `k` at time zero and heavy reference particle after it: a lower bound on the probability that the
new trajectory takes particle `k` at times zero and one and the reference at time two. -/
theorem als_three_ge (key : Key) {k : Fin (N + 1)} {resampling : Resampling Ex N}
    (hR : ∀ key, CondResampling fun w i j => resampling key w i j true)
    (hG : ∀ key, GivesToHeavy fun w i j => resampling key w i j true) {mv : AncestorMove Ex N}
    (hm : ∀ key, MoveKer (moveIndex mv key)) (hH : ∀ key, KeepsHeavy (moveIndex mv key)) :
    ∃ c : ℝ≥0∞, c ≠ 0 ∧ ∀ u xs (f : (Fin 3 → Vec d) → ℝ≥0∞) (A0 : Fin (N + 1) → Fin (N + 1)) (K : ℝ),
      A0 = Function.update (fun _ => k) 0 0 → 4 * (N + 1) ≤ Real.exp K →
      (∀ i, i ≠ k → K ≤ threeW0 Gamma0 Gamma0_grad ells deltas u xs k - threeW0 Gamma0 Gamma0_grad ells deltas u xs i) →
      (∀ i, i ≠ 0 → K ≤ threeW1 Gamma0_grad Gammat Gammat_grad0 Gammat_grad1 Gparams ells deltas u xs A0 0 -
        threeW1 Gamma0_grad Gammat Gammat_grad0 Gammat_grad1 Gparams ells deltas u xs A0 i) →
      (∀ i, i ≠ 0 → K ≤ threeW2 Gammat Gammat_grad0 Gammat_grad1 Gparams ells deltas u xs A0 (fun _ => 0) 0 -
        threeW2 Gammat Gammat_grad0 Gammat_grad1 Gparams ells deltas u xs A0 (fun _ => 0) i) →
      (∀ i, i ≠ k → K ≤ (threeGt Gammat Gammat_grad0 Gammat_grad1 Gparams ells deltas u (xs 0 0) (xs 1 k) (xs 2 0) +
          threeW1 Gamma0_grad Gammat Gammat_grad0 Gammat_grad1 Gparams ells deltas u xs A0 k) -
        (threeGt Gammat Gammat_grad0 Gammat_grad1 Gparams ells deltas u (xs 0 0) (xs 1 i) (xs 2 0) +
          threeW1 Gamma0_grad Gammat Gammat_grad0 Gammat_grad1 Gparams ells deltas u xs A0 i)) →
      (∀ i, i ≠ k → K ≤ (threeG1 Gamma0_grad Gammat Gammat_grad0 Gammat_grad1 Gparams ells deltas u (xs 0 k) (xs 1 k) +
          threeGt Gammat Gammat_grad0 Gammat_grad1 Gparams ells deltas u (xs 0 k) (xs 1 k) (xs 2 0) +
          threeW0 Gamma0 Gamma0_grad ells deltas u xs k) -
        (threeG1 Gamma0_grad Gammat Gammat_grad0 Gammat_grad1 Gparams ells deltas u (xs 0 i) (xs 1 k) +
          threeGt Gammat Gammat_grad0 Gammat_grad1 Gparams ells deltas u (xs 0 i) (xs 1 k) (xs 2 0) +
          threeW0 Gamma0 Gamma0_grad ells deltas u xs i)) →
      c * f ![xs 0 k, xs 1 k, xs 2 0] ≤
        (alsForward (n := 0) key (fun _ => 0) Gamma0 Gamma0_grad Gammat Gammat_grad0 Gammat_grad1 Gparams ells deltas resampling u xs >>= fun F =>
          alsPass (n := 0) key (fun _ => 0) Gamma0_grad Gammat Gammat_grad0 Gammat_grad1 Gparams ells deltas u mv true F : Ex _)
          (fun r => f r.1) := by
  obtain ⟨c0, hc0, h0⟩ := hG (keysResampling key 2 0)
  obtain ⟨c1, hc1, h1⟩ := hG (keysResampling key 2 1)
  obtain ⟨c2, hc2, h2⟩ := hH (lastA (splitKey (splitKey key 5 2) 3))
  have hq : ENNReal.ofReal (3 / 4) ≠ 0 := by positivity
  refine ⟨c0 * (c1 * (c2 * (ENNReal.ofReal (3 / 4) * ENNReal.ofReal (3 / 4)))),
    mul_ne_zero hc0 (mul_ne_zero hc1 (mul_ne_zero hc2 (mul_ne_zero hq hq))),
    fun u xs f A0 K hA hK g0 g1 g2 g3 g4 => ?_⟩
  rw [als_three_eq]
  simp only [mul_assoc]
  have e0 : Function.update (fun _ : Fin (N + 1) => (0 : Fin (N + 1))) 0 0 = fun _ => 0 := Function.update_eq_self _ _
  refine le_trans (mul_le_mul_right ?_ _) ((hR (keysResampling key 2 0)).ker.ge_single (_, _, _) A0
    (hA ▸ h0 _ (normalize_isProb _) (normalize_pos _) 0 0 k ?_) _)
  · refine le_trans (mul_le_mul_right ?_ _) ((hR (keysResampling key 2 1)).ker.ge_single (_, _, _) (fun _ => 0)
      (e0 ▸ h1 _ (normalize_isProb _) (normalize_pos _) 0 0 0 ?_) _)
    · refine le_trans (mul_le_mul_right ?_ _) ((hm _).ge_single (_, _) 0 (h2 _ (normalize_isProb _) (normalize_pos _) 0 ?_) _)
      · refine le_trans (mul_le_mul_right ?_ _) (choice_ge _ (normalize_isProb _) (k := k) (h := 3 / 4) ?_ _)
        · refine le_trans (le_of_eq ?_) (choice_ge _ (normalize_isProb _) (k := k) (h := 3 / 4) ?_ _)
          · congr 2
            funext t
            fin_cases t <;> rfl
          · refine normalizeW_heavy hK fun i hi => ?_
            have := g4 i hi
            linarith
        · refine normalizeW_heavy hK fun i hi => ?_
          have := g3 i hi
          rw [hA] at this ⊢
          simpa using this
      · rw [normalizeW_sub_const]
        exact normalizeW_heavy hK g2
    · exact normalizeW_heavy hK g1
  · rw [normalizeW_sub_const]
    exact normalizeW_heavy hK g0

end Verif
