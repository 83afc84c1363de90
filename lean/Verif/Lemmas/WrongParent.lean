import Verif.Spec.WrongParent
import Verif.Lemmas.AlsKernel
import Verif.Lemmas.AtpsLast
import Verif.Props.Smoothing
import Verif.Spec.Indices

/-!
# `al_csmc_s.kernel` on the model of `Verif.Spec.WrongParent`
-/

open scoped ENNReal
open MeasureTheory ProbabilityTheory Finset

namespace Verif
open Verif.Spec Verif.Model Verif.Props

variable {N : ℕ}

/-! ## The increments -/

/-- Log-weight at time one. -/
noncomputable def wpLw (C : ℝ) (u y x : Vec 1) : ℝ := if InUnit x then posStep y * (C + u 0 - 1 / 2) else wall x

/-- The part of the increment at time two that depends on the states at times zero and one. -/
noncomputable def wpInc (u y x : Vec 1) : ℝ := if InUnit x then u 0 - 1 / 2 - posStep y else 0

theorem posStep_cases (y : Vec 1) : posStep y = 0 ∨ posStep y = 1 := by
  unfold posStep; split_ifs <;> simp

theorem wall_inUnit {x : Vec 1} (h : InUnit x) : wall x = 0 := by
  have : ⌊x 0 ^ 2⌋ = 0 := by
    rw [Int.floor_eq_iff]
    have h1 := h.1; have h2 := h.2
    constructor
    · push_cast; positivity
    · push_cast; nlinarith
  rw [wall, this]; simp

theorem wp_g0 (x u : Vec 1) : alsG0Tilde wall (fun _ => 0) x 2 2 u = wall x := by
  simp only [alsG0Tilde, alsGamma0Tilde, alsCorrection, alsMean, sumSq, Pi.zero_apply]
  simp only [Finset.univ_unique, Fin.default_eq_zero, Finset.sum_singleton]
  ring

theorem wp_g1 (C : ℝ) (y x u0 u : Vec 1) :
    alsG1Tilde (fun _ => 0) (parentGamma C) parentGrad0 parentGrad1 y x ⟨2, 2, u0⟩ ⟨2, 2, u, 0⟩ = wpLw C u y x := by
  simp only [alsG1Tilde, alsGamma1Tilde, alsCorrection, alsMean, sumSq, Pi.zero_apply, Pi.add_apply, parentGamma,
    parentGrad0, parentGrad1, if_true, wpLw]
  simp only [Finset.univ_unique, Fin.default_eq_zero, Finset.sum_singleton]
  by_cases h : InUnit x
  · simp only [if_pos h, wall_inUnit h]
    rcases posStep_cases y with e | e <;> rw [e] <;> ring
  · simp only [if_neg h]
    ring

theorem wp_gt (C : ℝ) (y x x' u u' : Vec 1) :
    alsGammatTilde (parentGamma C) parentGrad0 parentGrad1 y x x' ⟨2, 2, u, 0⟩ ⟨2, 2, u', 1⟩ =
      wpInc u y x + (wall x' - (u' 0 - x' 0) ^ 2 / 2) := by
  simp only [alsGammatTilde, alsCorrection, alsMean, sumSq, Pi.add_apply, parentGamma,
    parentGrad0, parentGrad1, if_true, wpInc, one_ne_zero, if_false]
  simp only [Finset.univ_unique, Fin.default_eq_zero, Finset.sum_singleton]
  by_cases h : InUnit x
  · simp only [if_pos h]
    rcases posStep_cases y with e | e <;> rw [e] <;> ring
  · simp only [if_neg h]
    ring

/-! ## The law of the state at time one -/

/-- The parents used by the backward pass: those of the code, or the right ones. -/
def wpPar (fix : Bool) (A0 A1 : Anc N) : Anc N := fun i => if fix then A0 i else A0 (A1 i)

/-- The change of the forward arrays that puts the right parents in place, or none. -/
def wpFix (fix : Bool) (F : AlsFwd N 0 1) : AlsFwd N 0 1 := if fix then alsFix F else F

/-- Log-weights of the particles at time one in the backward pass. -/
noncomputable def wpLog (C : ℝ) (u : Vec 1) (X0 X1 : PA (Vec 1) N) (A0 par : Anc N) (i : Fin (N + 1)) : ℝ :=
  wpLw C u (X0 (A0 i)) (X1 i) + wpInc u (X0 (par i)) (X1 i)

/-- Mean of `ψ` at the particle selected at time one. -/
noncomputable def wpSel (ψ : Vec 1 → ℝ≥0∞) (C : ℝ) (u : Vec 1) (X0 X1 : PA (Vec 1) N) (A0 par : Anc N) : ℝ≥0∞ :=
  ∑ i, ENNReal.ofReal (normalizeW (wpLog C u X0 X1 A0 par) i) * ψ (X1 i)

/-- The mean of `ψ` at the state at time one after the resampling steps and the backward pass. -/
noncomputable def wpMean (fix : Bool) (ψ : Vec 1 → ℝ≥0∞) (C : ℝ) (R0 R1 : (Fin (N + 1) → ℝ) → Fin (N + 1) → Fin (N + 1) → Ex (Anc N))
    (b : Fin 3 → Fin (N + 1)) (u : Vec 1) (X0 X1 : PA (Vec 1) N) : ℝ≥0∞ :=
  R0 (normalizeW fun i => wall (X0 i)) (b 0) (b 1) fun A0 =>
    R1 (normalizeW fun i => wpLw C u (X0 (A0 i)) (X1 i)) (b 1) (b 2) fun A1 =>
      wpSel ψ C u X0 X1 A0 (wpPar fix A0 A1)

theorem wp_backward (ψ : Vec 1 → ℝ≥0∞) (C : ℝ) (key : Key) (b : Fin 3 → Fin (N + 1))
    {mv : AncestorMove Ex N} (hm : ∀ key, MoveKer (moveIndex mv key)) (hm' : ∀ key, MoveMass (moveIndex mv key))
    (u : Fin 3 → Vec 1) (xs : Fin 3 → PA (Vec 1) N) (As : Fin 2 → Anc N) (xm : Fin 2 → PA (Vec 1) N)
    (lws : Fin 3 → Fin (N + 1) → ℝ) (par : Anc N) (h1 : ∀ i, lws 1 i = wpLw C (u 1) (xs 0 (As 0 i)) (xs 1 i))
    (h2 : ∀ i, xm 0 i = xs 0 (par i)) :
    alsPass (n := 0) key b (fun _ => 0) (parentGamma C) parentGrad0 parentGrad1 (fun t => t) (fun _ => 2) (fun _ => 2) u mv true
      ⟨xs, lws, As, xm⟩ (fun r => ψ (r.1 1)) = wpSel ψ C (u 1) (xs 0) (xs 1) (As 0) par := by
  have hmv : ∀ key w k (c : ℝ≥0∞), IsProb w → moveIndex mv key w k (fun _ => c) = c := fun key w k c hw => by
    have h := (hm key).const_fun (w, k) c
    rw [h, hm' key w hw, mul_one]
  have h0 : alsPass (n := 0) key b (fun _ => 0) (parentGamma C) parentGrad0 parentGrad1 (fun t => t) (fun _ => 2) (fun _ => 2) u
      mv true ⟨xs, lws, As, xm⟩ (fun r => ψ (r.1 1)) =
      moveIndex mv (lastA (splitKey (splitKey key 5 2) 3)) (normalizeW (lastA lws)) (lastA b) (fun B =>
        (choice (last2A (splitKey (splitKey key 5 2) 3)) (normalizeW fun i =>
          alsGammatTilde (parentGamma C) parentGrad0 parentGrad1 (xm 0 i) (xs 1 i) (xs 2 B) ⟨2, 2, u 1, 0⟩
            ⟨2, 2, u 2, 1⟩ + lws 1 i) : Ex _) fun B' =>
          (choice (splitKey (splitKey key 5 2) 3 0) (normalizeW fun i =>
            alsGamma1Tilde (fun _ => 0) (parentGamma C) parentGrad0 parentGrad1 (xs 0 i) (xs 1 B') ⟨2, 2, u 0⟩ ⟨2, 2, u 1, 0⟩ +
            alsGammatTilde (parentGamma C) parentGrad0 parentGrad1 (xs 0 i) (xs 1 B') (xs 2 B) ⟨2, 2, u 1, 0⟩
            ⟨2, 2, u 2, 1⟩ + lws 0 i) : Ex _) fun _ => ψ (xs 1 B')) := rfl
  rw [h0]
  refine (congrArg _ (funext fun B => ?_)).trans (hmv _ _ _ _ (normalize_isProb _))
  show ∑ B', catP _ B' * _ = _
  refine sum_congr rfl fun B' _ => ?_
  rw [catP_of_isProb (normalize_isProb _)]
  have e : normalizeW (fun i => alsGammatTilde (parentGamma C) parentGrad0 parentGrad1 (xm 0 i) (xs 1 i) (xs 2 B) ⟨2, 2, u 1, 0⟩
      ⟨2, 2, u 2, 1⟩ + lws 1 i) = normalizeW (wpLog C (u 1) (xs 0) (xs 1) (As 0) par) := by
    refine normalize_congr_const ⟨wall (xs 2 B) - (u 2 0 - xs 2 B 0) ^ 2 / 2, fun i => ?_⟩
    rw [wp_gt, h1, h2, wpLog]
    ring
  refine congrArg₂ (· * ·) (congrArg ENNReal.ofReal (congrFun e B')) ?_
  exact choice_mass _ _ _ _ fun k => rfl

theorem wp_forward (fix : Bool) (ψ : Vec 1 → ℝ≥0∞) (C : ℝ) (key : Key) (b : Fin 3 → Fin (N + 1)) (resampling : Resampling Ex N)
    {mv : AncestorMove Ex N} (hm : ∀ key, MoveKer (moveIndex mv key)) (hm' : ∀ key, MoveMass (moveIndex mv key))
    (u : Fin 3 → Vec 1) (xs : Fin 3 → PA (Vec 1) N) :
    (alsForward (n := 0) key b wall (fun _ => 0) (parentGamma C) parentGrad0 parentGrad1 (fun t => t) (fun _ => 2)
      (fun _ => 2) resampling u xs >>= fun F =>
      alsPass (n := 0) key b (fun _ => 0) (parentGamma C) parentGrad0 parentGrad1 (fun t => t) (fun _ => 2) (fun _ => 2) u mv true
        (wpFix fix F) : Ex _) (fun r => ψ (r.1 1)) =
    wpMean fix ψ C (fun w i j => resampling (keysResampling key 2 0) w i j true)
      (fun w i j => resampling (keysResampling key 2 1) w i j true) b (u 1) (xs 0) (xs 1) := by
  have h0 : (normalizeW fun i => alsG0Tilde wall (fun _ => 0) (xs 0 i) 2 2 (u 0) -
      maxA fun i => alsG0Tilde wall (fun _ => 0) (xs 0 i) 2 2 (u 0)) = normalizeW fun i => wall (xs 0 i) := by
    simp only [wp_g0]
    exact normalize_congr_const ⟨-maxA fun i => wall (xs 0 i), fun i => sub_eq_add_neg _ _⟩
  have h1 : ∀ A0 : Anc N, (normalizeW fun i => alsG1Tilde (fun _ => 0) (parentGamma C) parentGrad0 parentGrad1 (xs 0 (A0 i))
      (xs 1 i) ⟨2, 2, u 0⟩ ⟨2, 2, u 1, 0⟩) = normalizeW fun i => wpLw C (u 1) (xs 0 (A0 i)) (xs 1 i) := fun A0 => by
    simp only [wp_g1]
  have hl : ∀ A0 : Anc N, (fun i => alsG1Tilde (fun _ => 0) (parentGamma C) parentGrad0 parentGrad1 (xs 0 (A0 i))
      (xs 1 i) ⟨2, 2, u 0⟩ ⟨2, 2, u 1, 0⟩) = fun i => wpLw C (u 1) (xs 0 (A0 i)) (xs 1 i) := fun A0 => by
    simp only [wp_g1]
  rw [wpMean, ← h0]
  refine congrArg (resampling (keysResampling key 2 0) (normalizeW fun i => alsG0Tilde wall (fun _ => 0) (xs 0 i) 2 2 (u 0) -
      maxA fun i => alsG0Tilde wall (fun _ => 0) (xs 0 i) 2 2 (u 0)) (b 0) (b 1) true) (funext fun A0 => ?_)
  rw [← h1]
  refine congrArg (resampling (keysResampling key 2 1) (normalizeW fun i => alsG1Tilde (fun _ => 0) (parentGamma C) parentGrad0
    parentGrad1 (xs 0 (A0 i)) (xs 1 i) ⟨2, 2, u 0⟩ ⟨2, 2, u 1, 0⟩) (b 1) (b 2) true) (funext fun A1 => ?_)
  cases fix with
  | false => exact wp_backward ψ C key b hm hm' u xs _ _ _ (fun i => A0 (A1 i)) (fun i => congrFun (hl A0) i) fun i => rfl
  | true => exact wp_backward ψ C key b hm hm' u xs _ _ _ A0 (fun i => congrFun (hl A0) i) fun i => rfl

end Verif
