import Verif.Props.Resampling
import Verif.Props.Moves
import Verif.Spec.Invariance
import Verif.Model.Csmc

/-!
# The resampling schemes and moves of the code meet the abstract conditions
-/

open scoped ENNReal
open MeasureTheory ProbabilityTheory Finset

namespace Verif
open Verif.Spec Verif.Model Verif.Props

variable {N : ℕ}

theorem measurable_killingJProb {β : Type} [MeasurableSpace β] {w : β → Fin (N + 1) → ℝ}
    {i : β → Fin (N + 1)} (hw : Measurable w) (hi : Measurable i) :
    Measurable (fun b => killingJProb (w b) (i b)) := by
  unfold killingJProb
  have h1 : Measurable fun b => (fun t : Fin (N + 1) => (1 - w b t / maxA (w b)) / ((N : ℝ) + 1)) := by
    refine measurable_pi_lambda _ fun t => ?_
    have := measurable_maxA hw
    have h2 := (measurable_pi_apply t).comp hw
    exact (measurable_const.sub (h2.div this)).div_const _
  have h2 := measurable_atSet h1 hi (measurable_const (a := (0 : ℝ)))
  refine measurable_atSet h2 hi ?_
  refine Measurable.max (measurable_const.sub ?_) measurable_const
  exact Finset.measurable_fun_sum _ fun t _ => (measurable_pi_apply t).comp h2

/-- Arguments of a conditional resampling function. -/
abbrev ResArg (N : ℕ) := (Fin (N + 1) → ℝ) × Fin (N + 1) × Fin (N + 1)

theorem multinomial_ker (key : Key) : IsKer (fun p : ResArg N =>
    (multinomial key p.1 p.2.1 p.2.2 true : Ex _)) := by
  have h : IsKer (fun p : ResArg N => (choices key (N + 1) p.1 : Ex _) >>=
      (fun (p : ResArg N) (a : Fin (N + 1) → Fin (N + 1)) => (pure (atSet a p.2.2 p.2.1) : Ex _)) p) :=
    IsKer.bind (IsKer.choices key (N + 1) (by fun_prop)) (IsKer.pure (by fun_prop))
  exact h

/-- Indices of the killing scheme before the rotation. -/
noncomputable def killIdx (w us : Fin (N + 1) → ℝ) (repl : Fin (N + 1) → Fin (N + 1)) :
    Fin (N + 1) → Fin (N + 1) := fun t => if us t * maxA w ≥ w t then repl t else t

theorem measurable_killIdx {β : Type} [MeasurableSpace β] {w us : β → Fin (N + 1) → ℝ}
    {repl : β → Fin (N + 1) → Fin (N + 1)} (hw : Measurable w) (hu : Measurable us)
    (hr : Measurable repl) : Measurable (fun b => killIdx (w b) (us b) (repl b)) := by
  refine measurable_pi_lambda _ fun t => Measurable.ite ?_ (by fun_prop) measurable_const
  exact measurableSet_le (by fun_prop) (by fun_prop)

theorem killing_ker (key : Key) : IsKer (fun p : ResArg N =>
    (killing key p.1 p.2.1 p.2.2 true : Ex _)) := by
  have h3 : IsKer (fun r : (ResArg N × (Fin (N + 1) → ℝ)) × (Fin (N + 1) → Fin (N + 1)) =>
      (choice (splitKey key 3 2) (killingJProb r.1.1.1 r.1.1.2.1) : Ex _) >>=
      (fun (r : (ResArg N × (Fin (N + 1) → ℝ)) × (Fin (N + 1) → Fin (N + 1))) (J : Fin (N + 1)) =>
        (pure (atSet (roll (killIdx r.1.1.1 r.1.2 r.2) (r.1.1.2.2 - J)) r.1.1.2.2 r.1.1.2.1) : Ex _)) r) := by
    refine IsKer.bind (IsKer.choice _ (measurable_killingJProb (by fun_prop) (by fun_prop)))
      (IsKer.pure ?_)
    refine measurable_atSet (measurable_roll (measurable_killIdx ?_ ?_ ?_) ?_) ?_ ?_
    · fun_prop
    · fun_prop
    · fun_prop
    · exact (measurable_of_finite fun p : Fin (N + 1) × Fin (N + 1) => p.1 - p.2).comp
        (by fun_prop : Measurable fun q : ((ResArg N ×
          (Fin (N + 1) → ℝ)) × (Fin (N + 1) → Fin (N + 1))) × Fin (N + 1) => (q.1.1.1.2.2, q.2))
    · fun_prop
    · fun_prop
  have h2 : IsKer (fun q : ResArg N × (Fin (N + 1) → ℝ) =>
      (choices (splitKey key 3 1) (N + 1) q.1.1 : Ex (Fin (N + 1) → Fin (N + 1))) >>=
      fun repl => (choice (splitKey key 3 2) (killingJProb q.1.1 q.1.2.1) : Ex _) >>= fun J =>
        pure (atSet (roll (killIdx q.1.1 q.2 repl) (q.1.2.2 - J)) q.1.2.2 q.1.2.1)) :=
    IsKer.bind (IsKer.choices _ (N + 1) (by fun_prop)) h3
  have h1 : IsKer (fun p : ResArg N => (uniforms (splitKey key 3 0) (N + 1) : Ex (Fin (N + 1) → ℝ)) >>=
      fun us => (choices (splitKey key 3 1) (N + 1) p.1 : Ex (Fin (N + 1) → Fin (N + 1))) >>=
      fun repl => (choice (splitKey key 3 2) (killingJProb p.1 p.2.1) : Ex _) >>= fun J =>
        pure (atSet (roll (killIdx p.1 us repl) (p.2.2 - J)) p.2.2 p.2.1)) :=
    IsKer.bind (IsKer.uniforms _ (N + 1)) h2
  exact h1

/-- Conditional multinomial resampling is a conditional resampling scheme. -/
theorem multinomial_condResampling (key : Key) :
    CondResampling (fun w i j => (multinomial (n := N) key w i j true : Ex _)) where
  ker := multinomial_ker key
  mass w hw i j := by
    have : ∑ k, catP w k = 1 := by simp only [catP_of_isProb hw, sum_ofReal_of_isProb hw]
    have h := sum_prod_eq_one (fun _ : Fin (N + 1) => catP w) fun _ => this
    show ∑ a, _ * (1 : ℝ≥0∞) = 1
    simpa using h
  law := ⟨fun w a => ∏ t, catP w (a t), fun w hw _ i j f =>
    C02_multinomial_conditional hw key key i j f⟩

/-- Conditional killing resampling is a conditional resampling scheme. -/
theorem killing_condResampling (key : Key) :
    CondResampling (fun w i j => (killing (n := N) key w i j true : Ex _)) where
  ker := killing_ker key
  mass w hw i j := C03_killing_mass hw key i j
  law := by
    refine ⟨fun w a => ENNReal.ofReal (1 / (N + 1)) * ∑ s, ∏ t, ENNReal.ofReal (killK w (t - s) (a t)),
      fun w hw _ i j f => ?_⟩
    rw [C03_killing_conditional hw key key key i j f, rotatedKilling_law hw, sum_comm, mul_sum]
    refine sum_congr rfl fun a _ => ?_
    rw [← sum_mul, mul_assoc]

/-- The index returned by an ancestor move. -/
noncomputable def moveIndex (mv : AncestorMove Ex N) (key : Key) (w : Fin (N + 1) → ℝ)
    (k : Fin (N + 1)) : Ex (Fin (N + 1)) := do
  let r ← mv key w k
  pure r.1

/-- The Barker move leaves the weights invariant. -/
theorem barker_moveInvariant (key : Key) : MoveInvariant (N := N) (moveIndex (fun key w k => barker_move key w k) key) where
  ker := IsKer.choice key measurable_fst
  inv w hw _ f := by
    have h : ∀ k, moveIndex (fun key w k => barker_move key w k) key w k f = ∑ i, ENNReal.ofReal (w i) * f i := by
      intro k
      show ∑ i, catP w i * f i = _
      simp only [catP_of_isProb hw]
    simp only [h]
    rw [← sum_mul, sum_ofReal_of_isProb hw, one_mul]

end Verif
