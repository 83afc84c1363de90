import Mathlib.Probability.Distributions.Gaussian.Real
import Mathlib.MeasureTheory.Constructions.Pi
import Verif.Model.AlCsmcS
import Verif.Model.LCsmcF
import Verif.Core.KerSem
import Verif.Lemmas.ScanRules
import Verif.Spec.Proposals

/-!
# Runs in which one slot is followed

Programs that cannot be random any more, the passes when the resampling and the move are told to take slot `i`, and the
law of sums of two independent noises.
-/

open scoped ENNReal
open MeasureTheory ProbabilityTheory

namespace Verif
open Verif.Model Verif.Spec

/-- `P` returns one value, and `Q` holds of it. -/
def Sure {α : Type} (P : Ex α) (Q : α → Prop) : Prop := ∃ a, Q a ∧ P = pure a

theorem sure_pure {α : Type} {a : α} {Q : α → Prop} (h : Q a) : Sure (pure a) Q := ⟨a, h, rfl⟩

theorem sure_bind {α β : Type} {P : Ex α} {F : α → Ex β} {R : α → Prop} {Q : β → Prop} (hP : Sure P R)
    (hF : ∀ a, R a → Sure (F a) Q) : Sure (P >>= F) Q := by
  obtain ⟨a, ha, rfl⟩ := hP
  obtain ⟨b, hb, e⟩ := hF a ha
  exact ⟨b, hb, by rw [pure_bind, e]⟩

theorem sure_scanM {C I O : Type} {body : C → I → Ex (C × O)} {Q : O → Prop}
    (hb : ∀ c i, Sure (body c i) fun r => Q r.2) {k : ℕ} (inp : Fin k → I) (c : C) :
    Sure (scanM body c inp) fun r => ∀ t, Q (r.2 t) := by
  induction k generalizing c with
  | zero => exact sure_pure fun t => t.elim0
  | succ k ih =>
    rw [scanM_succ]
    refine sure_bind (hb c (inp 0)) fun r hr => ?_
    refine sure_bind (ih (tailA inp) r.1) fun rs hrs => sure_pure fun t => ?_
    exact Fin.cases hr hrs t

section passes
variable {X : Type} {N n : ℕ}

theorem scan_follow (i : Fin (N + 1)) (a : Fin n → Fin (N + 1) → X) (A : Fin n → Fin (N + 1) → Fin (N + 1))
    (hA : ∀ t, A t i = i) :
    scan bscanBody i (fun t => (a t, A t)) = (i, fun t => (a t i, i)) := by
  induction n with
  | zero => exact Prod.ext rfl (funext fun t => t.elim0)
  | succ k ih =>
    rw [scan_succ]
    have h1 : bscanBody i (a 0, A 0) = (i, (a 0 i, i)) := by simp only [bscanBody, hA]
    have h2 := ih (tailA a) (tailA A) fun t => hA _
    have h3 : tailA (fun t => (a t, A t)) = fun t => (tailA a t, tailA A t) := rfl
    simp only [h1, h3, h2]
    refine Prod.ext rfl (funext fun t => ?_)
    exact Fin.cases rfl (fun _ => rfl) t

/-- The scanning pass that starts from slot `i` and finds `i` as the ancestor of `i` returns the particles of slot `i`. -/
theorem scanning_follow (key : Key) (As : Fin n → Fin (N + 1) → Fin (N + 1)) (b i : Fin (N + 1))
    (xs : Fin (n + 1) → Fin (N + 1) → X) (lw : Fin (N + 1) → ℝ) (hA : ∀ t, As t i = i) :
    (backward_scanning_pass key As b xs lw (pick i) : Ex _) = pure (fun t => xs t i, fun _ => i) := by
  have e : (backward_scanning_pass key As b xs lw (pick i) : Ex _) =
      pure (rev (insert0 (lastA xs i) fun t => ((scan bscanBody i fun t => (revInit xs t, rev As t)).2 t).1),
        rev (insert0 i fun t => ((scan bscanBody i fun t => (revInit xs t, rev As t)).2 t).2)) := rfl
  rw [e, scan_follow i (revInit xs) (rev As) fun t => hA _]
  refine congrArg pure (Prod.ext (funext fun t => ?_) (funext fun t => ?_))
  · induction t using Fin.lastCases with
    | last => exact rev_insert0_last _ _
    | cast t =>
      refine (rev_insert0_castSucc _ _ t).trans ?_
      simp only [revInit, rev, initA, Fin.rev_rev]
  · induction t using Fin.lastCases with
    | last => exact rev_insert0_last _ _
    | cast t => exact rev_insert0_castSucc _ _ t

/-- The forward scan with ancestors `i`, then anything. -/
theorem run_follow {C I O : Type} {body : C → I → Ex (C × (O × (Fin (N + 1) → Fin (N + 1))))} (i : Fin (N + 1))
    (hb : ∀ c inp, Sure (body c inp) fun r => r.2.2 i = i) {c : C} {inp : Fin n → I}
    {F : C × (Fin n → O × (Fin (N + 1) → Fin (N + 1))) → ℝ≥0∞} {v : ℝ≥0∞} (hF : ∀ r, (∀ t, (r.2 t).2 i = i) → F r = v) :
    (scanM body c inp) F = v := by
  obtain ⟨a, ha, h⟩ := sure_scanM (Q := fun o : O × (Fin (N + 1) → Fin (N + 1)) => o.2 i = i) hb inp c
  rw [h]
  exact hF a ha

/-- The forward pass of Particle-aMALA+ with ancestors `i`. -/
theorem sure_alsForward {G : Type} {d : ℕ} (i : Fin (N + 1)) (key : Key) (bstar : Fin (n + 3) → Fin (N + 1))
    (Gamma0 : Vec d → ℝ) (Gamma0_grad : Vec d → Vec d) (Gammat : Vec d → Vec d → G → ℝ)
    (Gammat_grad0 Gammat_grad1 : Vec d → Vec d → G → Vec d) (Gparams : Fin (n + 2) → G)
    (ells deltas : Fin (n + 3) → ℝ) (aux_vars : Fin (n + 3) → Vec d) (xs : Fin (n + 3) → Fin (N + 1) → Vec d) :
    Sure (alsForward (m := Ex) key bstar Gamma0 Gamma0_grad Gammat Gammat_grad0 Gammat_grad1 Gparams ells deltas (follow i)
      aux_vars xs) fun F => F.xs = xs ∧ ∀ t, F.As t i = i := by
  refine sure_bind (R := fun A => A i = i) (sure_pure rfl) fun A hA => ?_
  refine sure_bind (sure_scanM (Q := fun o => o.2.1 i = i) (fun c inp => sure_pure rfl) _ _) fun r hr => sure_pure ⟨rfl, fun t => ?_⟩
  exact Fin.cases hA hr t

end passes

section noise
variable {d k : ℕ}

/-- Coordinatewise functions of two independent arrays with independent entries. -/
theorem pi_prod_map {ι X Y : Type} [Fintype ι] [MeasurableSpace X] [MeasurableSpace Y] (μ ν : ι → Measure X)
    [∀ t, IsProbabilityMeasure (μ t)] [∀ t, IsProbabilityMeasure (ν t)] {f : ι → X × X → Y} (hf : ∀ t, Measurable (f t)) :
    ((Measure.pi μ).prod (Measure.pi ν)).map (fun p t => f t (p.1 t, p.2 t)) =
      Measure.pi fun t => ((μ t).prod (ν t)).map (f t) := by
  have : ∀ t, IsProbabilityMeasure (((μ t).prod (ν t)).map (f t)) := fun t =>
    Measure.isProbabilityMeasure_map (hf t).aemeasurable
  rw [← Measure.pi_map_pi fun t => (hf t).aemeasurable,
    ← (measurePreserving_arrowProdEquivProdArrow X X ι μ ν).map_eq, Measure.map_map]
  · rfl
  · exact measurable_pi_lambda _ fun t => (hf t).comp (by fun_prop)
  · exact (MeasurableEquiv.arrowProdEquivProdArrow X X ι).measurable

theorem real_pair (m s v : ℝ) (h : 2 * s ^ 2 = v) :
    ((gaussianReal 0 1).prod (gaussianReal 0 1)).map (fun p => m + s * p.1 + s * p.2) = gaussianReal m v.toNNReal := by
  have e : (fun p : ℝ × ℝ => m + s * p.1 + s * p.2) = (fun q : ℝ × ℝ => q.1 + q.2) ∘ Prod.map (fun x => m + s * x) (s * ·) := by
    funext p; simp
  rw [e, ← Measure.map_map (by fun_prop) (by fun_prop), ← Measure.map_prod_map _ _ (by fun_prop) (by fun_prop)]
  have h1 : (gaussianReal 0 1).map (fun x => m + s * x) = gaussianReal m (NNReal.mk (s ^ 2) (sq_nonneg s)) := by
    rw [show (fun x : ℝ => m + s * x) = (m + ·) ∘ (s * ·) from rfl, ← Measure.map_map (by fun_prop) (by fun_prop),
      gaussianReal_map_const_mul, gaussianReal_map_const_add]
    simp
  rw [h1, gaussianReal_map_const_mul]
  have := gaussianReal_conv_gaussianReal (m₁ := m) (m₂ := s * 0) (v₁ := (NNReal.mk (s ^ 2) (sq_nonneg s)))
    (v₂ := (NNReal.mk (s ^ 2) (sq_nonneg s)) * 1)
  rw [Measure.conv] at this
  rw [this]
  refine congrArg₂ _ (by simp) ?_
  ext
  rw [Real.coe_toNNReal _ (by rw [← h]; positivity)]
  push_cast
  simp
  linarith

theorem vec_pair (m : Vec d) (s v : ℝ) (h : 2 * s ^ 2 = v) :
    ((gaussM d).prod (gaussM d)).map (fun p j => m j + s * p.1 j + s * p.2 j) =
      Measure.pi fun j => gaussianReal (m j) v.toNNReal := by
  rw [gaussM, pi_prod_map (fun _ : Fin d => gaussianReal 0 1) (fun _ => gaussianReal 0 1)
    (f := fun j q => m j + s * q.1 + s * q.2) fun j => by fun_prop]
  exact congrArg Measure.pi (funext fun j => real_pair (m j) s v h)

/-- The noises of one slot. -/
theorem slot_noise {N : ℕ} (i : Fin (N + 1)) :
    (Measure.pi fun _ : Fin k => Measure.pi fun _ : Fin (N + 1) => gaussM d).map (fun e t => e t i) =
      Measure.pi fun _ => gaussM d := by
  have h : (Measure.pi fun _ : Fin (N + 1) => gaussM d).map (fun e => e i) = gaussM d :=
    (measurePreserving_eval (fun _ : Fin (N + 1) => gaussM d) i).map_eq
  have : IsProbabilityMeasure ((Measure.pi fun _ : Fin (N + 1) => gaussM d).map (fun e => e i)) := by
    rw [h]; infer_instance
  rw [Measure.pi_map_pi (μ := fun _ : Fin k => Measure.pi fun _ : Fin (N + 1) => gaussM d)
    (f := fun _ e => e i) fun _ => (measurable_pi_apply i).aemeasurable, h]

theorem auxStd_two_sq (ells : Fin (k + 1) → ℝ) (t : Fin (k + 1)) (h : 0 ≤ ells t) : 2 * auxStd ells t ^ 2 = ells t := by
  rw [auxStd, Real.sq_sqrt (by positivity)]; ring

/-- The law of the particles of slot `i`. -/
theorem slot_law {N : ℕ} (i : Fin (N + 1)) (xstar g : Fin (k + 1) → Vec d) (bstar : Fin (k + 1) → Fin (N + 1))
    (ells deltas : Fin (k + 1) → ℝ) (hl : ∀ t, 0 ≤ ells t) {f : (Fin (k + 1) → Vec d) → ℝ≥0∞} (hf : Measurable f) :
    ∫⁻ e, ∫⁻ e', f (fun t => auxParticles (fun t j => xstar t j + 0.5 * deltas t * g t j + auxStd ells t * e t j)
        (auxStd ells) e' bstar xstar t i) ∂(Measure.pi fun _ : Fin (k + 1) => Measure.pi fun _ : Fin (N + 1) => gaussM d)
        ∂(Measure.pi fun _ : Fin (k + 1) => gaussM d) =
      ∫⁻ x, f x ∂slotLaw i xstar bstar g deltas ells := by
  let h : Fin (k + 1) → Vec d × Vec d → Vec d := fun t q =>
    if bstar t = i then xstar t else fun j => xstar t j + 0.5 * deltas t * g t j + auxStd ells t * q.1 j + auxStd ells t * q.2 j
  have hh : ∀ t, Measurable (h t) := fun t => by
    by_cases c : bstar t = i
    · simp only [h, c, if_true]; fun_prop
    · simp only [h, c, if_false]; fun_prop
  have hx : ∀ (e : Fin (k + 1) → Vec d) (e' : Fin (k + 1) → Fin (N + 1) → Vec d) t,
      auxParticles (fun t j => xstar t j + 0.5 * deltas t * g t j + auxStd ells t * e t j) (auxStd ells) e' bstar xstar t i =
        h t (e t, e' t i) := fun e e' t => by
    by_cases c : bstar t = i
    · simp only [auxParticles, h, c, if_true, atSet_same]
    · simp only [auxParticles, h, c, if_false]
      rw [atSet_ne _ _ (Ne.symm c)]
  have hH : Measurable fun p : (Fin (k + 1) → Vec d) × (Fin (k + 1) → Vec d) => fun t => h t (p.1 t, p.2 t) :=
    measurable_pi_lambda _ fun t => (hh t).comp (by fun_prop)
  have step : ∀ e : Fin (k + 1) → Vec d, ∫⁻ e', f (fun t => h t (e t, e' t i))
      ∂(Measure.pi fun _ : Fin (k + 1) => Measure.pi fun _ : Fin (N + 1) => gaussM d) =
      ∫⁻ e'', f (fun t => h t (e t, e'' t)) ∂(Measure.pi fun _ : Fin (k + 1) => gaussM d) := fun e => by
    refine (lintegral_map ((hf.comp hH).comp (by fun_prop : Measurable fun e'' : Fin (k + 1) → Vec d => (e, e'')))
      (by fun_prop : Measurable fun (e' : Fin (k + 1) → Fin (N + 1) → Vec d) t => e' t i)).symm.trans ?_
    rw [slot_noise i]
    rfl
  simp only [hx, step]
  refine (lintegral_prod (fun p : (Fin (k + 1) → Vec d) × (Fin (k + 1) → Vec d) => f fun t => h t (p.1 t, p.2 t))
    (hf.comp hH).aemeasurable).symm.trans ?_
  refine (lintegral_map hf hH).symm.trans ?_
  rw [pi_prod_map (fun _ => gaussM d) (fun _ => gaussM d) hh, slotLaw]
  refine congrArg (fun μ => ∫⁻ x, f x ∂μ) (congrArg Measure.pi (funext fun t => ?_))
  by_cases c : bstar t = i
  · simp only [h, c, if_true]
    rw [Measure.map_const]; simp
  · simp only [h, c, if_false]
    rw [vec_pair (fun j => xstar t j + 0.5 * deltas t * g t j) _ _ (auxStd_two_sq ells t (hl t)), langevin]
    refine congrArg Measure.pi (funext fun j => congrArg₂ _ ?_ rfl)
    ring

end noise

end Verif
