import Verif.Lemmas.Minorize
import Verif.Lemmas.Proposal

/-!
# A lower bound on `csmc.kernel`
-/

open scoped ENNReal
open MeasureTheory ProbabilityTheory Finset

namespace Verif
open Verif.Spec Verif.Model

variable {X P G : Type} [MeasurableSpace X] {N n : ℕ}

theorem Spec.SamplesFrom.marginal {k : ℕ} {lam : Measure X} {q : Fin k → X → ℝ} {Q : Ex (Fin k → X)} (h : SamplesFrom lam q Q)
    (i : Fin k) {f : X → ℝ≥0∞} (hf : Measurable f) :
    Q (fun Xs => f (Xs i)) = ∫⁻ x, ENNReal.ofReal (Real.exp (q i x)) * f x ∂lam := by
  have : ∀ i, IsProbabilityMeasure (lam.withDensity fun x => ENNReal.ofReal (Real.exp (q i x))) := fun i =>
    ⟨by rw [withDensity_apply _ MeasurableSet.univ, Measure.restrict_univ, h.norm i]⟩
  rw [h.law _ (by fun_prop)]
  have h1 := (measurePreserving_eval (fun i => lam.withDensity fun x => ENNReal.ofReal (Real.exp (q i x))) i).lintegral_comp hf
  refine h1.trans ?_
  exact lintegral_withDensity_exp (h.meas i) hf

theorem csmcDSys_bounded {lam : Measure X} [SFinite lam] (key : Key) {M : FK Ex X P G N} {Mparams : Fin n → P}
    {Gparams : Fin n → G} (resampling : Resampling Ex N) (hM : ProperFK lam M) {B : Fin (n + 1) → ℝ} (hB : BoundedFK lam M Mparams Gparams B)
    (c0 : ℝ) (c : Fin n → ℝ) :
    ∃ c' : Fin (n + 1) → ℝ, (csmcDSys lam key M Mparams Gparams resampling c0 c).Bounded c' fun t => B t - c' t := by
  obtain ⟨m, k0, h0, hs0, hb0⟩ := hB.init
  choose mt k h hs hb using hB.step
  refine ⟨Fin.cons k0 k, fun b x i hi f hf => ?_, fun t Y b x i hi f hf => ?_, fun Xs i => ?_, fun t Y Xs i => ?_⟩
  · have e : ∀ Xs : PA X N, ENNReal.ofReal (Real.exp (M.Gamma0 (atSet Xs b x i) - M.M0_logpdf (atSet Xs b x) i)) * f (atSet Xs b x i) =
        ENNReal.ofReal (Real.exp (M.Gamma0 (Xs i) - (m (Xs i) + k0))) * f (Xs i) := fun Xs => by
      rw [h0, atSet_ne _ _ hi]
    show M.M0_rvs (splitKey key 3 0) (fun Xs => ENNReal.ofReal (Real.exp (M.Gamma0 (atSet Xs b x i) - M.M0_logpdf (atSet Xs b x) i)) *
      f (atSet Xs b x i)) = _
    have hm : Measurable m := (hs0 key).meas i
    have hg := hM.Gamma0_meas
    refine (Ex.congr_fun' _ e).trans (((hs0 _).marginal i (f := fun y => ENNReal.ofReal (Real.exp (M.Gamma0 y - (m y + k0))) * f y)
      (by fun_prop)).trans ?_)
    show _ = _ * ∫⁻ y, ENNReal.ofReal (Real.exp (M.Gamma0 y)) * f y ∂lam
    rw [← lintegral_const_mul _ (by fun_prop)]
    refine lintegral_congr fun y => ?_
    simp only [Fin.cons_zero]
    rw [← mul_assoc, ← mul_assoc, ← ofReal_exp_add, ← ofReal_exp_add]
    congr 3
    ring
  · have e : ∀ Xs : PA X N, ENNReal.ofReal (Real.exp (M.Gammat (Y i) (atSet Xs b x i) (Gparams t) -
          M.Mt_logpdf Y (atSet Xs b x) (Mparams t) i)) * f (atSet Xs b x i) =
        ENNReal.ofReal (Real.exp (M.Gammat (Y i) (Xs i) (Gparams t) - (mt t (Y i) (Xs i) + k t))) * f (Xs i) := fun Xs => by
      rw [h, atSet_ne _ _ hi]
    show M.Mt_rvs _ Y (Mparams t) (fun Xs => ENNReal.ofReal (Real.exp (M.Gammat (Y i) (atSet Xs b x i) (Gparams t) -
          M.Mt_logpdf Y (atSet Xs b x) (Mparams t) i)) * f (atSet Xs b x i)) = _
    have hm : Measurable (mt t (Y i)) := (hs t key Y).meas i
    have hg : Measurable fun z => M.Gammat (Y i) z (Gparams t) := (hM.Gammat_meas (Gparams t)).comp (by fun_prop : Measurable fun z : X => (Y i, z))
    refine (Ex.congr_fun' _ e).trans (((hs t _ Y).marginal i
      (f := fun y => ENNReal.ofReal (Real.exp (M.Gammat (Y i) y (Gparams t) - (mt t (Y i) y + k t))) * f y) (by fun_prop)).trans ?_)
    show _ = _ * ∫⁻ y, ENNReal.ofReal (Real.exp (M.Gammat (Y i) y (Gparams t))) * f y ∂lam
    rw [← lintegral_const_mul _ (by fun_prop)]
    refine lintegral_congr fun y => ?_
    simp only [Fin.cons_succ]
    rw [← mul_assoc, ← mul_assoc, ← ofReal_exp_add, ← ofReal_exp_add]
    congr 3
    ring
  · show M.Gamma0 (Xs i) - M.M0_logpdf Xs i ≤ B 0 - Fin.cons (α := fun _ => ℝ) k0 k 0
    rw [h0, Fin.cons_zero]
    linarith [hb0 (Xs i)]
  · show M.Gammat (Y i) (Xs i) (Gparams t) - M.Mt_logpdf Y Xs (Mparams t) i ≤ B t.succ - Fin.cons (α := fun _ => ℝ) k0 k t.succ
    rw [h, Fin.cons_succ]
    linarith [hb t (Y i) (Xs i)]

/-- **Minorisation** of `csmc.kernel`: from every state the next trajectory has a law at least a constant multiple of the target. -/
theorem csmc_ge {lam : Measure X} [SigmaFinite lam] (key : Key) {M : FK Ex X P G N} {Mparams : Fin n → P}
    {Gparams : Fin n → G} {resampling : Resampling Ex N} {mv : AncestorMove Ex N} {backward : Bool} (hM : ProperFK lam M)
    {B : Fin (n + 1) → ℝ} (hB : BoundedFK lam M Mparams Gparams B) {q a : ℝ≥0∞}
    (hR : ∀ key, CondResampling (fun w i j => resampling key w i j true))
    (hq : ∀ key, Spreads q backward (fun w i j => resampling key w i j true))
    (hm : ∀ key, MoveKer (moveIndex mv key)) (ha : ∀ key, MovesAway a (moveIndex mv key))
    (x : Fin (n + 1) → X) (b : Fin (n + 1) → Fin (N + 1)) {f : (Fin (n + 1) → X) → ℝ≥0∞} (hf : Measurable f) :
    a * N * q ^ n * (∏ t, ENNReal.ofReal (Real.exp (-B t) / (N + 1))) *
      ∫⁻ y, ENNReal.ofReal (Real.exp (pathLogDensity M.Gamma0 (fun t y x => M.Gammat y x (Gparams t)) y)) * f y ∂(Measure.pi fun _ => lam) ≤
      ((csmc_kernel key x b M Mparams Gparams resampling mv backward true : Ex _) >>= fun r => pure (r.xs, r.Bs)) fun r => f r.1 := by
  obtain ⟨c0, c, hS⟩ := csmcDSys_OK (lam := lam) key Mparams Gparams hM hR
  obtain ⟨c', hS'⟩ := csmcDSys_bounded key resampling hM hB c0 c
  have e := csmc_kernel_eq key M Mparams Gparams resampling mv backward
    (fun f => ∫⁻ x, ENNReal.ofReal (Real.exp (M.Gamma0 x)) * f x ∂lam)
    (fun t y f => ∫⁻ x, ENNReal.ofReal (Real.exp (M.Gammat y x (Gparams t))) * f x ∂lam)
    (tilt c0 (M.M0_rvs (splitKey key 3 0)))
    (fun t Y => tilt (c t) (M.Mt_rvs (splitKey (splitKey (splitKey key 3 1) n t) 2 0) Y (Mparams t))) x b
  have hd : (csmcDSys lam key M Mparams Gparams resampling c0 c).Density lam (fun t y x => M.Gammat y x (Gparams t)) :=
    ⟨fun t => hM.Gammat_meas _, fun t y f _ => rfl⟩
  have h := hS.kernel_ge hS' hd (q := q) (a := a) backward (fun t => hq _) (hm _)
    (ha (if backward then lastA (splitKey (splitKey key 3 2) (n + 1)) else splitKey key 3 2)) x b hf
  rw [hS.path_eq hM.Gamma0_meas (fun f _ => rfl) hd f hf] at h
  rw [e]
  refine le_trans (le_of_eq ?_) h
  congr 2
  refine prod_congr rfl fun t _ => ?_
  have hN : (0 : ℝ) < N + 1 := by positivity
  rw [← ENNReal.ofReal_mul (Real.exp_pos _).le, mul_div_assoc', ← Real.exp_add]
  congr 3
  ring

end Verif
