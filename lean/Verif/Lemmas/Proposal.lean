import Verif.Lemmas.Gauss
import Verif.Lemmas.CsmcKernel
import Verif.Spec.Csmc

/-!
# Independent proposals: importance weighting of a conditional proposal
-/

open scoped ENNReal
open MeasureTheory ProbabilityTheory Matrix

namespace Verif
open Verif.Spec Verif.Model

section
variable {X : Type} [MeasurableSpace X] {N : ℕ} {lam : Measure X} {q : Fin (N + 1) → X → ℝ}
  {P : Ex (Fin (N + 1) → X)}

theorem Spec.SamplesFrom.prob (h : SamplesFrom lam q P) (i : Fin (N + 1)) :
    IsProbabilityMeasure (lam.withDensity fun x => ENNReal.ofReal (Real.exp (q i x))) :=
  ⟨by rw [withDensity_apply _ MeasurableSet.univ, Measure.restrict_univ]; exact h.norm i⟩

theorem Spec.SamplesFrom.isKer (h : SamplesFrom lam q P) {β : Type} [MeasurableSpace β] :
    IsKer (fun _ : β => P) := by
  have := h.prob
  exact IsKer.const _ h.law

theorem Spec.SamplesFrom.mass (h : SamplesFrom lam q P) : P (fun _ => 1) = 1 := by
  have := h.prob
  rw [h.law _ measurable_const, lintegral_const, measure_univ, mul_one]

/-- Drawing the reference from the target and the other particles from the proposal, or all particles from
the proposal and weighting by the ratio of densities. -/
theorem Spec.SamplesFrom.conditional (h : SamplesFrom lam q P) {g : X → ℝ} (hg : Measurable g)
    (b : Fin (N + 1)) (f : X → (Fin (N + 1) → X) → ℝ≥0∞) (hf : Measurable (Function.uncurry f)) :
    ∫⁻ x, ENNReal.ofReal (Real.exp (g x)) * P (fun Xs => f x (atSet Xs b x)) ∂lam =
      P (fun Xs => ENNReal.ofReal (Real.exp (g (Xs b) - q b (Xs b))) * f (Xs b) Xs) := by
  have := h.prob
  have hm1 : ∀ x, Measurable fun Xs : Fin (N + 1) → X => f x (atSet Xs b x) := fun x =>
    hf.comp (by fun_prop : Measurable fun Xs : Fin (N + 1) → X => (x, atSet Xs b x))
  have hgq : Measurable fun x => g x - q b x := hg.sub (h.meas b)
  have hm2 : Measurable fun Xs : Fin (N + 1) → X =>
      ENNReal.ofReal (Real.exp (g (Xs b) - q b (Xs b))) * f (Xs b) Xs :=
    (measurable_expR (hgq.comp (measurable_pi_apply b))).mul
      (hf.comp (by fun_prop : Measurable fun Xs : Fin (N + 1) → X => (Xs b, Xs)))
  rw [h.law _ hm2, lintegral_pi_update _ b _ hm2]
  have hs : ∀ (x : Fin (N + 1) → X) xi, atSet x b xi b = xi := fun x xi => by simp
  simp only [h.law _ (hm1 _), hs]
  have hm3 : Measurable fun x => ∫⁻ Xs : Fin (N + 1) → X, ENNReal.ofReal (Real.exp (g x - q b x)) *
      f x (atSet Xs b x) ∂(Measure.pi fun i => lam.withDensity fun x => ENNReal.ofReal (Real.exp (q i x))) := by
    have : Measurable fun p : X × (Fin (N + 1) → X) => ENNReal.ofReal (Real.exp (g p.1 - q b p.1)) *
        f p.1 (atSet p.2 b p.1) :=
      (measurable_expR (hgq.comp measurable_fst)).mul (hf.comp (by fun_prop :
        Measurable fun p : X × (Fin (N + 1) → X) => (p.1, atSet p.2 b p.1)))
    exact this.lintegral_prod_right'
  rw [lintegral_withDensity_exp (h.meas b) hm3]
  refine lintegral_congr fun x => ?_
  rw [lintegral_const_mul _ (hm1 x), ← mul_assoc, ← ofReal_exp_add]
  congr 3
  ring

end

section csmc
variable {X P G : Type} [MeasurableSpace X] {N n : ℕ}

/-- A program weighted by the constant `exp c`. -/
noncomputable def tilt {α : Type} (c : ℝ) (P : Ex α) : Ex α :=
  fun f => P fun a => ENNReal.ofReal (Real.exp c) * f a

theorem isKer_tilt {α β : Type} [MeasurableSpace α] [MeasurableSpace β] {P : β → Ex α} (hP : IsKer P) (c : ℝ) :
    IsKer (fun b => tilt c (P b)) := by
  obtain ⟨κ, hκ, h⟩ := hP
  have hm : Measurable (Function.uncurry fun (_ : β) (_ : α) => ENNReal.ofReal (Real.exp c)) :=
    measurable_const
  refine ⟨κ.withDensity fun _ _ => ENNReal.ofReal (Real.exp c),
    Kernel.IsSFiniteKernel.withDensity _ fun b i => ENNReal.ofReal_ne_top, fun b f hf => ?_⟩
  rw [Kernel.lintegral_withDensity _ hm b hf]
  exact h b _ (hf.const_mul _)

/-- The abstract system of `csmc.kernel` for proposals with densities known up to the constants `c0`, `c`. -/
noncomputable def csmcDSys (lam : Measure X) (key : Key) (M : FK Ex X P G N) (Mparams : Fin n → P)
    (Gparams : Fin n → G) (resampling : Resampling Ex N) (c0 : ℝ) (c : Fin n → ℝ) : Sys X N n :=
  csmcSys key M Mparams Gparams resampling
    (fun f => ∫⁻ x, ENNReal.ofReal (Real.exp (M.Gamma0 x)) * f x ∂lam)
    (fun t y f => ∫⁻ x, ENNReal.ofReal (Real.exp (M.Gammat y x (Gparams t))) * f x ∂lam)
    (tilt c0 (M.M0_rvs (splitKey key 3 0)))
    (fun t Y => tilt (c t) (M.Mt_rvs (splitKey (splitKey (splitKey key 3 1) n t) 2 0) Y (Mparams t)))

theorem isKer_density {β : Type} [MeasurableSpace β] {lam : Measure X} [SFinite lam] {g : β → X → ℝ}
    (hg : Measurable fun p : β × X => g p.1 p.2) :
    IsKer (fun b => (fun f => ∫⁻ x, ENNReal.ofReal (Real.exp (g b x)) * f x ∂lam : Ex X)) := by
  have hm : Measurable (Function.uncurry fun (b : β) (x : X) => ENNReal.ofReal (Real.exp (g b x))) :=
    measurable_expR hg
  refine ⟨(Kernel.const β lam).withDensity fun b x => ENNReal.ofReal (Real.exp (g b x)),
    Kernel.IsSFiniteKernel.withDensity _ fun b i => ENNReal.ofReal_ne_top, fun b f hf => ?_⟩
  rw [Kernel.lintegral_withDensity _ hm b hf, Kernel.const_apply]

theorem csmcDSys_OK {lam : Measure X} [SFinite lam] (key : Key) {M : FK Ex X P G N} (Mparams : Fin n → P)
    (Gparams : Fin n → G) {resampling : Resampling Ex N} (hM : ProperFK lam M)
    (hR : ∀ key, CondResampling (fun w i j => resampling key w i j true)) :
    ∃ c0 c, (csmcDSys lam key M Mparams Gparams resampling c0 c).OK := by
  obtain ⟨m0, c0, hm0, h0⟩ := hM.init
  choose m c hm hl hk using hM.step
  refine ⟨c0, fun t => c (Mparams t), ?_⟩
  have e0 : ∀ b x, (csmcDSys lam key M Mparams Gparams resampling c0 fun t => c (Mparams t)).Q0 b x =
      fun f => M.M0_rvs (splitKey key 3 0) fun Xs => f (atSet Xs b x) := fun b x => rfl
  have et : ∀ t Y b x, (csmcDSys lam key M Mparams Gparams resampling c0 fun t => c (Mparams t)).Q t Y b x =
      fun f => M.Mt_rvs (splitKey (splitKey (splitKey key 3 1) n t) 2 0) Y (Mparams t)
        fun Xs => f (atSet Xs b x) := fun t Y b x => rfl
  refine
    { G0_ker := isKer_density (g := fun _ : Unit => M.Gamma0) (hM.Gamma0_meas.comp measurable_snd)
      G_ker := fun t => isKer_density (g := fun y x => M.Gammat y x (Gparams t)) (hM.Gammat_meas _)
      Q0_ker := IsKer.bind ((h0 _).isKer) (IsKer.pure (g := fun p : (Fin (N + 1) × X) × PA X N =>
        atSet p.2 p.1.1 p.1.2) (by fun_prop))
      Q_ker := fun t => ?_
      Q0_mass := fun b x => ?_
      Q_mass := fun t Y b x => ?_
      LW0_meas := ?_
      LW_meas := fun t => ?_
      R_ok := fun t => hR _
      Z0_ker := isKer_tilt (h0 _).isKer c0
      Z_ker := fun t => isKer_tilt (hk _ _).1 _
      id0 := fun b f hf => ?_
      idt := fun t Y b f hf => ?_ }
  · exact IsKer.bind ((hk _ _).1.comp (g := fun p : PA X N × Fin (N + 1) × X => p.1) (by fun_prop))
      (IsKer.pure (g := fun p : (PA X N × Fin (N + 1) × X) × PA X N =>
        atSet p.2 p.1.2.1 p.1.2.2) (by fun_prop))
  · rw [e0]; exact (h0 _).mass
  · rw [et]; exact ((hk _ _).2 Y).mass
  · have : Measurable fun Xs : PA X N => fun i => M.Gamma0 (Xs i) - (m0 (Xs i) + c0) :=
      measurable_pi_lambda _ fun i => (hM.Gamma0_meas.comp (measurable_pi_apply i)).sub
        ((((h0 key).meas i).comp (measurable_pi_apply i)).add measurable_const)
    have e : (csmcDSys lam key M Mparams Gparams resampling c0 fun t => c (Mparams t)).LW0 =
        fun Xs : PA X N => fun i => M.Gamma0 (Xs i) - (m0 (Xs i) + c0) := by
      funext Xs i
      show _ - _ = _
      rw [hm0]
    rw [e]; exact this
  · have : Measurable fun p : PA X N × PA X N => fun i => M.Gammat (p.1 i) (p.2 i) (Gparams t) -
        (m (Mparams t) (p.1 i) (p.2 i) + c (Mparams t)) :=
      measurable_pi_lambda _ fun i => ((hM.Gammat_meas _).sub ((hm _).add measurable_const)).comp
        (by fun_prop : Measurable fun p : PA X N × PA X N => (p.1 i, p.2 i))
    have e : (fun p : PA X N × PA X N =>
          (csmcDSys lam key M Mparams Gparams resampling c0 fun t => c (Mparams t)).LW t p.1 p.2) =
        fun p : PA X N × PA X N => fun i => M.Gammat (p.1 i) (p.2 i) (Gparams t) -
          (m (Mparams t) (p.1 i) (p.2 i) + c (Mparams t)) := by
      funext p i
      show _ - _ = _
      rw [hl]
    rw [e]; exact this
  · simp only [e0]
    refine ((h0 _).conditional hM.Gamma0_meas b f hf).trans ?_
    refine Ex.congr_fun' _ fun Xs => ?_
    show _ = ENNReal.ofReal (Real.exp c0) *
      (ENNReal.ofReal (Real.exp (M.Gamma0 (Xs b) - M.M0_logpdf Xs b)) * _)
    rw [hm0, ← mul_assoc, ← ofReal_exp_add]
    congr 3
    ring
  · simp only [et]
    refine (((hk _ _).2 Y).conditional (g := fun x => M.Gammat (Y b) x (Gparams t))
      ((hM.Gammat_meas _).comp (by fun_prop : Measurable fun x : X => (Y b, x))) b f hf).trans ?_
    refine Ex.congr_fun' _ fun Xs => ?_
    show _ = ENNReal.ofReal (Real.exp (c (Mparams t))) *
      (ENNReal.ofReal (Real.exp (M.Gammat (Y b) (Xs b) (Gparams t) - M.Mt_logpdf Y Xs (Mparams t) b)) * _)
    rw [hl, ← mul_assoc, ← ofReal_exp_add]
    congr 3
    ring

end csmc

end Verif
