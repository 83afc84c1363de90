import Verif.Lemmas.Unique
import Verif.Lemmas.ReachKernels
import Verif.Lemmas.KalmanLaws
import Verif.Lemmas.Reversal

/-!
# The invariant law of `t_atp_csmc_f.kernel` determines the reversed dynamics
-/

open scoped ENNReal
open MeasureTheory Matrix

namespace Verif
open Verif.Spec Verif.Model

/-- Equal laws have proportional densities. -/
theorem lawOf_eq_ae {X : Type} [MeasurableSpace X] {lam : Measure X} [SigmaFinite lam] {l l' : X → ℝ} (hl : Measurable l) (hl' : Measurable l')
    (hZ : ∫⁻ x, ENNReal.ofReal (Real.exp (l x)) ∂lam ≠ 0 ∧ ∫⁻ x, ENNReal.ofReal (Real.exp (l x)) ∂lam ≠ ∞)
    (hZ' : ∫⁻ x, ENNReal.ofReal (Real.exp (l' x)) ∂lam ≠ 0 ∧ ∫⁻ x, ENNReal.ofReal (Real.exp (l' x)) ∂lam ≠ ∞)
    (h : lawOf lam l = lawOf lam l') : ∃ c : ℝ, ∀ᵐ x ∂lam, l x = l' x + c := by
  set Z := ∫⁻ x, ENNReal.ofReal (Real.exp (l x)) ∂lam with hZd
  set Z' := ∫⁻ x, ENNReal.ofReal (Real.exp (l' x)) ∂lam with hZd'
  have hm : Measurable fun x => ENNReal.ofReal (Real.exp (l x)) := by fun_prop
  have hm' : Measurable fun x => ENNReal.ofReal (Real.exp (l' x)) := by fun_prop
  have e : lam.withDensity (Z⁻¹ • fun x => ENNReal.ofReal (Real.exp (l x))) = lam.withDensity (Z'⁻¹ • fun x => ENNReal.ofReal (Real.exp (l' x))) := by
    rw [withDensity_smul _ hm, withDensity_smul _ hm']
    exact h
  have hfin : ∫⁻ x, (Z⁻¹ • fun x => ENNReal.ofReal (Real.exp (l x))) x ∂lam ≠ ∞ := by
    simp only [Pi.smul_apply, smul_eq_mul]
    rw [lintegral_const_mul _ hm, ENNReal.inv_mul_cancel hZ.1 hZ.2]
    exact ENNReal.one_ne_top
  have h1 := (withDensity_eq_iff (hm.const_smul _).aemeasurable (hm'.const_smul _).aemeasurable hfin).mp e
  refine ⟨Real.log (Z.toReal / Z'.toReal), h1.mono fun x hx => ?_⟩
  simp only [Pi.smul_apply, smul_eq_mul] at hx
  have hx' := congrArg ENNReal.toReal hx
  rw [ENNReal.toReal_mul, ENNReal.toReal_mul, ENNReal.toReal_inv, ENNReal.toReal_inv, ENNReal.toReal_ofReal (Real.exp_pos _).le,
    ENNReal.toReal_ofReal (Real.exp_pos _).le] at hx'
  have p : 0 < Z.toReal := ENNReal.toReal_pos hZ.1 hZ.2
  have p' : 0 < Z'.toReal := ENNReal.toReal_pos hZ'.1 hZ'.2
  have : Real.exp (l x) = Real.exp (l' x) * (Z.toReal / Z'.toReal) := by
    field_simp at hx' ⊢
    linarith
  rw [← Real.log_exp (l x), this, Real.log_mul (Real.exp_ne_zero _) (by positivity), Real.log_exp]

variable {n d N : ℕ}

/-- The process of reversed dynamics is a linear Gaussian model for the reversed trajectory. -/
theorem revPathLog_eq (r : RevDyn n d) (x : Fin (n + 1) → Vec d) :
    revPathLog r x = gaussPathLog r.mT r.PT (fun t => r.Fs t.rev) (fun t => r.Qs t.rev) (fun t => r.bs t.rev) (fun t => x t.rev) := by
  unfold revPathLog gaussPathLog pathLogDensity
  refine congrArg₂ (· + ·) (by simp only [Fin.rev_zero]) ?_
  refine Fintype.sum_equiv Fin.revPerm _ _ fun t => ?_
  simp [Fin.rev_castSucc, Fin.rev_succ]

theorem gaussPathLog_mass (m0 : Vec d) {P0 : Mat d d} {Fs Qs : Fin n → Mat d d} (hP : P0.PosDef) (hQ : ∀ t, (Qs t).PosDef)
    (bs : Fin n → Vec d) : ∫⁻ x, ENNReal.ofReal (Real.exp (gaussPathLog m0 P0 Fs Qs bs x)) ∂(Measure.pi fun _ => volume) = 1 := by
  have := priorPath_law m0 (Fs := Fs) hP hQ bs (fun _ => 1) measurable_const
  simpa using this.symm

theorem continuous_normalLogpdf₂ (P : Mat d d) {β : Type} [TopologicalSpace β] {m x : β → Vec d} (hm : Continuous m) (hx : Continuous x) :
    Continuous fun b => normalLogpdf (m b) P (x b) := by
  unfold normalLogpdf
  fun_prop

theorem continuous_gaussPathLog (m0 : Vec d) (P0 : Mat d d) (Fs Qs : Fin n → Mat d d) (bs : Fin n → Vec d) :
    Continuous (gaussPathLog m0 P0 Fs Qs bs) := by
  unfold gaussPathLog pathLogDensity
  refine (continuous_normalLogpdf₂ _ (by fun_prop) (by fun_prop)).add (continuous_finsetSum _ fun t _ => continuous_normalLogpdf₂ _ (by fun_prop) (by fun_prop))

theorem continuous_revPathLog (r : RevDyn n d) : Continuous (revPathLog r) := by
  rw [funext (revPathLog_eq r)]
  exact (continuous_gaussPathLog _ _ _ _ _).comp (by fun_prop)

theorem revPathLog_mass {r : RevDyn n d} (hT : r.PT.PosDef) (hQ : ∀ t, (r.Qs t).PosDef) :
    ∫⁻ x, ENNReal.ofReal (Real.exp (revPathLog r x)) ∂(Measure.pi fun _ => volume) = 1 := by
  have hm : Measurable fun x : Fin (n + 1) → Vec d => ENNReal.ofReal (Real.exp (gaussPathLog r.mT r.PT (fun t => r.Fs t.rev) (fun t => r.Qs t.rev)
      (fun t => r.bs t.rev) x)) := by
    have := (continuous_gaussPathLog r.mT r.PT (fun t => r.Fs t.rev) (fun t => r.Qs t.rev) (fun t => r.bs t.rev)).measurable
    fun_prop
  have h := measurePreserving_piCongrLeft (fun _ : Fin (n + 1) => (volume : Measure (Vec d))) Fin.revPerm
  rw [← gaussPathLog_mass r.mT (Fs := fun t => r.Fs t.rev) hT (fun t => hQ t.rev) (fun t => r.bs t.rev), ← h.lintegral_comp hm]
  refine lintegral_congr fun x => ?_
  rw [revPathLog_eq]
  refine congrArg (fun z => ENNReal.ofReal (Real.exp (gaussPathLog _ _ _ _ _ z))) (funext fun t => ?_)
  have := Equiv.piCongrLeft_apply_apply (fun _ : Fin (n + 1) => Vec d) Fin.revPerm x t.rev
  exact (by simpa using this.symm : x t.rev = Equiv.piCongrLeft (fun _ : Fin (n + 1) => Vec d) Fin.revPerm x t)

/-- A probability density times a bounded positive factor has a finite positive mass. -/
theorem mass_of_bounded {X : Type} [MeasurableSpace X] {lam : Measure X} {l u : X → ℝ} (hl : Measurable l) (hu : Measurable u)
    (h1 : ∫⁻ x, ENNReal.ofReal (Real.exp (l x)) ∂lam = 1) {C : ℝ} (hC : ∀ x, u x ≤ C) :
    ∫⁻ x, ENNReal.ofReal (Real.exp (l x + u x)) ∂lam ≠ 0 ∧ ∫⁻ x, ENNReal.ofReal (Real.exp (l x + u x)) ∂lam ≠ ∞ := by
  constructor
  · intro h
    rw [lintegral_eq_zero_iff (by fun_prop)] at h
    have : lam = 0 := by
      rw [← Measure.measure_univ_eq_zero]
      refine measure_mono_null (fun x _ => ?_) h
      exact (ENNReal.ofReal_pos.mpr (Real.exp_pos _)).ne'
    rw [this] at h1
    simp at h1
  · refine ne_top_of_le_ne_top (b := ENNReal.ofReal (Real.exp C)) ENNReal.ofReal_ne_top ?_
    calc ∫⁻ x, ENNReal.ofReal (Real.exp (l x + u x)) ∂lam ≤ ∫⁻ x, ENNReal.ofReal (Real.exp C) * ENNReal.ofReal (Real.exp (l x)) ∂lam :=
          lintegral_mono fun x => by
            rw [← ENNReal.ofReal_mul (Real.exp_pos _).le, ← Real.exp_add]
            exact ENNReal.ofReal_le_ofReal (Real.exp_le_exp.mpr (by linarith [hC x]))
      _ = _ := by rw [lintegral_const_mul _ (by fun_prop), h1, mul_one]

theorem linPath_split {RP : Type} (M : LinModel RP n d) (x : Fin (n + 1) → Vec d) : linPath M x =
    gaussPathLog M.mu0 M.P0 M.Fs M.Qs M.bs x + pathLogDensity M.r0 (fun t y x => M.rt y x (M.rt_params t)) x := by
  simp only [linPath, gaussPathLog, pathLogDensity, Finset.sum_add_distrib]
  ring

theorem measurable_linPath {RP : Type} {M : LinModel RP n d} (hM : LinMeas M) : Measurable (linPath M) := by
  rw [funext (linPath_split M)]
  exact (continuous_gaussPathLog M.mu0 M.P0 M.Fs M.Qs M.bs).measurable.add (measurable_pathLogDensity hM.r0 hM.rt)

theorem measurable_revPath {RP : Type} {M : LinModel RP n d} (hM : LinMeas M) (r : RevDyn n d) : Measurable (revPath r M) :=
  (continuous_revPathLog r).measurable.add (measurable_pathLogDensity hM.r0 hM.rt)

theorem linPath_mass {RP : Type} {M : LinModel RP n d} (hM : LinMeas M) (hP : M.P0.PosDef) (hQ : ∀ t, (M.Qs t).PosDef) {C : ℝ}
    (hC : ∀ x, pathLogDensity M.r0 (fun t y x => M.rt y x (M.rt_params t)) x ≤ C) :
    ∫⁻ x, ENNReal.ofReal (Real.exp (linPath M x)) ∂(Measure.pi fun _ => volume) ≠ 0 ∧
      ∫⁻ x, ENNReal.ofReal (Real.exp (linPath M x)) ∂(Measure.pi fun _ => volume) ≠ ∞ := by
  simp only [linPath_split]
  exact mass_of_bounded (continuous_gaussPathLog M.mu0 M.P0 M.Fs M.Qs M.bs).measurable (measurable_pathLogDensity hM.r0 hM.rt)
    (gaussPathLog_mass M.mu0 hP hQ M.bs) hC

theorem revPath_mass {RP : Type} {M : LinModel RP n d} (hM : LinMeas M) {r : RevDyn n d} (hT : r.PT.PosDef) (hQ : ∀ t, (r.Qs t).PosDef) {C : ℝ}
    (hC : ∀ x, pathLogDensity M.r0 (fun t y x => M.rt y x (M.rt_params t)) x ≤ C) :
    ∫⁻ x, ENNReal.ofReal (Real.exp (revPath r M x)) ∂(Measure.pi fun _ => volume) ≠ 0 ∧
      ∫⁻ x, ENNReal.ofReal (Real.exp (revPath r M x)) ∂(Measure.pi fun _ => volume) ≠ ∞ :=
  mass_of_bounded (continuous_revPathLog r).measurable (measurable_pathLogDensity hM.r0 hM.rt) (revPathLog_mass hT hQ) hC

/-- Two Gaussian processes whose reweighted laws agree are equal. -/
theorem reversal_of_law {RP : Type} {M : LinModel RP n d} {r : RevDyn n d} (hM : LinMeas M) (hP : M.P0.PosDef) (hQ0 : ∀ t, (M.Qs t).PosDef)
    (hT : r.PT.PosDef) (hQ : ∀ t, (r.Qs t).PosDef)
    (hZ : ∫⁻ x, ENNReal.ofReal (Real.exp (linPath M x)) ∂(Measure.pi fun _ => volume) ≠ 0 ∧
      ∫⁻ x, ENNReal.ofReal (Real.exp (linPath M x)) ∂(Measure.pi fun _ => volume) ≠ ∞)
    (hZ' : ∫⁻ x, ENNReal.ofReal (Real.exp (revPath r M x)) ∂(Measure.pi fun _ => volume) ≠ 0 ∧
      ∫⁻ x, ENNReal.ofReal (Real.exp (revPath r M x)) ∂(Measure.pi fun _ => volume) ≠ ∞)
    (h : lawOf (Measure.pi fun _ => volume) (linPath M) = lawOf (Measure.pi fun _ => volume) (revPath r M)) :
    IsReversal M.mu0 M.P0 M.Fs M.Qs M.bs r := by
  have hlin := linPath_split M
  have hcg := continuous_gaussPathLog M.mu0 M.P0 M.Fs M.Qs M.bs
  have hcr := continuous_revPathLog r
  obtain ⟨c, hc⟩ := lawOf_eq_ae (measurable_linPath hM) (measurable_revPath hM r) hZ hZ' h
  have hae : gaussPathLog M.mu0 M.P0 M.Fs M.Qs M.bs =ᵐ[Measure.pi fun _ => volume] fun x => revPathLog r x + c := hc.mono fun x hx => by
    rw [hlin, revPath] at hx
    show _ = _
    linarith
  have hall : gaussPathLog M.mu0 M.P0 M.Fs M.Qs M.bs = fun x => revPathLog r x + c := (hcg.ae_eq_iff_eq _ (hcr.add continuous_const)).mp hae
  have h1 := gaussPathLog_mass M.mu0 (Fs := M.Fs) hP hQ0 M.bs
  have h2 := revPathLog_mass hT hQ
  rw [hall] at h1
  have e : ∀ x, ENNReal.ofReal (Real.exp (revPathLog r x + c)) = ENNReal.ofReal (Real.exp c) * ENNReal.ofReal (Real.exp (revPathLog r x)) := fun x => by
    rw [Real.exp_add, mul_comm, ENNReal.ofReal_mul (Real.exp_pos _).le]
  have hm2 : Measurable fun x => ENNReal.ofReal (Real.exp (revPathLog r x)) := by
    have := hcr.measurable
    fun_prop
  simp only [e] at h1
  rw [lintegral_const_mul _ hm2, h2, mul_one, ENNReal.ofReal_eq_one] at h1
  have hc0 : c = 0 := Real.exp_eq_one_iff c |>.mp h1
  exact ⟨hT, hQ, fun x => by simp only [hall, hc0, add_zero]⟩

end Verif
