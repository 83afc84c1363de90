import Verif.Lemmas.Simulate
import Verif.Spec.Bayes
import Verif.Lemmas.Experiments

/-!
# The data generators of the experiments
-/

open scoped ENNReal
open MeasureTheory Finset

namespace Verif
open Verif.Model Verif.Spec Verif.Props Matrix

variable {n d T : ℕ}

section generic
variable {X Y : Type} [MeasurableSpace X] [MeasurableSpace Y]

omit [MeasurableSpace X] [MeasurableSpace Y] in
theorem simW_exp (Γ0 : X → ℝ) (Γ : X → X → ℝ) (h : X → Y → ℝ) (xs : Fin (n + 1) → X) (ys : Fin (n + 1) → Y) :
    ENNReal.ofReal (Real.exp (Γ0 (xs 0))) * simW (fun x x' => ENNReal.ofReal (Real.exp (Γ x x'))) (fun x y => ENNReal.ofReal (Real.exp (h x y)))
      xs ys = ENNReal.ofReal (Real.exp (pathLogDensity Γ0 (fun _ => Γ) xs + ∑ t, h (xs t) (ys t))) := by
  rw [simW, pathLogDensity, Real.exp_add, Real.exp_add, Real.exp_sum, Real.exp_sum,
    ENNReal.ofReal_mul (mul_nonneg (Real.exp_pos _).le (prod_nonneg fun _ _ => (Real.exp_pos _).le)),
    ENNReal.ofReal_mul (Real.exp_pos _).le, ENNReal.ofReal_prod_of_nonneg fun _ _ => (Real.exp_pos _).le,
    ENNReal.ofReal_prod_of_nonneg fun _ _ => (Real.exp_pos _).le, mul_assoc]

/-- A simulator of the initial state and of the rest. -/
theorem simulate_path {lam : Measure X} [SigmaFinite lam] {mu : Measure Y} [SigmaFinite mu] {Γ0 : X → ℝ} {Γ : X → X → ℝ} {h : X → Y → ℝ}
    (h0 : Measurable Γ0) (hΓ : Measurable (Function.uncurry Γ)) (hh : Measurable (Function.uncurry h))
    (hΓ1 : ∀ x, ∫⁻ x', ENNReal.ofReal (Real.exp (Γ x x')) ∂lam = 1) {I : Type} {body : X → I → Ex (X × (X × Y))}
    (hbody : ∀ x i f, Measurable f → body x i f = ∫⁻ y, ENNReal.ofReal (Real.exp (h x y)) *
      ∫⁻ x', ENNReal.ofReal (Real.exp (Γ x x')) * f (x', (x, y)) ∂lam ∂mu)
    {P : Ex X} (hP : ∀ f, Measurable f → P f = ∫⁻ x, ENNReal.ofReal (Real.exp (Γ0 x)) * f x ∂lam) (keys : Fin (n + 1) → I)
    {f : (Fin (n + 1) → X) → (Fin (n + 1) → Y) → ℝ≥0∞} (hf : Measurable (Function.uncurry f)) :
    (P fun x0 => scanM body x0 keys (fun r => f (fun t => (r.2 t).1) fun t => (r.2 t).2)) =
      ∫⁻ xs, ∫⁻ ys, ENNReal.ofReal (Real.exp (pathLogDensity Γ0 (fun _ => Γ) xs + ∑ t, h (xs t) (ys t))) * f xs ys
        ∂(Measure.pi fun _ => mu) ∂(Measure.pi fun _ => lam) := by
  have hk : Measurable (Function.uncurry fun x x' => ENNReal.ofReal (Real.exp (Γ x x'))) :=
    ENNReal.measurable_ofReal.comp (Real.measurable_exp.comp hΓ)
  have hg : Measurable (Function.uncurry fun x y => ENNReal.ofReal (Real.exp (h x y))) :=
    ENNReal.measurable_ofReal.comp (Real.measurable_exp.comp hh)
  have hW : Measurable fun p : (X × (Fin n → X)) × (Fin (n + 1) → Y) =>
      simW (fun x x' => ENNReal.ofReal (Real.exp (Γ x x'))) (fun x y => ENNReal.ofReal (Real.exp (h x y))) (insert0 p.1.1 p.1.2) p.2 *
        f (insert0 p.1.1 p.1.2) p.2 :=
    (measurable_simW hk hg (by fun_prop) (by fun_prop)).mul
      (hf.comp (f := fun p : (X × (Fin n → X)) × (Fin (n + 1) → Y) => (insert0 p.1.1 p.1.2, p.2)) (by fun_prop))
  refine (Ex.congr_fun' P fun x0 => simulate hk hg hΓ1 hbody x0 keys hf).trans ?_
  refine (hP _ hW.lintegral_prod_right'.lintegral_prod_right').trans ?_
  have hR : Measurable fun p : (Fin (n + 1) → X) × (Fin (n + 1) → Y) => ENNReal.ofReal (Real.exp (pathLogDensity Γ0 (fun _ => Γ) p.1 +
      ∑ t, h (p.1 t) (p.2 t))) * f p.1 p.2 := by
    simp only [← simW_exp]
    refine Measurable.mul (Measurable.mul ?_ (measurable_simW hk hg (by fun_prop) (by fun_prop))) hf
    fun_prop
  refine Eq.trans ?_ (lintegral_pi_cons _ _ hR.lintegral_prod_right').symm
  refine lintegral_congr fun x0 => ?_
  refine (lintegral_const_mul _ (hW.lintegral_prod_right'.comp measurable_prodMk_left)).symm.trans ?_
  refine lintegral_congr fun xs => ?_
  refine (lintegral_const_mul _ (hW.comp measurable_prodMk_left)).symm.trans ?_
  refine lintegral_congr fun ys => ?_
  show _ * (_ * _) = _
  rw [← simW_exp, ← mul_assoc]
  rfl

end generic

/-- A Gaussian draw. -/
theorem gauss_draw {L : Mat d d} (hL : L.det ≠ 0) (m : Vec d) {F : Vec d → ℝ≥0∞} (hF : Measurable F) :
    ∫⁻ z, F (m + L *ᵥ z) ∂gaussM d = ∫⁻ x, ENNReal.ofReal (Real.exp (normalLogpdf m (L * Lᵀ) x)) * F x := by
  rw [gauss_affine hL m F hF]
  simp only [normalLogpdf_factor hL]

theorem gauss_draw_smul {s : ℝ} (hs : 0 < s) (m : Vec d) {F : Vec d → ℝ≥0∞} (hF : Measurable F) :
    ∫⁻ z, F (m + s • z) ∂gaussM d = ∫⁻ x, ENNReal.ofReal (Real.exp (normalLogpdf m (s ^ 2 • 1) x)) * F x := by
  have h := gauss_draw (L := s • (1 : Mat d d)) (by rw [det_smul, det_one, mul_one]; exact (pow_pos hs _).ne') m hF
  have e : s • (1 : Mat d d) * (s • (1 : Mat d d))ᵀ = s ^ 2 • 1 := by
    rw [transpose_smul, transpose_one, smul_mul_smul_comm, Matrix.one_mul, ← pow_two]
  rw [e] at h
  simpa only [smul_mulVec, one_mulVec] using h

theorem gauss_mass {C : Mat d d} (hC : C.PosDef) (m : Vec d) : ∫⁻ x, ENNReal.ofReal (Real.exp (normalLogpdf m C x)) = 1 := by
  have h := gauss_draw (cholesky_det_pos hC).ne' m (F := fun _ => 1) measurable_const
  rw [(cholesky_spec hC).2, lintegral_one] at h
  simp only [mul_one] at h
  have hp : IsProbabilityMeasure (gaussM d) := by unfold gaussM; infer_instance
  rw [← h, measure_univ]

theorem sv_obs_draw (x : Vec d) {F : Vec d → ℝ≥0∞} (hF : Measurable F) :
    ∫⁻ e, F (fun j => Real.exp (0.5 * x j) * e j) ∂gaussM d = ∫⁻ y, ENNReal.ofReal (Real.exp (sv_log_potential x y)) * F y := by
  have hL : (diagonal fun j => Real.exp (0.5 * x j)).det ≠ 0 := by
    rw [det_diagonal]
    exact prod_ne_zero_iff.mpr fun j _ => (Real.exp_pos _).ne'
  have h := gauss_draw hL 0 hF
  have e : (diagonal fun j => Real.exp (0.5 * x j)) * (diagonal fun j => Real.exp (0.5 * x j))ᵀ = diagonal fun j => Real.exp (x j) := by
    rw [diagonal_transpose, diagonal_mul_diagonal]
    congr 1
    funext j
    rw [← Real.exp_add]
    congr 1
    ring
  rw [e] at h
  simp only [sv_log_potential_eq, ← h]
  refine lintegral_congr fun z => congrArg F (funext fun j => ?_)
  rw [zero_add, mulVec_diagonal]

theorem measurable_sv_pot : Measurable (Function.uncurry fun x y : Vec d => sv_log_potential x y) := by
  refine Continuous.measurable ?_
  simp only [Function.uncurry_def, sv_log_potential, norm_logpdf, if_true]
  fun_prop (disch := intros; positivity)

theorem measurable_trans (F : Mat d d) (b : Vec d) (Q : Mat d d) :
    Measurable (Function.uncurry fun x x' : Vec d => normalLogpdf (F *ᵥ x + b) Q x') := by
  refine Continuous.measurable ?_
  exact continuous_normalLogpdf_comp Q (m := fun p : Vec d × Vec d => F *ᵥ p.1 + b) (x := fun p => p.2) (by fun_prop) (by fun_prop)

/-! ## Noises drawn in advance -/

theorem measurable_scan {C I O : Type} [MeasurableSpace C] [MeasurableSpace I] [MeasurableSpace O] {body : C → I → C × O}
    (hb : Measurable fun p : C × I => body p.1 p.2) {β : Type} [MeasurableSpace β] {c : β → C} {inp : β → Fin T → I} (hc : Measurable c)
    (hi : Measurable inp) : Measurable fun b => scan body (c b) (inp b) := by
  induction T generalizing c with
  | zero => exact hc.prodMk measurable_const
  | succ T ih =>
    have h0 : Measurable fun b => body (c b) (inp b 0) := hb.comp (hc.prodMk (by fun_prop))
    have h1 := ih (c := fun b => (body (c b) (inp b 0)).1) (inp := fun b => tailA (inp b)) h0.fst
      (measurable_pi_lambda _ fun t => (measurable_pi_apply t.succ).comp hi)
    exact h1.fst.prodMk (measurable_insert0 h0.snd h1.snd)

theorem noise_scan {C O E : Type} [MeasurableSpace C] [MeasurableSpace O] [MeasurableSpace E] {ν : Measure E} [IsProbabilityMeasure ν]
    {body : C → E × E → C × O} (hb : Measurable fun p : C × (E × E) => body p.1 p.2) (c : C) {I : Type} (keys : Fin T → I)
    {F : C × (Fin T → O) → ℝ≥0∞} (hF : Measurable F) :
    ∫⁻ a, ∫⁻ b, F (scan body c fun t => (a t, b t)) ∂(Measure.pi fun _ => ν) ∂(Measure.pi fun _ => ν) =
      scanM (m := Ex) (fun c (_ : I) f => ∫⁻ b, ∫⁻ a, f (body c (a, b)) ∂ν ∂ν) c keys F := by
  induction T generalizing c with
  | zero =>
    rw [Measure.pi_of_empty _ Fin.elim0, lintegral_dirac, lintegral_dirac]
    rfl
  | succ T ih =>
    have hm : Measurable fun p : (Fin (T + 1) → E) × (Fin (T + 1) → E) => F (scan body c fun t => (p.1 t, p.2 t)) :=
      hF.comp (measurable_scan hb measurable_const (by fun_prop))
    refine (lintegral_pi_cons _ _ hm.lintegral_prod_right').trans ?_
    have e1 : ∀ a0, ∫⁻ a', ∫⁻ b, F (scan body c fun t => (insert0 a0 a' t, b t)) ∂(Measure.pi fun _ => ν) ∂(Measure.pi fun _ : Fin T => ν) =
        ∫⁻ b0, scanM (m := Ex) (fun c (_ : I) f => ∫⁻ b, ∫⁻ a, f (body c (a, b)) ∂ν ∂ν) (body c (a0, b0)).1 (tailA keys)
          (fun r => F (r.1, insert0 (body c (a0, b0)).2 r.2)) ∂ν := fun a0 => by
      have e2 : ∀ a', ∫⁻ b, F (scan body c fun t => (insert0 a0 a' t, b t)) ∂(Measure.pi fun _ => ν) =
          ∫⁻ b0, ∫⁻ b', F (scan body c fun t => (insert0 a0 a' t, insert0 b0 b' t)) ∂(Measure.pi fun _ : Fin T => ν) ∂ν := fun a' =>
        lintegral_pi_cons _ _ (hm.comp measurable_prodMk_left)
      rw [lintegral_congr e2]
      have hm2 : Measurable fun q : ((Fin T → E) × E) × (Fin T → E) => F (scan body c fun t => (insert0 a0 q.1.1 t, insert0 q.1.2 q.2 t)) :=
        hF.comp (measurable_scan hb measurable_const (measurable_pi_lambda _ fun t => by fun_prop))
      refine (lintegral_lintegral_swap (f := fun a' b0 => ∫⁻ b', F (scan body c fun t => (insert0 a0 a' t, insert0 b0 b' t))
        ∂(Measure.pi fun _ : Fin T => ν)) hm2.lintegral_prod_right'.aemeasurable).trans ?_
      refine lintegral_congr fun b0 => ?_
      rw [← ih _ (tailA keys) (F := fun r => F (r.1, insert0 (body c (a0, b0)).2 r.2)) (hF.comp (by fun_prop))]
      rfl
    refine (lintegral_congr e1).trans ?_
    refine (lintegral_lintegral_swap (f := fun a0 b0 => scanM (m := Ex) (fun c (_ : I) f => ∫⁻ b, ∫⁻ a, f (body c (a, b)) ∂ν ∂ν)
      (body c (a0, b0)).1 (tailA keys) (fun r => F (r.1, insert0 (body c (a0, b0)).2 r.2))) ?_).trans rfl
    have e3 : (Function.uncurry fun a0 b0 => scanM (m := Ex) (fun c (_ : I) f => ∫⁻ b, ∫⁻ a, f (body c (a, b)) ∂ν ∂ν)
        (body c (a0, b0)).1 (tailA keys) (fun r => F (r.1, insert0 (body c (a0, b0)).2 r.2))) = fun p : E × E =>
        ∫⁻ a', ∫⁻ b', F (scan body c fun t => (insert0 p.1 a' t, insert0 p.2 b' t)) ∂(Measure.pi fun _ : Fin T => ν)
          ∂(Measure.pi fun _ : Fin T => ν) := funext fun p =>
      (ih _ (tailA keys) (F := fun r => F (r.1, insert0 (body c (p.1, p.2)).2 r.2)) (hF.comp (by fun_prop))).symm
    rw [e3]
    have hm2 : Measurable fun q : ((E × E) × (Fin T → E)) × (Fin T → E) => F (scan body c fun t => (insert0 q.1.1.1 q.1.2 t, insert0 q.1.1.2 q.2 t)) :=
      hF.comp (measurable_scan hb measurable_const (measurable_pi_lambda _ fun t => by fun_prop))
    exact hm2.lintegral_prod_right'.lintegral_prod_right'.aemeasurable

end Verif

namespace Verif
open Verif.Model Verif.Spec

/-! ## Bayes' rule -/

theorem bayes {X Y : Type} [MeasurableSpace X] [MeasurableSpace Y] {lam : Measure X} [SigmaFinite lam] {mu : Measure Y} [SigmaFinite mu]
    {l : Y → X → ℝ} (hl : Measurable fun p : X × Y => l p.2 p.1)
    (hZ : ∀ y, ∫⁻ x, ENNReal.ofReal (Real.exp (l y x)) ∂lam ≠ 0 ∧ ∫⁻ x, ENNReal.ofReal (Real.exp (l y x)) ∂lam ≠ ∞)
    {f : X → Y → ℝ≥0∞} (hf : Measurable (Function.uncurry f)) :
    ∫⁻ x, ∫⁻ y, ENNReal.ofReal (Real.exp (l y x)) * f x y ∂mu ∂lam =
      ∫⁻ y, ∫⁻ x, f x y ∂lawOf lam (l y) ∂(mu.withDensity fun y => ∫⁻ x, ENNReal.ofReal (Real.exp (l y x)) ∂lam) := by
  have he : Measurable fun p : X × Y => ENNReal.ofReal (Real.exp (l p.2 p.1)) :=
    ENNReal.measurable_ofReal.comp (Real.measurable_exp.comp hl)
  have hZm : Measurable fun y => ∫⁻ x, ENNReal.ofReal (Real.exp (l y x)) ∂lam := he.lintegral_prod_left'
  have hef : Measurable fun p : X × Y => ENNReal.ofReal (Real.exp (l p.2 p.1)) * f p.1 p.2 := he.mul hf
  have hIm : Measurable fun y => ∫⁻ x, ENNReal.ofReal (Real.exp (l y x)) * f x y ∂lam := hef.lintegral_prod_left'
  have e : ∀ y, ∫⁻ x, f x y ∂lawOf lam (l y) = (∫⁻ x, ENNReal.ofReal (Real.exp (l y x)) ∂lam)⁻¹ *
      ∫⁻ x, ENNReal.ofReal (Real.exp (l y x)) * f x y ∂lam := fun y =>
    lintegral_lawOf (hl.comp measurable_prodMk_right) (hf.comp measurable_prodMk_right)
  refine (lintegral_lintegral_swap (f := fun x y => ENNReal.ofReal (Real.exp (l y x)) * f x y) hef.aemeasurable).trans ?_
  rw [lintegral_congr e]
  refine Eq.trans ?_ (lintegral_withDensity_eq_lintegral_mul mu hZm (hZm.inv.mul hIm)).symm
  refine lintegral_congr fun y => ?_
  simp only [Pi.mul_apply, Pi.inv_apply]
  rw [← mul_assoc, ENNReal.mul_inv_cancel (hZ y).1 (hZ y).2, one_mul]

theorem condLaw_of {X Y : Type} [MeasurableSpace X] [MeasurableSpace Y] {lam : Measure X} [SigmaFinite lam] {mu : Measure Y} [SigmaFinite mu]
    {l : Y → X → ℝ} (hl : Measurable fun p : X × Y => l p.2 p.1)
    (hZ : ∀ y, ∫⁻ x, ENNReal.ofReal (Real.exp (l y x)) ∂lam ≠ 0 ∧ ∫⁻ x, ENNReal.ofReal (Real.exp (l y x)) ∂lam ≠ ∞) {P : Ex (X × Y)}
    (hP : ∀ f, Measurable f → P f = ∫⁻ x, ∫⁻ y, ENNReal.ofReal (Real.exp (l y x)) * f (x, y) ∂mu ∂lam) (hP1 : P (fun _ => 1) = 1) :
    ∃ eta : Measure Y, IsProbabilityMeasure eta ∧ eta ≪ mu ∧ CondLaw P eta fun y => lawOf lam (l y) := by
  have key : ∀ f, Measurable f → P f = _ := fun f hf => (hP f hf).trans (bayes hl hZ (f := fun x y => f (x, y)) hf)
  have hp : ∀ y, IsProbabilityMeasure (lawOf lam (l y)) := fun y => lawOf_isProb (hZ y) (hl.comp measurable_prodMk_right)
  have key2 : ∀ g, Measurable g → P (fun p => g p.2) = ∫⁻ y, g y ∂(mu.withDensity fun y => ∫⁻ x, ENNReal.ofReal (Real.exp (l y x)) ∂lam) :=
    fun g hg => by
      refine (key (fun p => g p.2) (hg.comp measurable_snd)).trans ?_
      refine lintegral_congr fun y => ?_
      show ∫⁻ _, g y ∂_ = _
      rw [lintegral_const, measure_univ, mul_one]
  refine ⟨_, ⟨?_⟩, withDensity_absolutelyContinuous _ _, key2, key⟩
  rw [← lintegral_one]
  exact (key2 _ measurable_const).symm.trans hP1

theorem scanM_mass {C I O : Type} {body : C → I → Ex (C × O)} (h : ∀ c i, body c i (fun _ => 1) = 1) {T : ℕ} (c : C) (inp : Fin T → I) :
    (scanM body c inp : Ex _) (fun _ => 1) = 1 := by
  induction T generalizing c with
  | zero => rfl
  | succ T ih =>
    have e : (scanM body c inp : Ex _) (fun _ => 1) = body c (inp 0) fun r => (scanM body r.1 (tailA inp) : Ex _) fun _ => 1 := rfl
    rw [e]
    exact (Ex.congr_fun' (body c (inp 0)) fun r => ih r.1 (tailA inp)).trans (h c _)

end Verif
