import Verif.Lemmas.Marginal
import Verif.Lemmas.MargCsmc
import Verif.Lemmas.AuxFamily

/-!
# Particle-mGRAD: the particle system with the auxiliary variable marginalised out of the weights
-/

open scoped ENNReal
open MeasureTheory ProbabilityTheory

namespace Verif
open Verif.Spec Verif.Model Matrix

variable {N n d : ℕ}

/-- Independent Gaussian particles with means `c i` and common covariance `L Lᵀ`. -/
noncomputable def gaussP (N : ℕ) (L : Mat d d) (c : Fin (N + 1) → Vec d) : Ex (Fin (N + 1) → Vec d) :=
  (normal2 [] (N + 1) d : Ex _) >>= fun e => pure (fun i => c i + L *ᵥ e i)

theorem gaussP_ker (L : Mat d d) : IsKer (fun c : Fin (N + 1) → Vec d => gaussP N L c) := by
  refine IsKer.bind (IsKer.normal2 [] (N + 1) d) (IsKer.pure (g := fun p : (Fin (N + 1) → Vec d) ×
    (Fin (N + 1) → Vec d) => fun i => p.1 i + L *ᵥ p.2 i) ?_)
  fun_prop

theorem gaussP_samplesFrom {L : Mat d d} (hL : L.det ≠ 0) (c : Fin (N + 1) → Vec d) :
    SamplesFrom volume (fun i x => normalLogpdf (c i) (L * Lᵀ) x) (gaussP N L c) := by
  have h := gauss_samplesFrom hL c []
  simp only [normalLogpdf_factor hL] at h
  exact h

theorem iso_gauss_law {s : ℝ} (hs : 0 < s) (m : Vec d) (F : Vec d → ℝ≥0∞) (hF : Measurable F) :
    ∫⁻ z, F (m + s • z) ∂gaussM d = ∫⁻ x, ENNReal.ofReal (Real.exp (normalLogpdf m (s ^ 2 • 1) x)) * F x := by
  have h := gauss_law (iso_det (d := d) hs) m F hF
  simp only [smul_mulVec, one_mulVec, transpose_smul, transpose_one, smul_mul_smul_comm, Matrix.mul_one] at h
  rw [sq]
  exact h

@[fun_prop] theorem measurable_bl {β : Type} [MeasurableSpace β] {a b : ℕ} (M : Mat a b) {v : β → Vec a} {w : β → Vec b}
    (hv : Measurable v) (hw : Measurable w) : Measurable fun p => bl M (v p) (w p) := by
  unfold bl
  fun_prop

theorem measurable_get_log_H {β : Type} [MeasurableSpace β] (B C E : Mat d d) {xs ds : β → Fin (N + 1) → Vec d}
    {x dd phi : β → Vec d} (hxs : Measurable xs) (hds : Measurable ds) (hx : Measurable x) (hdd : Measurable dd)
    (hphi : Measurable phi) : Measurable fun p => get_log_H (xs p) (ds p) B C E (x p) (dd p) (phi p) := by
  simp only [get_log_H, bl_def, dotProduct_sub]
  fun_prop

theorem measurable_margConst {β : Type} [MeasurableSpace β] (C E B : Mat d d) {xs ds : β → Fin (N + 1) → Vec d}
    (hxs : Measurable xs) (hds : Measurable ds) : Measurable fun p => margConst C E B (xs p) (ds p) := by
  unfold margConst
  have h1 : Measurable fun p => ∑ i, (xs p i - ds p i) := Finset.measurable_fun_sum _ fun i _ => by fun_prop
  have h2 : Measurable fun p => ∑ i, bl C⁻¹ (xs p i - ds p i) (xs p i - ds p i) :=
    Finset.measurable_fun_sum _ fun i _ => by fun_prop
  fun_prop

theorem measurable_affine {β : Type} [MeasurableSpace β] (B : Mat d d) {a v : β → Vec d} (ha : Measurable a)
    (hv : Measurable v) : Measurable fun p => a p + B *ᵥ v p := by fun_prop

section margB
variable {L C E : Mat d d} (hL : L.det ≠ 0) (hLC : L * Lᵀ = C) (hE : E.PosDef) (B : Mat d d) {s : ℝ}
    (hsE : ∀ (m : Vec d) (F : Vec d → ℝ≥0∞), Measurable F → ∫⁻ z, F (m + s • z) ∂gaussM d =
      ∫⁻ x, ENNReal.ofReal (Real.exp (normalLogpdf m E x)) * F x) (ds : Fin (N + 1) → Vec d)
    {g : Vec d → ℝ} (hg : Measurable g) {ψ : Vec d → Vec d} (hψ : Measurable ψ) (b : Fin (N + 1))
    (f : Vec d → (Fin (N + 1) → Vec d) → ℝ≥0∞) (hf : Measurable (Function.uncurry f))

include hf in
theorem margB_meas (L B : Mat d d) :
    Measurable fun p : Vec d × Vec d => gaussP N L (fun i => ds i + B *ᵥ p.2) (fun Xs => f p.1 (atSet Xs b p.1)) :=
  ((gaussP_ker (N := N) L).comp (g := fun p : Vec d × Vec d => fun i => ds i + B *ᵥ p.2)
    (measurable_pi_lambda _ fun i => measurable_affine B measurable_const measurable_snd)).measurable
      (f := fun (p : Vec d × Vec d) Xs => f p.1 (atSet Xs b p.1))
      (hf.comp (by fun_prop : Measurable fun q : (Vec d × Vec d) × (Fin (N + 1) → Vec d) => (q.1.1, atSet q.2 b q.1.1)))

include hsE hg hψ hf in
theorem margB_aux :
    ∫⁻ x, ENNReal.ofReal (Real.exp (g x)) * ∫⁻ e, gaussP N L (fun i => ds i + B *ᵥ (x + ψ x + s • e))
        (fun Xs => f x (atSet Xs b x)) ∂gaussM d =
      ∫⁻ u, ∫⁻ x, ENNReal.ofReal (Real.exp (g x + normalLogpdf (x + ψ x) E u)) *
        gaussP N L (fun i => ds i + B *ᵥ u) (fun Xs => f x (atSet Xs b x)) := by
  have hmP := margB_meas ds b f hf L B
  have h1 : ∀ x, ENNReal.ofReal (Real.exp (g x)) * ∫⁻ e, gaussP N L (fun i => ds i + B *ᵥ (x + ψ x + s • e))
        (fun Xs => f x (atSet Xs b x)) ∂gaussM d =
      ∫⁻ u, ENNReal.ofReal (Real.exp (g x + normalLogpdf (x + ψ x) E u)) *
        gaussP N L (fun i => ds i + B *ᵥ u) (fun Xs => f x (atSet Xs b x)) := by
    intro x
    have hm1 : Measurable fun u => gaussP N L (fun i => ds i + B *ᵥ u) (fun Xs => f x (atSet Xs b x)) :=
      hmP.comp (by fun_prop : Measurable fun u : Vec d => (x, u))
    rw [hsE (x + ψ x) (fun u => gaussP N L (fun i => ds i + B *ᵥ u) (fun Xs => f x (atSet Xs b x))) hm1,
      ← lintegral_const_mul]
    · refine lintegral_congr fun u => ?_
      rw [ofReal_exp_add, mul_assoc]
    · exact (measurable_expR (measurable_normalLogpdf' _ _)).mul hm1
  simp only [h1]
  have hmA : Measurable fun p : Vec d × Vec d => g p.1 + normalLogpdf (p.1 + ψ p.1) E p.2 :=
    (hg.comp measurable_fst).add (measurable_normalLogpdf E (by fun_prop) (by fun_prop))
  exact lintegral_lintegral_swap (((measurable_expR hmA).mul hmP).aemeasurable)

include hL hLC in
theorem gaussP_law (c : Fin (N + 1) → Vec d) (F : (Fin (N + 1) → Vec d) → ℝ≥0∞) (hF : Measurable F) :
    gaussP N L c F = ∫⁻ Xs, ENNReal.ofReal (Real.exp (∑ i, normalLogpdf (c i) C (Xs i))) * F Xs
        ∂(Measure.pi fun _ => volume) := by
  rw [(gaussP_samplesFrom hL c).law F hF, hLC]
  exact lintegral_pi_withDensity (fun _ => volume) (fun i x => normalLogpdf (c i) C x)
    (fun _ => measurable_normalLogpdf' _ _) F hF

include hL hLC hg hψ hf in
theorem margB_inner (u : Vec d) :
    ∫⁻ x, ENNReal.ofReal (Real.exp (g x + normalLogpdf (x + ψ x) E u)) *
        gaussP N L (fun i => ds i + B *ᵥ u) (fun Xs => f x (atSet Xs b x)) =
      ∫⁻ Xs, ENNReal.ofReal (Real.exp (g (Xs b))) * f (Xs b) Xs *
        ENNReal.ofReal (Real.exp (normalLogpdf (Xs b + ψ (Xs b)) E u +
          ∑ i, normalLogpdf (ds i + B *ᵥ u) C (Xs i) - normalLogpdf (ds b + B *ᵥ u) C (Xs b)))
        ∂(Measure.pi fun _ => volume) := by
  have hgu : Measurable fun x => g x + normalLogpdf (x + ψ x) E u :=
    hg.add (measurable_normalLogpdf E (by fun_prop) (by fun_prop))
  have hfb : Measurable fun Xs : Fin (N + 1) → Vec d => f (Xs b) Xs :=
    hf.comp (by fun_prop : Measurable fun Xs : Fin (N + 1) → Vec d => (Xs b, Xs))
  have h2 := (gaussP_samplesFrom hL (fun i => ds i + B *ᵥ u)).conditional
      (g := fun x => g x + normalLogpdf (x + ψ x) E u) hgu b f hf
  rw [hLC] at h2
  refine h2.trans ?_
  have hmg : Measurable fun Xs : Fin (N + 1) → Vec d => g (Xs b) +
        normalLogpdf (Xs b + ψ (Xs b)) E u - normalLogpdf (ds b + B *ᵥ u) C (Xs b) :=
    (hgu.comp (measurable_pi_apply b)).sub ((measurable_normalLogpdf' _ _).comp (measurable_pi_apply b))
  rw [gaussP_law hL hLC _ _ (measurable_expR_mul hmg hfb)]
  refine lintegral_congr fun Xs => ?_
  rw [← mul_assoc, ← ofReal_exp_add, mul_right_comm, ← ofReal_exp_add]
  congr 3
  ring

theorem swap_const {α β : Type} [MeasurableSpace α] [MeasurableSpace β] (μ : Measure α) (ν : Measure β) [SFinite μ]
    [SFinite ν] (c : β → ℝ≥0∞) (k : α → β → ℝ) (hc : Measurable c) (hk : Measurable fun p : α × β => k p.1 p.2) :
    ∫⁻ u, ∫⁻ x, c x * ENNReal.ofReal (Real.exp (k u x)) ∂ν ∂μ =
      ∫⁻ x, c x * ∫⁻ u, ENNReal.ofReal (Real.exp (k u x)) ∂μ ∂ν := by
  refine (lintegral_lintegral_swap (((hc.comp measurable_snd).mul (measurable_expR hk)).aemeasurable)).trans ?_
  refine lintegral_congr fun x => ?_
  exact lintegral_const_mul _ (measurable_expR (hk.comp (by fun_prop : Measurable fun u : α => (u, x))))

theorem exp_rearr (g c h : ℝ) (f : ℝ≥0∞) : ENNReal.ofReal (Real.exp g) * f * ENNReal.ofReal (Real.exp (c + h)) =
    ENNReal.ofReal (Real.exp c) * (ENNReal.ofReal (Real.exp (g + h)) * f) := by
  rw [ofReal_exp_add, ofReal_exp_add]
  ring

include hL hLC hE hsE hg hψ hf in
/-- **Marginalised auxiliary variable**, general proposals: drawing `x` from the target, `u` around `x + ψ x` and the
other particles around `ds + B u`, or all particles from a common measure, and weighting. -/
theorem margB_id :
    ∫⁻ x, ENNReal.ofReal (Real.exp (g x)) * ∫⁻ e, gaussP N L (fun i => ds i + B *ᵥ (x + ψ x + s • e))
        (fun Xs => f x (atSet Xs b x)) ∂gaussM d =
      ∫⁻ Xs, ENNReal.ofReal (Real.exp (margConst C E B Xs ds)) *
        (ENNReal.ofReal (Real.exp (g (Xs b) + get_log_H Xs ds B C⁻¹ E (Xs b) (ds b) (ψ (Xs b)))) *
          f (Xs b) Xs) ∂(Measure.pi fun _ => volume) := by
  have hC : C.PosDef := by
    have := mul_transpose_posDef hL
    rwa [hLC] at this
  rw [margB_aux B hsE ds hg hψ b f hf]
  refine (lintegral_congr fun u => margB_inner hL hLC B ds hg hψ b f hf u).trans ?_
  have hfb : Measurable fun Xs : Fin (N + 1) → Vec d => f (Xs b) Xs :=
    hf.comp (by fun_prop : Measurable fun Xs : Fin (N + 1) → Vec d => (Xs b, Xs))
  have hmN : ∀ i, Measurable fun p : Vec d × (Fin (N + 1) → Vec d) => normalLogpdf (ds i + B *ᵥ p.1) C (p.2 i) :=
    fun i => measurable_normalLogpdf C (measurable_affine B measurable_const measurable_fst) (by fun_prop)
  have hmS : Measurable fun p : Vec d × (Fin (N + 1) → Vec d) => ∑ i, normalLogpdf (ds i + B *ᵥ p.1) C (p.2 i) :=
    Finset.measurable_fun_sum _ fun i _ => hmN i
  have hmD : Measurable fun p : Vec d × (Fin (N + 1) → Vec d) => normalLogpdf (p.2 b + ψ (p.2 b)) E p.1 +
      ∑ i, normalLogpdf (ds i + B *ᵥ p.1) C (p.2 i) - normalLogpdf (ds b + B *ᵥ p.1) C (p.2 b) :=
    ((measurable_normalLogpdf E (by fun_prop) (by fun_prop)).add hmS).sub (hmN b)
  refine (swap_const volume (Measure.pi fun _ => volume) _ _ ((measurable_expR (by fun_prop)).mul hfb) hmD).trans ?_
  refine lintegral_congr fun Xs => ?_
  rw [marg_integral hC hE B Xs ds b (ψ (Xs b))]
  exact exp_rearr _ _ _ _

end margB

/-- The abstract system of Particle-mGRAD: prior offsets `d0`, `dt`, gains `B`, factors `L`, shifts `φ0`, `φ` and
standard deviations `s` of the auxiliary variables. -/
noncomputable def tpSys (Γ0 : Vec d → ℝ) (Γ : Fin n → Vec d → Vec d → ℝ) (φ0 : Vec d → Vec d)
    (φ : Fin n → Vec d → Vec d → Vec d) (B L : Fin (n + 1) → Mat d d) (s : Fin (n + 1) → ℝ) (d0 : Vec d)
    (dt : Fin n → Vec d → Vec d)
    (R : Fin n → (Fin (N + 1) → ℝ) → Fin (N + 1) → Fin (N + 1) → Ex (Anc N)) : Sys (Vec d) N n where
  G0 f := ∫⁻ x, ENNReal.ofReal (Real.exp (Γ0 x)) * f x
  G t y f := ∫⁻ x, ENNReal.ofReal (Real.exp (Γ t y x)) * f x
  Q0 b x := do
    let e ← normal1 [] d
    let Xs ← gaussP N (L 0) (fun _ => d0 + B 0 *ᵥ (x + φ0 x + s 0 • e))
    pure (atSet Xs b x)
  LW0 Xs i := Γ0 (Xs i) +
    get_log_H Xs (fun _ => d0) (B 0) (L 0 * (L 0)ᵀ)⁻¹ (s 0 ^ 2 • 1) (Xs i) d0 (φ0 (Xs i))
  Q t Y b x := do
    let e ← normal1 [] d
    let Xs ← gaussP N (L t.succ) (fun i => dt t (Y i) + B t.succ *ᵥ (x + φ t (Y b) x + s t.succ • e))
    pure (atSet Xs b x)
  LW t Y Xs i := Γ t (Y i) (Xs i) + get_log_H Xs (fun i => dt t (Y i)) (B t.succ) (L t.succ * (L t.succ)ᵀ)⁻¹
    (s t.succ ^ 2 • 1) (Xs i) (dt t (Y i)) (φ t (Y i) (Xs i))
  R := R
  Z0 f := ∫⁻ Xs, ENNReal.ofReal (Real.exp (margConst (L 0 * (L 0)ᵀ) (s 0 ^ 2 • 1) (B 0) Xs (fun _ => d0))) * f Xs
    ∂(Measure.pi fun _ => volume)
  Z t Y f := ∫⁻ Xs, ENNReal.ofReal (Real.exp (margConst (L t.succ * (L t.succ)ᵀ) (s t.succ ^ 2 • 1) (B t.succ) Xs
    (fun i => dt t (Y i)))) * f Xs ∂(Measure.pi fun _ => volume)

/-- The auxiliary variables drawn in advance. -/
noncomputable def tpNoise (N : ℕ) (φ0 : Vec d → Vec d)
    (φ : Fin n → Vec d → Vec d → Vec d) (B L : Fin (n + 1) → Mat d d) (s : Fin (n + 1) → ℝ) (d0 : Vec d)
    (dt : Fin n → Vec d → Vec d) : Noise (Vec d) (Vec d) N n where
  Q0 e b x := do
    let Xs ← gaussP N (L 0) (fun _ => d0 + B 0 *ᵥ (x + φ0 x + s 0 • e))
    pure (atSet Xs b x)
  Q t e y Y b x := do
    let Xs ← gaussP N (L t.succ) (fun i => dt t (Y i) + B t.succ *ᵥ (x + φ t y x + s t.succ • e))
    pure (atSet Xs b x)

section
variable {Γ0 : Vec d → ℝ} {Γ : Fin n → Vec d → Vec d → ℝ} {φ0 : Vec d → Vec d}
  {φ : Fin n → Vec d → Vec d → Vec d} {B L : Fin (n + 1) → Mat d d} {s : Fin (n + 1) → ℝ} {d0 : Vec d}
  {dt : Fin n → Vec d → Vec d}
  {R : Fin n → (Fin (N + 1) → ℝ) → Fin (N + 1) → Fin (N + 1) → Ex (Anc N)}

theorem isKer_gaussSet {β : Type} [MeasurableSpace β] (L : Mat d d) {c : β → Fin (N + 1) → Vec d} {b : β → Fin (N + 1)}
    {x : β → Vec d} (hc : Measurable c) (hb : Measurable b) (hx : Measurable x) :
    IsKer (fun p => gaussP N L (c p) >>= fun Xs => pure (atSet Xs (b p) (x p))) :=
  ((gaussP_ker L).comp hc).bind (F := fun p Xs => pure (atSet Xs (b p) (x p))) (IsKer.pure (by fun_prop))

theorem isKer_tpQ {β : Type} [MeasurableSpace β] (L : Mat d d) {c : β → Vec d → Fin (N + 1) → Vec d} {b : β → Fin (N + 1)}
    {x : β → Vec d} (hc : Measurable fun p : β × Vec d => c p.1 p.2) (hb : Measurable b) (hx : Measurable x) :
    IsKer (fun p => (normal1 [] d : Ex _) >>= fun e => gaussP N L (c p e) >>= fun Xs => pure (atSet Xs (b p) (x p))) := by
  refine (IsKer.normal1 [] d).bind (F := fun p e => gaussP N L (c p e) >>= fun Xs => pure (atSet Xs (b p) (x p))) ?_
  exact isKer_gaussSet L (β := β × Vec d) (c := fun p => c p.1 p.2) (b := fun p => b p.1) (x := fun p => x p.1) hc
    (by fun_prop) (by fun_prop)

theorem gaussP_mass {L : Mat d d} (hL : L.det ≠ 0) (c : Fin (N + 1) → Vec d) : gaussP N L c (fun _ => 1) = 1 :=
  (gaussP_samplesFrom hL c).mass

theorem tpSys_Q_ker (hφ : ∀ t, Measurable fun p : Vec d × Vec d => φ t p.1 p.2) (hdt : ∀ t, Measurable (dt t))
    (t : Fin n) : IsKer (fun p : PA (Vec d) N × Fin (N + 1) × Vec d =>
      (tpSys Γ0 Γ φ0 φ B L s d0 dt R).Q t p.1 p.2.1 p.2.2) := by
  have e0 : Measurable fun p : (PA (Vec d) N × Fin (N + 1) × Vec d) × Vec d => p.1.1 p.1.2.1 :=
    measurable_index (a := fun p : (PA (Vec d) N × Fin (N + 1) × Vec d) × Vec d => p.1.1)
      (by fun_prop) (by fun_prop)
  have e1 : Measurable fun p : (PA (Vec d) N × Fin (N + 1) × Vec d) × Vec d => φ t (p.1.1 p.1.2.1) p.1.2.2 :=
    (hφ t).comp (e0.prodMk (by fun_prop))
  have e2 : ∀ i, Measurable fun p : (PA (Vec d) N × Fin (N + 1) × Vec d) × Vec d => dt t (p.1.1 i) := fun i =>
    (hdt t).comp (by fun_prop)
  have e3 : Measurable fun p : (PA (Vec d) N × Fin (N + 1) × Vec d) × Vec d =>
      p.1.2.2 + φ t (p.1.1 p.1.2.1) p.1.2.2 + s t.succ • p.2 :=
    ((by fun_prop : Measurable fun p : (PA (Vec d) N × Fin (N + 1) × Vec d) × Vec d => p.1.2.2).add e1).add
      (by fun_prop : Measurable fun p : (PA (Vec d) N × Fin (N + 1) × Vec d) × Vec d => s t.succ • p.2)
  have e4 : Measurable fun (p : (PA (Vec d) N × Fin (N + 1) × Vec d) × Vec d) (i : Fin (N + 1)) => dt t (p.1.1 i) +
      B t.succ *ᵥ (p.1.2.2 + φ t (p.1.1 p.1.2.1) p.1.2.2 + s t.succ • p.2) :=
    measurable_pi_lambda _ fun i => measurable_affine _ (e2 i) e3
  exact isKer_tpQ (L t.succ) (c := fun p : PA (Vec d) N × Fin (N + 1) × Vec d => fun e i => dt t (p.1 i) + B t.succ *ᵥ
    (p.2.2 + φ t (p.1 p.2.1) p.2.2 + s t.succ • e)) (b := fun p => p.2.1) (x := fun p => p.2.2) e4 (by fun_prop)
    (by fun_prop)

theorem tpSys_OK (h0 : Measurable Γ0) (h : ∀ t, Measurable fun p : Vec d × Vec d => Γ t p.1 p.2)
    (hφ0 : Measurable φ0) (hφ : ∀ t, Measurable fun p : Vec d × Vec d => φ t p.1 p.2)
    (hdt : ∀ t, Measurable (dt t)) (hL : ∀ t, (L t).det ≠ 0)
    (hs : ∀ t, 0 < s t) (hR : ∀ t, CondResampling (R t)) : (tpSys Γ0 Γ φ0 φ B L s d0 dt R).OK where
  G0_ker := isKer_density (g := fun _ : Unit => Γ0) (h0.comp measurable_snd)
  G_ker t := isKer_density (g := Γ t) (h t)
  Q0_ker := isKer_tpQ (L 0) (c := fun p : Fin (N + 1) × Vec d => fun e _ => d0 + B 0 *ᵥ (p.2 + φ0 p.2 + s 0 • e))
    (by fun_prop) (by fun_prop) (by fun_prop)
  Q_ker t := tpSys_Q_ker hφ hdt t
  Q0_mass b x := by
    show ∫⁻ e, gaussP N (L 0) _ (fun _ => 1) ∂gaussM d = 1
    simp only [gaussP_mass (hL 0), lintegral_const, measure_univ, mul_one]
  Q_mass t Y b x := by
    show ∫⁻ e, gaussP N (L t.succ) _ (fun _ => 1) ∂gaussM d = 1
    simp only [gaussP_mass (hL t.succ), lintegral_const, measure_univ, mul_one]
  LW0_meas := by
    refine measurable_pi_lambda _ fun i => ?_
    exact (h0.comp (measurable_pi_apply i)).add (measurable_get_log_H _ _ _ (by fun_prop) (by fun_prop) (by fun_prop)
      (by fun_prop) (by fun_prop))
  LW_meas t := by
    refine measurable_pi_lambda _ fun i => ?_
    have e1 : Measurable fun p : PA (Vec d) N × PA (Vec d) N => Γ t (p.1 i) (p.2 i) :=
      (h t).comp (by fun_prop : Measurable fun p : PA (Vec d) N × PA (Vec d) N => (p.1 i, p.2 i))
    have e2 : Measurable fun p : PA (Vec d) N × PA (Vec d) N => φ t (p.1 i) (p.2 i) :=
      (hφ t).comp (by fun_prop : Measurable fun p : PA (Vec d) N × PA (Vec d) N => (p.1 i, p.2 i))
    have e3 : ∀ i, Measurable fun p : PA (Vec d) N × PA (Vec d) N => dt t (p.1 i) := fun i =>
      (hdt t).comp (by fun_prop)
    exact e1.add (measurable_get_log_H _ _ _ (by fun_prop) (measurable_pi_lambda _ e3) (by fun_prop) (e3 i) e2)
  R_ok := hR
  Z0_ker := isKer_density (lam := Measure.pi fun _ : Fin (N + 1) => (volume : Measure (Vec d)))
    (g := fun (_ : Unit) Xs => margConst (L 0 * (L 0)ᵀ) (s 0 ^ 2 • 1) (B 0) Xs (fun _ => d0))
    (measurable_margConst _ _ _ (by fun_prop) (by fun_prop))
  Z_ker t := by
    have e3 : ∀ i, Measurable fun p : PA (Vec d) N × PA (Vec d) N => dt t (p.1 i) := fun i =>
      (hdt t).comp (by fun_prop)
    exact isKer_density (lam := Measure.pi fun _ : Fin (N + 1) => (volume : Measure (Vec d)))
      (g := fun (Y : PA (Vec d) N) Xs => margConst (L t.succ * (L t.succ)ᵀ) (s t.succ ^ 2 • 1) (B t.succ) Xs
        (fun i => dt t (Y i))) (measurable_margConst _ _ _ (by fun_prop) (measurable_pi_lambda _ e3))
  id0 b f hf := margB_id (hL 0) rfl (posDef_smul_one (pow_pos (hs 0) 2)) (B 0) (iso_gauss_law (hs 0)) (fun _ => d0) h0 hφ0 b f hf
  idt t Y b f hf := margB_id (hL t.succ) rfl (posDef_smul_one (pow_pos (hs t.succ) 2)) (B t.succ)
    (iso_gauss_law (hs t.succ)) (fun i => dt t (Y i)) (g := Γ t (Y b)) (ψ := φ t (Y b))
    ((h t).comp (by fun_prop : Measurable fun x : Vec d => (Y b, x)))
    ((hφ t).comp (by fun_prop : Measurable fun x : Vec d => (Y b, x))) b f hf

theorem tpSys_hasNoise (hφ0 : Measurable φ0) (hφ : ∀ t, Measurable fun p : Vec d × Vec d => φ t p.1 p.2)
    (hdt : ∀ t, Measurable (dt t)) :
    (tpSys Γ0 Γ φ0 φ B L s d0 dt R).HasNoise (tpNoise N φ0 φ B L s d0 dt) (gaussM d) where
  Q0_eq b x f hf := rfl
  Q_eq t Y b x f hf := rfl
  Q0_ker := isKer_gaussSet (L 0) (c := fun p : Vec d × Fin (N + 1) × Vec d => fun _ => d0 + B 0 *ᵥ
    (p.2.2 + φ0 p.2.2 + s 0 • p.1)) (by fun_prop) (by fun_prop) (by fun_prop)
  Q_ker t := by
    have e1 : Measurable fun p : Vec d × Vec d × PA (Vec d) N × Fin (N + 1) × Vec d => φ t p.2.1 p.2.2.2.2 :=
      (hφ t).comp (by fun_prop : Measurable fun p : Vec d × Vec d × PA (Vec d) N × Fin (N + 1) × Vec d =>
        (p.2.1, p.2.2.2.2))
    have e2 : ∀ i, Measurable fun p : Vec d × Vec d × PA (Vec d) N × Fin (N + 1) × Vec d => dt t (p.2.2.1 i) := fun i =>
      (hdt t).comp (by fun_prop)
    exact isKer_gaussSet (L t.succ) (c := fun p : Vec d × Vec d × PA (Vec d) N × Fin (N + 1) × Vec d =>
      fun i => dt t (p.2.2.1 i) + B t.succ *ᵥ (p.2.2.2.2 + φ t p.2.1 p.2.2.2.2 + s t.succ • p.1))
      (measurable_pi_lambda _ fun i => measurable_affine _ (e2 i) (by fun_prop)) (by fun_prop) (by fun_prop)
  Q0_pin e b x f g hfg := by
    show gaussP N (L 0) _ _ = gaussP N (L 0) _ _
    exact Ex.congr_fun' _ fun Xs => hfg _ (by simp)
  Q_pin t e y Y b x f g hfg := by
    show gaussP N (L t.succ) _ _ = gaussP N (L t.succ) _ _
    exact Ex.congr_fun' _ fun Xs => hfg _ (by simp)

/-- The marginalised kernel leaves the target invariant. -/
theorem tpSys_invariant (h0 : Measurable Γ0) (h : ∀ t, Measurable fun p : Vec d × Vec d => Γ t p.1 p.2)
    (hφ0 : Measurable φ0) (hφ : ∀ t, Measurable fun p : Vec d × Vec d => φ t p.1 p.2)
    (hdt : ∀ t, Measurable (dt t)) (hL : ∀ t, (L t).det ≠ 0)
    (hs : ∀ t, 0 < s t) (hR : ∀ t, CondResampling (R t))
    {move : (Fin (N + 1) → ℝ) → Fin (N + 1) → Ex (Fin (N + 1))} (hm : MoveInvariant move) (backward : Bool) :
    LeavesInvariant volume (pathLogDensity Γ0 Γ) ((tpSys Γ0 Γ φ0 φ B L s d0 dt R).kernel Γ move backward) :=
  (tpSys_OK h0 h hφ0 hφ hdt hL hs hR).kernel_invariant h0 (fun _ _ => rfl) ⟨h, fun _ _ _ _ => rfl⟩ hm backward

end

/-- Log-weights that differ by a constant give the same normalised weights. -/
theorem Sys.lwLast_shift {X : Type} {n : ℕ} {S S' : Sys X N n} (h0 : ∀ Xs, ∃ c, ∀ i, S.LW0 Xs i = S'.LW0 Xs i + c)
    (h : ∀ t Y Xs, ∃ c, ∀ i, S.LW t Y Xs i = S'.LW t Y Xs i + c) (k : Hist X N n) :
    ∃ c, ∀ i, S.lwLast k i = S'.lwLast k i + c := by
  cases n with
  | zero => exact h0 _
  | succ n => exact h _ _ _

/-- Two systems with the same resampling and, up to constants, the same log-weights, whose conditional proposals agree
along the reference, have the same forward pass there. -/
theorem Sys.fwd_congr {X : Type} {n : ℕ} {S S' : Sys X N n} {b : Fin (n + 1) → Fin (N + 1)} {x : Fin (n + 1) → X}
    (h0 : ∀ Xs, ∃ c, ∀ i, S.LW0 Xs i = S'.LW0 Xs i + c)
    (h : ∀ t Y Xs, ∃ c, ∀ i, S.LW t Y Xs i = S'.LW t Y Xs i + c)
    (hR : S.R = S'.R) (hQ0 : S.Q0 (b 0) (x 0) = S'.Q0 (b 0) (x 0))
    (hQ : ∀ t Y, S.Q t Y (b t.succ) (x t.succ) = S'.Q t Y (b t.succ) (x t.succ)) : S.fwd b x = S'.fwd b x := by
  induction n with
  | zero =>
    show (S.Q0 (b 0) (x 0) >>= _) = (S'.Q0 (b 0) (x 0) >>= _)
    rw [hQ0]
  | succ n ih =>
    have hw : ∀ k, S.init.wLast k = S'.init.wLast k := fun k =>
      normalize_congr_const (Sys.lwLast_shift (S := S.init) (S' := S'.init) h0 (fun t => h t.castSucc) k)
    have hi := ih (S := S.init) (S' := S'.init) (b := initA b) (x := initA x) h0
      (fun t => h t.castSucc) (by unfold Sys.init; simp only [hR]) hQ0 (fun t Y => hQ t.castSucc Y)
    show (S.init.fwd (initA b) (initA x) >>= fun k => S.R (Fin.last n) (S.init.wLast k) _ _ >>= fun a =>
        S.Q (Fin.last n) (take (lastA k.2) a) (b (Fin.last (n + 1))) (x (Fin.last (n + 1))) >>= fun Xs => pure (k.snoc a Xs)) =
      (S'.init.fwd (initA b) (initA x) >>= fun k => S'.R (Fin.last n) (S'.init.wLast k) _ _ >>= fun a =>
        S'.Q (Fin.last n) (take (lastA k.2) a) (b (Fin.last (n + 1))) (x (Fin.last (n + 1))) >>= fun Xs => pure (k.snoc a Xs))
    have hl := hQ (Fin.last n)
    rw [Fin.succ_last] at hl
    rw [hi]
    simp only [hw, hR, hl]

/-- The same for the whole kernel. -/
theorem Sys.kernel_congr {X : Type} {n : ℕ} {S S' : Sys X N n} {b : Fin (n + 1) → Fin (N + 1)} {x : Fin (n + 1) → X}
    (h0 : ∀ Xs, ∃ c, ∀ i, S.LW0 Xs i = S'.LW0 Xs i + c)
    (h : ∀ t Y Xs, ∃ c, ∀ i, S.LW t Y Xs i = S'.LW t Y Xs i + c)
    (hR : S.R = S'.R) (hQ0 : S.Q0 (b 0) (x 0) = S'.Q0 (b 0) (x 0))
    (hQ : ∀ t Y, S.Q t Y (b t.succ) (x t.succ) = S'.Q t Y (b t.succ) (x t.succ)) (Γ : Fin n → X → X → ℝ)
    (move : (Fin (N + 1) → ℝ) → Fin (N + 1) → Ex (Fin (N + 1))) (backward : Bool) :
    S.kernel Γ move backward x b = S'.kernel Γ move backward x b := by
  have hbs : ∀ {n : ℕ} (S S' : Sys X N n) (Γ : Fin n → X → X → ℝ), (∀ Xs, ∃ c, ∀ i, S.LW0 Xs i = S'.LW0 Xs i + c) →
      (∀ t Y Xs, ∃ c, ∀ i, S.LW t Y Xs i = S'.LW t Y Xs i + c) →
      ∀ k i, S.bs Γ k i = S'.bs Γ k i := by
    intro n
    induction n with
    | zero => intro S S' Γ h0 h k i; rfl
    | succ n ih =>
      intro S S' Γ h0 h k i
      have hi : ∀ g : Fin (N + 1) → ℝ, normalizeW (fun i => S.init.lwLast k.init i + g i) =
          normalizeW (fun i => S'.init.lwLast k.init i + g i) := fun g => by
        obtain ⟨c, hc⟩ := Sys.lwLast_shift (S := S.init) (S' := S'.init) h0 (fun t => h t.castSucc) k.init
        exact normalize_congr_const ⟨c, fun i => by rw [hc]; ring⟩
      show (choice [] (normalizeW (fun i => S.init.lwLast k.init i + _)) >>= fun i =>
        S.init.bs (initA Γ) k.init i >>= _) = (choice [] (normalizeW (fun i => S'.init.lwLast k.init i + _))
          >>= fun i => S'.init.bs (initA Γ) k.init i >>= _)
      rw [hi]
      have := fun j => ih S.init S'.init (initA Γ) h0 (fun t => h t.castSucc) k.init j
      simp only [this]
  have hw : ∀ k, S.wLast k = S'.wLast k := fun k => normalize_congr_const (Sys.lwLast_shift h0 h k)
  unfold Sys.kernel
  rw [Sys.fwd_congr h0 h hR hQ0 hQ]
  simp only [hw, hbs S S' Γ h0 h]

end Verif
