import Verif.Lemmas.AuxFamily
import Verif.Lemmas.MargCsmc

/-!
# Particle-aMALA: the particle system given the auxiliary variables
-/

open scoped ENNReal
open MeasureTheory ProbabilityTheory

namespace Verif
open Verif.Spec Verif.Model

variable {N n d : ℕ}

/-- The particle system given the auxiliary variables `u`. -/
noncomputable def alSys (Γ0 : Vec d → ℝ) (Γ : Fin n → Vec d → Vec d → ℝ) (φ0 : Vec d → Vec d)
    (φ : Fin n → Vec d → Vec d → Vec d) (s : Fin (n + 1) → ℝ)
    (R : Fin n → (Fin (N + 1) → ℝ) → Fin (N + 1) → Fin (N + 1) → Ex (Anc N)) (u : Fin (n + 1) → Vec d) :
    Sys (Vec d) N n where
  G0 f := ∫⁻ x, ENNReal.ofReal (Real.exp (augG0 Γ0 φ0 s u x)) * f x
  G t y f := ∫⁻ x, ENNReal.ofReal (Real.exp (augG Γ φ s u t y x)) * f x
  Q0 b x := isoP N [] (s 0) (u 0) >>= fun Xs => pure (atSet Xs b x)
  LW0 Xs i := augG0 Γ0 φ0 s u (Xs i) - isoLogpdf (s 0) (u 0) (Xs i)
  Q t _ b x := isoP N [] (s t.succ) (u t.succ) >>= fun Xs => pure (atSet Xs b x)
  LW t Y Xs i := augG Γ φ s u t (Y i) (Xs i) - isoLogpdf (s t.succ) (u t.succ) (Xs i)
  R := R
  Z0 := isoP N [] (s 0) (u 0)
  Z t _ := isoP N [] (s t.succ) (u t.succ)

/-- Its noise. -/
noncomputable def alNoise (N : ℕ) (s : Fin (n + 1) → ℝ) (u : Fin (n + 1) → Vec d) :
    Noise (Vec d) (Fin (N + 1) → Vec d) N n where
  Q0 e b x := pure (atSet (fun i j => u 0 j + s 0 * e i j) b x)
  Q t e _ _ b x := pure (atSet (fun i j => u t.succ j + s t.succ * e i j) b x)

section
variable {Γ0 : Vec d → ℝ} {Γ : Fin n → Vec d → Vec d → ℝ} {φ0 : Vec d → Vec d}
  {φ : Fin n → Vec d → Vec d → Vec d} {s : Fin (n + 1) → ℝ}
  {R : Fin n → (Fin (N + 1) → ℝ) → Fin (N + 1) → Fin (N + 1) → Ex (Anc N)}

theorem isKer_alQ {β : Type} [MeasurableSpace β] (s : ℝ) {u : β → Vec d} {b : β → Fin (N + 1)}
    {x : β → Vec d} (hu : Measurable u) (hb : Measurable b) (hx : Measurable x) :
    IsKer (fun p => isoP N [] s (u p) >>= fun Xs => pure (atSet Xs (b p) (x p))) :=
  ((isoP_ker [] s).comp hu).bind (F := fun p Xs => pure (atSet Xs (b p) (x p))) (IsKer.pure (by fun_prop))

theorem alSys_meas (h0 : Measurable Γ0) (h : ∀ t, Measurable fun p : Vec d × Vec d => Γ t p.1 p.2)
    (hφ0 : Measurable φ0) (hφ : ∀ t, Measurable fun p : Vec d × Vec d => φ t p.1 p.2)
    (hR : ∀ t, CondResampling (R t)) : SysMeas (alSys Γ0 Γ φ0 φ s R) where
  Q0_ker := isKer_alQ (s 0) (u := fun p : (Fin (n + 1) → Vec d) × Fin (N + 1) × Vec d => p.1 0) (by fun_prop)
    (by fun_prop) (by fun_prop)
  Q_ker t := isKer_alQ (s t.succ) (u := fun p : (Fin (n + 1) → Vec d) × PA (Vec d) N × Fin (N + 1) × Vec d =>
    p.1 t.succ) (by fun_prop) (by fun_prop) (by fun_prop)
  LW0_meas := by
    refine measurable_pi_lambda _ fun i => ?_
    show Measurable fun p : (Fin (n + 1) → Vec d) × PA (Vec d) N =>
      augG0 Γ0 φ0 s p.1 (p.2 i) - isoLogpdf (s 0) (p.1 0) (p.2 i)
    fun_prop
  LW_meas t := by
    refine measurable_pi_lambda _ fun i => ?_
    have := measurable_augG h hφ s t (u := fun p : (Fin (n + 1) → Vec d) × PA (Vec d) N × PA (Vec d) N => p.1)
      (y := fun p => p.2.1 i) (x := fun p => p.2.2 i) (by fun_prop) (by fun_prop) (by fun_prop)
    show Measurable fun p : (Fin (n + 1) → Vec d) × PA (Vec d) N × PA (Vec d) N =>
      augG Γ φ s p.1 t (p.2.1 i) (p.2.2 i) - isoLogpdf (s t.succ) (p.1 t.succ) (p.2.2 i)
    fun_prop
  R_ker t := (hR t).ker.comp measurable_snd

theorem alSys_OK (h0 : Measurable Γ0) (h : ∀ t, Measurable fun p : Vec d × Vec d => Γ t p.1 p.2)
    (hφ0 : Measurable φ0) (hφ : ∀ t, Measurable fun p : Vec d × Vec d => φ t p.1 p.2)
    (hs : ∀ t, 0 < s t) (hR : ∀ t, CondResampling (R t)) (u : Fin (n + 1) → Vec d) :
    (alSys Γ0 Γ φ0 φ s R u).OK where
  G0_ker := by
    have := isKer_density (lam := volume) (g := fun _ : Unit => augG0 Γ0 φ0 s u) (by fun_prop)
    exact this
  G_ker t := by
    have := isKer_density (lam := volume) (g := augG Γ φ s u t) (measurable_augG h hφ s t measurable_const
      (by fun_prop) (by fun_prop))
    exact this
  Q0_ker := isKer_alQ (s 0) (u := fun _ : Fin (N + 1) × Vec d => u 0) (by fun_prop) (by fun_prop) (by fun_prop)
  Q_ker t := isKer_alQ (s t.succ) (u := fun _ : PA (Vec d) N × Fin (N + 1) × Vec d => u t.succ) (by fun_prop)
    (by fun_prop) (by fun_prop)
  Q0_mass b x := by
    have := (iso_samplesFrom (N := N) (hs 0) (u 0) []).mass
    exact this
  Q_mass t Y b x := by
    have := (iso_samplesFrom (N := N) (hs t.succ) (u t.succ) []).mass
    exact this
  LW0_meas := by
    refine measurable_pi_lambda _ fun i => ?_
    show Measurable fun p : PA (Vec d) N => augG0 Γ0 φ0 s u (p i) - isoLogpdf (s 0) (u 0) (p i)
    fun_prop
  LW_meas t := by
    refine measurable_pi_lambda _ fun i => ?_
    have := measurable_augG h hφ s t (u := fun _ : PA (Vec d) N × PA (Vec d) N => u)
      (y := fun p => p.1 i) (x := fun p => p.2 i) (by fun_prop) (by fun_prop) (by fun_prop)
    show Measurable fun p : PA (Vec d) N × PA (Vec d) N =>
      augG Γ φ s u t (p.1 i) (p.2 i) - isoLogpdf (s t.succ) (u t.succ) (p.2 i)
    fun_prop
  R_ok := hR
  Z0_ker := (isoP_ker [] (s 0)).comp measurable_const
  Z_ker t := (isoP_ker [] (s t.succ)).comp measurable_const
  id0 b f hf := by
    have := (iso_samplesFrom (N := N) (hs 0) (u 0) []).conditional (g := augG0 Γ0 φ0 s u) (by fun_prop) b f hf
    exact this
  idt t Y b f hf := by
    have := (iso_samplesFrom (N := N) (hs t.succ) (u t.succ) []).conditional (g := augG Γ φ s u t (Y b))
      (measurable_augG h hφ s t measurable_const measurable_const (by fun_prop)) b f hf
    exact this

theorem alSys_hasNoise (u : Fin (n + 1) → Vec d) :
    (alSys Γ0 Γ φ0 φ s R u).HasNoise (alNoise N s u) (Measure.pi fun _ => gaussM d) where
  Q0_eq b x f hf := rfl
  Q_eq t Y b x f hf := rfl
  Q0_ker := IsKer.pure (g := fun p : (Fin (N + 1) → Vec d) × Fin (N + 1) × Vec d =>
    atSet (fun i j => u 0 j + s 0 * p.1 i j) p.2.1 p.2.2) (by fun_prop)
  Q_ker t := IsKer.pure (g := fun p : (Fin (N + 1) → Vec d) × Vec d × PA (Vec d) N × Fin (N + 1) × Vec d =>
      atSet (fun i j => u t.succ j + s t.succ * p.1 i j) p.2.2.2.1 p.2.2.2.2) (by fun_prop)
  Q0_pin e b x f g hfg := hfg _ (by simp)
  Q_pin t e y Y b x f g hfg := hfg _ (by simp)

end

section programs
variable {G : Type}

theorem auxVars_center (Gamma0_grad : Vec d → Vec d) (Gammat_grad : Vec d → Vec d → G → Vec d) (Gparams : Fin n → G)
    (deltas s : Fin (n + 1) → ℝ) (x e : Fin (n + 1) → Vec d) :
    auxVars Gamma0_grad Gammat_grad Gparams deltas s x e = fun t j =>
      auxCenter (fun x j => 0.5 * deltas 0 * Gamma0_grad x j)
        (fun t y x j => 0.5 * deltas t.succ * Gammat_grad y x (Gparams t) j) x t j + s t * e t j := by
  funext t j
  refine Fin.cases rfl (fun t => rfl) t

/-- `al_csmc_f.kernel` is a mixture, over the auxiliary variables, of the kernels given them. -/
theorem al_kernel_eq (key : Key) (x : Fin (n + 1) → Vec d) (b : Fin (n + 1) → Fin (N + 1))
    {Gamma0 : Vec d → ℝ} {Gamma0_grad : Vec d → Vec d} {Gammat : Vec d → Vec d → G → ℝ}
    {Gammat_grad : Vec d → Vec d → G → Vec d} (Gparams : Fin n → G) {ells : Fin (n + 1) → ℝ}
    (deltas : Fin (n + 1) → ℝ)
    {resampling : Resampling Ex N} {mv : AncestorMove Ex N} (backward : Bool)
    (h0 : Measurable Gamma0) (h : ∀ g, Measurable fun p : Vec d × Vec d => Gammat p.1 p.2 g)
    (hg0 : Measurable Gamma0_grad) (hg : ∀ g, Measurable fun p : Vec d × Vec d => Gammat_grad p.1 p.2 g)
    (hells : ∀ t, 0 < ells t) (hR : ∀ key, CondResampling (fun w i j => resampling key w i j true))
    (hm : ∀ key, MoveKer (moveIndex mv key))
    (f : (Fin (n + 1) → Vec d) × (Fin (n + 1) → Fin (N + 1)) → ℝ≥0∞) (hf : Measurable f) :
    ((al_kernel key x b Gamma0 Gamma0_grad Gammat Gammat_grad Gparams ells deltas resampling mv backward :
      Ex _) >>= fun r => pure (r.xs, r.Bs)) f =
    ∫⁻ e, (alSys Gamma0 (fun t y x => Gammat y x (Gparams t)) (fun x j => 0.5 * deltas 0 * Gamma0_grad x j)
      (fun t y x j => 0.5 * deltas t.succ * Gammat_grad y x (Gparams t) j) (auxStd ells)
      (auxR key resampling) (auxVars Gamma0_grad Gammat_grad Gparams deltas (auxStd ells) x e)).kernel
      (augG (fun t y x => Gammat y x (Gparams t)) (fun t y x j => 0.5 * deltas t.succ * Gammat_grad y x (Gparams t) j)
        (auxStd ells) (auxVars Gamma0_grad Gammat_grad Gparams deltas (auxStd ells) x e))
      (moveIndex mv (auxMoveKey key n backward)) backward x b f ∂(Measure.pi fun _ : Fin (n + 1) => gaussM d) := by
  have hgt : ∀ t, Measurable fun p : Vec d × Vec d => fun j => 0.5 * deltas (Fin.succ t) *
      Gammat_grad p.1 p.2 (Gparams t) j := fun t => by
    have := hg (Gparams t)
    fun_prop
  refine lintegral_congr fun eps_aux => ?_
  set u := auxVars Gamma0_grad Gammat_grad Gparams deltas (auxStd ells) x eps_aux with hu
  set Γ : Fin n → Vec d → Vec d → ℝ := fun t y x => Gammat y x (Gparams t) with hΓ
  set φ : Fin n → Vec d → Vec d → Vec d := fun t y x j => 0.5 * deltas t.succ * Gammat_grad y x (Gparams t) j
    with hφ
  have hOK := alSys_OK (N := N) (R := auxR key resampling) (Γ := Γ) (φ0 := fun x j => 0.5 * deltas 0 * Gamma0_grad x j)
    (φ := φ) h0 (fun t => h (Gparams t)) (by fun_prop) hgt (auxStd_pos hells) (fun t => hR _) u
  have hno := (alSys_hasNoise u).kernel_eq hOK (Γ := augG Γ φ (auxStd ells) u) (fun t => measurable_augG
    (fun t => h (Gparams t)) hgt _ t measurable_const (by fun_prop) (by fun_prop)) (hm (auxMoveKey key n backward))
    backward x b f hf
  refine Eq.trans ?_ hno.symm
  refine lintegral_congr fun eps_xs => ?_
  set S := (alSys (N := N) Gamma0 Γ (fun x j => 0.5 * deltas 0 * Gamma0_grad x j) φ (auxStd ells)
    (auxR key resampling) u).at (alNoise N (auxStd ells) u) (x, eps_xs) with hS
  set xs := auxParticles u (auxStd ells) eps_xs b x with hxs
  have hsq : ∀ (v w : Vec d), sumSq (fun j => v j - w j) = sumSq (fun j => w j - v j) := fun v w =>
    Finset.sum_congr rfl fun j _ => by ring
  set pr : Fin n → AlParams G d := fun t => ⟨deltas t.succ, ells t.succ, u t.succ, Gparams t⟩ with hpr
  have hGam : ∀ t y x, alGammatTilde Gammat Gammat_grad y x (pr t) =
      augG Γ φ (auxStd ells) u t y x + isoC d (auxStd ells t.succ) := by
    intro t y x
    have : sumSq (fun j => u t.succ j - x j - 0.5 * deltas t.succ * Gammat_grad y x (Gparams t) j) =
        sumSq (fun j => u t.succ j - (x + φ t y x) j) := Finset.sum_congr rfl fun j _ => by
      simp only [hφ, Pi.add_apply]; ring
    simp only [alGammatTilde, augG, isoLogpdf, auxStd_sq hells, this, hpr]
    ring
  have hLW : ∀ t y x, alGtTilde Gammat Gammat_grad y x (pr t) =
      augG Γ φ (auxStd ells) u t y x - isoLogpdf (auxStd ells t.succ) (u t.succ) x := by
    intro t y x
    rw [alGtTilde, hGam, isoLogpdf, auxStd_sq hells]
    simp only [hpr]
    ring
  have hp := aux_pass_eq S b x xs rfl (fun t Y => rfl) (alBody Gammat Gammat_grad resampling)
    (auxInputs key pr xs b)
    (fun t Y i => S.LW t Y (xs t.succ) i - maxA (S.LW t Y (xs t.succ))) (by
      intro t w y
      refine congrArg (Bind.bind _) ?_
      funext a
      have e1 : (fun i => alGtTilde Gammat Gammat_grad (take y a i) (xs t.succ i) (pr t)) =
          S.LW t (take y a) (xs t.succ) := by
        funext i
        rw [hLW]
        rfl
      rw [← e1]
      rfl) (fun t Y => ⟨-maxA (S.LW t Y (xs t.succ)), fun i => rfl⟩)
    (fun i => S.LW0 (xs 0) i - maxA (S.LW0 (xs 0))) ⟨-maxA (S.LW0 (xs 0)), fun i => rfl⟩
    (splitKey key (n + 3) 2) (alGammatTilde Gammat Gammat_grad) pr mv backward
  have e0 : (fun i => alG0Tilde Gamma0 Gamma0_grad (xs 0 i) (deltas 0) (ells 0) (u 0)) = S.LW0 (xs 0) := by
    funext i
    have : sumSq (fun j => u 0 j - xs 0 i j - 0.5 * deltas 0 * Gamma0_grad (xs 0 i) j) =
        sumSq (fun j => u 0 j - (xs 0 i + fun j => 0.5 * deltas 0 * Gamma0_grad (xs 0 i) j) j) :=
      Finset.sum_congr rfl fun j _ => by
        simp only [Pi.add_apply]; ring
    show _ = augG0 Gamma0 (fun x j => 0.5 * deltas 0 * Gamma0_grad x j) (auxStd ells) u (xs 0 i) -
      isoLogpdf (auxStd ells 0) (u 0) (xs 0 i)
    simp only [alG0Tilde, alGamma0Tilde, augG0, isoLogpdf, auxStd_sq hells, this]
    ring
  rw [← e0] at hp
  have hc := S.kernel_congr_const (Γ := fun t y x => alGammatTilde Gammat Gammat_grad y x (pr t))
    (Γ' := augG Γ φ (auxStd ells) u) (fun t x => ⟨isoC d (auxStd ells t.succ), fun y => hGam t y x⟩)
    (moveIndex mv (auxMoveKey key n backward)) backward
  rw [← hc]
  refine Eq.trans ?_ (congrFun hp f)
  cases backward <;> rfl

end programs

end Verif
