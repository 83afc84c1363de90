import Verif.Lemmas.AuxPass
import Verif.Lemmas.IsoGauss

/-!
# Particle-RWM and Particle-MALA: the auxiliary variable is marginalised out of the weights
-/

open scoped ENNReal
open MeasureTheory ProbabilityTheory

namespace Verif
open Verif.Spec Verif.Model

variable {N n d : ℕ}

/-- Noise of all time steps, drawn as two arrays. -/
theorem lintegral_pi_prod {A B : Type} [MeasurableSpace A] [MeasurableSpace B] (μ : Measure A) (ν : Measure B)
    [SigmaFinite μ] [SigmaFinite ν] (F : (Fin n → A × B) → ℝ≥0∞) (hF : Measurable F) :
    ∫⁻ e, F e ∂(Measure.pi fun _ => μ.prod ν) =
      ∫⁻ a, ∫⁻ b, F (fun t => (a t, b t)) ∂(Measure.pi fun _ => ν) ∂(Measure.pi fun _ => μ) := by
  have h := (measurePreserving_arrowProdEquivProdArrow A B (Fin n) (fun _ => μ) (fun _ => ν)).symm
  rw [← h.lintegral_comp hF]
  have hm : Measurable fun p : (Fin n → A) × (Fin n → B) => F (fun t => (p.1 t, p.2 t)) :=
    hF.comp (by fun_prop)
  exact lintegral_prod _ hm.aemeasurable

theorem Spec.LeavesInvariant.congr {X : Type} [MeasurableSpace X] {lam : Measure X}
    {logpi : (Fin (n + 1) → X) → ℝ} {K K' : (Fin (n + 1) → X) → (Fin (n + 1) → Fin (N + 1)) →
      Ex ((Fin (n + 1) → X) × (Fin (n + 1) → Fin (N + 1)))} (h : LeavesInvariant lam logpi K)
    (hK : ∀ x b f, Measurable f → K' x b f = K x b f) : LeavesInvariant lam logpi K' := by
  intro f hf
  rw [← h f hf]
  refine Finset.sum_congr rfl fun b _ => lintegral_congr fun x => ?_
  rw [hK x b f hf]

/-- The abstract system of Particle-MALA with shifts `φ0`, `φ` of the auxiliary variable (Particle-RWM: no
shift). -/
noncomputable def margSys (Γ0 : Vec d → ℝ) (Γ : Fin n → Vec d → Vec d → ℝ) (φ0 : Vec d → Vec d)
    (φ : Fin n → Vec d → Vec d → Vec d) (s : Fin (n + 1) → ℝ)
    (R : Fin n → (Fin (N + 1) → ℝ) → Fin (N + 1) → Fin (N + 1) → Ex (Anc N)) : Sys (Vec d) N n where
  G0 f := ∫⁻ x, ENNReal.ofReal (Real.exp (Γ0 x)) * f x
  G t y f := ∫⁻ x, ENNReal.ofReal (Real.exp (Γ t y x)) * f x
  Q0 b x f := ∫⁻ e, f (auxMk (s 0) (x + φ0 x) e b x) ∂auxNu N d
  LW0 Xs i := Γ0 (Xs i) + logH (s 0) (φ0 (Xs i)) Xs i
  Q t Y b x f := ∫⁻ e, f (auxMk (s t.succ) (x + φ t (Y b) x) e b x) ∂auxNu N d
  LW t Y Xs i := Γ t (Y i) (Xs i) + logH (s t.succ) (φ t (Y i) (Xs i)) Xs i
  R := R
  Z0 := margZ N d (s 0)
  Z t _ := margZ N d (s t.succ)

/-- Its noise. -/
noncomputable def margNoise (N : ℕ) (φ0 : Vec d → Vec d) (φ : Fin n → Vec d → Vec d → Vec d)
    (s : Fin (n + 1) → ℝ) : Noise (Vec d) (Vec d × (Fin (N + 1) → Vec d)) N n where
  Q0 e b x := pure (auxMk (s 0) (x + φ0 x) e b x)
  Q t e y _ b x := pure (auxMk (s t.succ) (x + φ t y x) e b x)

section
variable {Γ0 : Vec d → ℝ} {Γ : Fin n → Vec d → Vec d → ℝ} {φ0 : Vec d → Vec d}
  {φ : Fin n → Vec d → Vec d → Vec d} {s : Fin (n + 1) → ℝ}
  {R : Fin n → (Fin (N + 1) → ℝ) → Fin (N + 1) → Fin (N + 1) → Ex (Anc N)}

theorem isKer_auxMk {β : Type} [MeasurableSpace β] (s : ℝ) {c : β → Vec d} {b : β → Fin (N + 1)}
    {x : β → Vec d} (hc : Measurable c) (hb : Measurable b) (hx : Measurable x) :
    IsKer (fun p => (fun f => ∫⁻ e, f (auxMk s (c p) e (b p) (x p)) ∂auxNu N d : Ex (PA (Vec d) N))) := by
  have h1 : IsKer (fun _ : β => (fun f => ∫⁻ e, f e ∂auxNu N d : Ex (Vec d × (Fin (N + 1) → Vec d)))) :=
    IsKer.const (auxNu N d) fun _ _ => rfl
  exact h1.bind (F := fun p e => pure (auxMk s (c p) e (b p) (x p))) (IsKer.pure (by fun_prop))

theorem margSys_OK (h0 : Measurable Γ0) (h : ∀ t, Measurable fun p : Vec d × Vec d => Γ t p.1 p.2)
    (hφ0 : Measurable φ0) (hφ : ∀ t, Measurable fun p : Vec d × Vec d => φ t p.1 p.2)
    (hs : ∀ t, 0 < s t) (hR : ∀ t, CondResampling (R t)) : (margSys Γ0 Γ φ0 φ s R).OK where
  G0_ker := isKer_density (g := fun _ : Unit => Γ0) (h0.comp measurable_snd)
  G_ker t := isKer_density (g := Γ t) (h t)
  Q0_ker := isKer_auxMk (s 0) (c := fun p : Fin (N + 1) × Vec d => p.2 + φ0 p.2) (by fun_prop) (by fun_prop)
    (by fun_prop)
  Q_ker t := isKer_auxMk (s t.succ) (c := fun p : PA (Vec d) N × Fin (N + 1) × Vec d =>
    p.2.2 + φ t (p.1 p.2.1) p.2.2) (Measurable.add (by fun_prop) ((hφ t).comp (Measurable.prodMk
      (measurable_index (a := fun p : PA (Vec d) N × Fin (N + 1) × Vec d => p.1) (by fun_prop) (by fun_prop))
        (by fun_prop)))) (by fun_prop) (by fun_prop)
  Q0_mass b x := by
    show ∫⁻ e, 1 ∂auxNu N d = 1
    simp
  Q_mass t Y b x := by
    show ∫⁻ e, 1 ∂auxNu N d = 1
    simp
  LW0_meas := by
    refine measurable_pi_lambda _ fun i => ?_
    show Measurable fun Xs : PA (Vec d) N => Γ0 (Xs i) + logH (s 0) (φ0 (Xs i)) Xs i
    fun_prop
  LW_meas t := by
    refine measurable_pi_lambda _ fun i => ?_
    have e1 : Measurable fun p : PA (Vec d) N × PA (Vec d) N => Γ t (p.1 i) (p.2 i) :=
      (h t).comp (by fun_prop : Measurable fun p : PA (Vec d) N × PA (Vec d) N => (p.1 i, p.2 i))
    have e2 : Measurable fun p : PA (Vec d) N × PA (Vec d) N => φ t (p.1 i) (p.2 i) :=
      (hφ t).comp (by fun_prop : Measurable fun p : PA (Vec d) N × PA (Vec d) N => (p.1 i, p.2 i))
    exact e1.add (measurable_logH _ e2 measurable_snd i)
  R_ok := hR
  Z0_ker := margZ_ker _
  Z_ker t := margZ_ker _
  id0 b f hf := marg_id (hs 0) h0 hφ0 b f hf
  idt t Y b f hf := marg_id (hs t.succ) (g := Γ t (Y b)) (ψ := φ t (Y b))
    ((h t).comp (by fun_prop : Measurable fun x : Vec d => (Y b, x)))
    ((hφ t).comp (by fun_prop : Measurable fun x : Vec d => (Y b, x))) b f hf

theorem margSys_hasNoise (hφ0 : Measurable φ0) (hφ : ∀ t, Measurable fun p : Vec d × Vec d => φ t p.1 p.2) :
    (margSys Γ0 Γ φ0 φ s R).HasNoise (margNoise N φ0 φ s) (auxNu N d) where
  Q0_eq b x f hf := rfl
  Q_eq t Y b x f hf := rfl
  Q0_ker := IsKer.pure (g := fun p : (Vec d × (Fin (N + 1) → Vec d)) × Fin (N + 1) × Vec d =>
    auxMk (s 0) (p.2.2 + φ0 p.2.2) p.1 p.2.1 p.2.2) (by fun_prop)
  Q_ker t := by
    have hm : Measurable fun p : (Vec d × (Fin (N + 1) → Vec d)) × Vec d × PA (Vec d) N × Fin (N + 1) × Vec d =>
        φ t p.2.1 p.2.2.2.2 := (hφ t).comp (by fun_prop : Measurable fun p : (Vec d × (Fin (N + 1) → Vec d)) ×
          Vec d × PA (Vec d) N × Fin (N + 1) × Vec d => (p.2.1, p.2.2.2.2))
    exact IsKer.pure (g := fun p : (Vec d × (Fin (N + 1) → Vec d)) × Vec d × PA (Vec d) N × Fin (N + 1) × Vec d =>
      auxMk (s t.succ) (p.2.2.2.2 + φ t p.2.1 p.2.2.2.2) p.1 p.2.2.2.1 p.2.2.2.2) (by fun_prop)
  Q0_pin e b x f g hfg := hfg _ (by simp [auxMk])
  Q_pin t e y Y b x f g hfg := hfg _ (by simp [auxMk])

/-- The marginalised kernel leaves the target invariant. -/
theorem margSys_invariant (h0 : Measurable Γ0) (h : ∀ t, Measurable fun p : Vec d × Vec d => Γ t p.1 p.2)
    (hφ0 : Measurable φ0) (hφ : ∀ t, Measurable fun p : Vec d × Vec d => φ t p.1 p.2)
    (hs : ∀ t, 0 < s t) (hR : ∀ t, CondResampling (R t))
    {move : (Fin (N + 1) → ℝ) → Fin (N + 1) → Ex (Fin (N + 1))} (hm : MoveInvariant move) (backward : Bool) :
    LeavesInvariant volume (pathLogDensity Γ0 Γ) ((margSys Γ0 Γ φ0 φ s R).kernel Γ move backward) :=
  (margSys_OK h0 h hφ0 hφ hs hR).kernel_invariant h0 (fun _ _ => rfl) ⟨h, fun _ _ _ _ => rfl⟩ hm backward

/-- The marginalised kernel, with all noise drawn in advance. -/
theorem margSys_noise (h0 : Measurable Γ0) (h : ∀ t, Measurable fun p : Vec d × Vec d => Γ t p.1 p.2)
    (hφ0 : Measurable φ0) (hφ : ∀ t, Measurable fun p : Vec d × Vec d => φ t p.1 p.2)
    (hs : ∀ t, 0 < s t) (hR : ∀ t, CondResampling (R t))
    {move : (Fin (N + 1) → ℝ) → Fin (N + 1) → Ex (Fin (N + 1))} (hm : MoveKer move) (backward : Bool)
    (key key' : Key) (x : Fin (n + 1) → Vec d) (b : Fin (n + 1) → Fin (N + 1))
    (f : (Fin (n + 1) → Vec d) × (Fin (n + 1) → Fin (N + 1)) → ℝ≥0∞) (hf : Measurable f) :
    (margSys Γ0 Γ φ0 φ s R).kernel Γ move backward x b f = ((do
      let eps_aux ← normal2 key (n + 1) d
      let eps_xs ← normal3 key' (n + 1) (N + 1) d
      ((margSys Γ0 Γ φ0 φ s R).at (margNoise N φ0 φ s) (x, fun t => (eps_aux t, eps_xs t))).kernel Γ move
        backward x b) : Ex _) f := by
  have hN := margSys_hasNoise (Γ0 := Γ0) (Γ := Γ) (R := R) (N := N) (s := s) hφ0 hφ
  have hOK := margSys_OK h0 h hφ0 hφ hs hR
  rw [hN.kernel_eq hOK h hm backward x b f hf]
  have hk := ((hN.at_meas hOK).kernel_ker (Γ := fun _ => Γ) (fun t => (h t).comp measurable_snd) hm
    backward).measurable' hf
  refine lintegral_pi_prod (gaussM d) (Measure.pi fun _ => gaussM d) _ (hk.comp (by fun_prop : Measurable
    fun e : Fin (n + 1) → Vec d × (Fin (N + 1) → Vec d) => ((x, e), x, b)))

end

section programs
variable {G : Type}

/-- Resampling of the auxiliary kernels. -/
def auxR (key : Key) (resampling : Resampling Ex N) :
    Fin n → (Fin (N + 1) → ℝ) → Fin (N + 1) → Fin (N + 1) → Ex (Anc N) :=
  fun t w i j => resampling (keysResampling key n t) w i j true

/-- The key of the move of the last index. -/
def auxMoveKey (key : Key) (n : ℕ) (backward : Bool) : Key :=
  if backward then lastA (splitKey (splitKey key (n + 3) 2) (n + 1)) else splitKey key (n + 3) 2

theorem auxStd_sq {ells : Fin (n + 1) → ℝ} (h : ∀ t, 0 < ells t) (t : Fin (n + 1)) :
    2 * auxStd ells t ^ 2 = ells t := by
  rw [auxStd, Real.sq_sqrt (by have := h t; positivity)]
  ring

theorem auxStd_pos {ells : Fin (n + 1) → ℝ} (h : ∀ t, 0 < ells t) (t : Fin (n + 1)) : 0 < auxStd ells t :=
  Real.sqrt_pos.mpr (by have := h t; positivity)

/-- `l_csmc_f.kernel` is the marginalised kernel. -/
theorem l_kernel_eq (key : Key) (x : Fin (n + 1) → Vec d) (b : Fin (n + 1) → Fin (N + 1))
    {Gamma0 : Vec d → ℝ} {Gamma0_grad : Vec d → Vec d} {Gammat : Vec d → Vec d → G → ℝ}
    {Gammat_grad : Vec d → Vec d → G → Vec d} (Gparams : Fin n → G) {ells : Fin (n + 1) → ℝ}
    (deltas : Fin (n + 1) → ℝ)
    {resampling : Resampling Ex N} {mv : AncestorMove Ex N} (backward : Bool)
    (h0 : Measurable Gamma0) (h : ∀ g, Measurable fun p : Vec d × Vec d => Gammat p.1 p.2 g)
    (hg0 : Measurable Gamma0_grad) (hg : ∀ g, Measurable fun p : Vec d × Vec d => Gammat_grad p.1 p.2 g)
    (hells : ∀ t, 0 < ells t) (hR : ∀ key, CondResampling (fun w i j => resampling key w i j true))
    (hm : ∀ key, MoveKer (moveIndex mv key))
    (f : (Fin (n + 1) → Vec d) × (Fin (n + 1) → Fin (N + 1)) → ℝ≥0∞) (hf : Measurable f) :
    ((l_kernel key x b Gamma0 Gamma0_grad Gammat Gammat_grad Gparams ells deltas resampling mv backward :
      Ex _) >>= fun r => pure (r.xs, r.Bs)) f =
    (margSys Gamma0 (fun t y x => Gammat y x (Gparams t)) (fun x j => 0.5 * deltas 0 * Gamma0_grad x j)
      (fun t y x j => 0.5 * deltas t.succ * Gammat_grad y x (Gparams t) j) (auxStd ells)
      (auxR key resampling)).kernel (fun t y x => Gammat y x (Gparams t))
        (moveIndex mv (auxMoveKey key n backward)) backward x b f := by
  have hgt : ∀ t, Measurable fun p : Vec d × Vec d => fun j => 0.5 * deltas (Fin.succ t) *
      Gammat_grad p.1 p.2 (Gparams t) j := fun t => by
    have := hg (Gparams t)
    fun_prop
  have hno := margSys_noise (R := auxR key resampling) (φ0 := fun x j => 0.5 * deltas 0 * Gamma0_grad x j)
    (Γ := fun t y x => Gammat y x (Gparams t))
    (φ := fun t y x j => 0.5 * deltas t.succ * Gammat_grad y x (Gparams t) j)
    h0 (fun t => h (Gparams t)) (by fun_prop) hgt (auxStd_pos hells) (fun t => hR _) (hm (auxMoveKey key n backward))
    backward (splitKey key (n + 3) 1) (splitKey key (n + 3) 0) x b f hf
  refine Eq.trans ?_ hno.symm
  show (normal2 (splitKey key (n + 3) 1) (n + 1) d : Ex _) _ = (normal2 (splitKey key (n + 3) 1) (n + 1) d : Ex _) _
  refine Ex.congr_fun' _ fun eps_aux => ?_
  show (normal3 (splitKey key (n + 3) 0) (n + 1) (N + 1) d : Ex _) _ =
    (normal3 (splitKey key (n + 3) 0) (n + 1) (N + 1) d : Ex _) _
  refine Ex.congr_fun' _ fun eps_xs => ?_
  set S := (margSys (N := N) Gamma0 (fun t y x => Gammat y x (Gparams t)) (fun x j => 0.5 * deltas 0 * Gamma0_grad x j)
    (fun t y x j => 0.5 * deltas t.succ * Gammat_grad y x (Gparams t) j) (auxStd ells)
    (auxR key resampling)).at (margNoise N (fun x j => 0.5 * deltas 0 * Gamma0_grad x j)
    (fun t y x j => 0.5 * deltas t.succ * Gammat_grad y x (Gparams t) j) (auxStd ells))
      (x, fun t => (eps_aux t, eps_xs t)) with hS
  set xs := auxParticles (auxVars Gamma0_grad Gammat_grad Gparams deltas (auxStd ells) x eps_aux) (auxStd ells)
    eps_xs b x with hxs
  have hlH : ∀ (v : Vec d) (t : Fin (n + 1)) (Xs : Fin (N + 1) → Vec d) i c δ,
      lHphi N v c δ (ells t) (meanP Xs) (Xs i) = c + logH (auxStd ells t) (fun j => 0.5 * δ * v j) Xs i := by
    intro v t Xs i c δ
    rw [logH, auxStd_sq hells]
    rfl
  have hp := aux_pass_eq S b x xs rfl (fun t Y => rfl) (lBody Gammat Gammat_grad resampling)
    (auxInputs key (fun t => (⟨meanP (xs t.succ), deltas t.succ, ells t.succ, Gparams t⟩ : LParams G d)) xs b)
    (fun t Y i => S.LW t Y (xs t.succ) i - maxA (S.LW t Y (xs t.succ))) (by
      intro t w y
      refine congrArg (Bind.bind _) ?_
      funext a
      have e1 : (fun i => lGammatTilde N Gammat Gammat_grad (take y a i) (xs t.succ i)
          ⟨meanP (xs t.succ), deltas t.succ, ells t.succ, Gparams t⟩) = S.LW t (take y a) (xs t.succ) := by
        funext i
        rw [lGammatTilde, hlH]
        rfl
      rw [← e1]
      rfl) (fun t Y => ⟨-maxA (S.LW t Y (xs t.succ)), fun i => rfl⟩)
    (fun i => S.LW0 (xs 0) i - maxA (S.LW0 (xs 0))) ⟨-maxA (S.LW0 (xs 0)), fun i => rfl⟩
    (splitKey key (n + 3) 2) Gammat Gparams mv backward
  have e0 : (fun i => lGamma0Tilde N Gamma0 Gamma0_grad (xs 0 i) (meanP (xs 0)) (deltas 0) (ells 0)) =
      S.LW0 (xs 0) := by
    funext i
    rw [lGamma0Tilde, hlH]
    rfl
  rw [← e0] at hp
  refine Eq.trans ?_ (congrFun hp f)
  cases backward <;> rfl

/-- `rw_csmc.kernel` is the marginalised kernel without shift (all numbers are finite). -/
theorem rw_kernel_eq (key : Key) (x : Fin (n + 1) → Vec d) (b : Fin (n + 1) → Fin (N + 1))
    {Gamma0 : Vec d → ℝ} {Gammat : Vec d → Vec d → G → ℝ} (Gparams : Fin n → G) {ells : Fin (n + 1) → ℝ}
    {resampling : Resampling Ex N} {mv : AncestorMove Ex N} (backward : Bool)
    (h0 : Measurable Gamma0) (h : ∀ g, Measurable fun p : Vec d × Vec d => Gammat p.1 p.2 g)
    (hells : ∀ t, 0 < ells t) (hR : ∀ key, CondResampling (fun w i j => resampling key w i j true))
    (hm : ∀ key, MoveKer (moveIndex mv key))
    (f : (Fin (n + 1) → Vec d) × (Fin (n + 1) → Fin (N + 1)) → ℝ≥0∞) (hf : Measurable f) :
    ((rw_kernel (fun _ => true) key x b Gamma0 Gammat Gparams ells resampling mv backward :
      Ex _) >>= fun r => pure (r.xs, r.Bs)) f =
    (margSys Gamma0 (fun t y x => Gammat y x (Gparams t)) (fun _ => 0)
      (fun _ _ _ => 0) (auxStd ells)
      (auxR key resampling)).kernel (fun t y x => Gammat y x (Gparams t))
        (moveIndex mv (auxMoveKey key n backward)) backward x b f := by
  have hno := margSys_noise (R := auxR key resampling) (φ0 := fun _ => 0) (φ := fun _ _ _ => 0)
    (Γ := fun t y x => Gammat y x (Gparams t)) h0 (fun t => h (Gparams t)) (by fun_prop) (fun t => by fun_prop) (auxStd_pos hells)
    (fun t => hR _) (hm (auxMoveKey key n backward)) backward (splitKey key (n + 3) 1)
    (splitKey key (n + 3) 0) x b f hf
  have hg : ∀ r : KOut (Vec d) N n, rwGuard (fun _ => true) x b r = r := by
    intro r
    simp [rwGuard]
  have hrw : (rw_kernel (fun _ => true) key x b Gamma0 Gammat Gparams ells resampling mv backward : Ex _) =
      rw_core key x b Gamma0 Gammat Gparams ells resampling mv backward := by
    simp only [rw_kernel, hg, bind_pure]
  rw [hrw]
  refine Eq.trans ?_ hno.symm
  show (normal2 (splitKey key (n + 3) 1) (n + 1) d : Ex _) _ = (normal2 (splitKey key (n + 3) 1) (n + 1) d : Ex _) _
  refine Ex.congr_fun' _ fun eps_aux => ?_
  show (normal3 (splitKey key (n + 3) 0) (n + 1) (N + 1) d : Ex _) _ =
    (normal3 (splitKey key (n + 3) 0) (n + 1) (N + 1) d : Ex _) _
  refine Ex.congr_fun' _ fun eps_xs => ?_
  set S := (margSys (N := N) Gamma0 (fun t y x => Gammat y x (Gparams t)) (fun _ => 0) (fun _ _ _ => 0) (auxStd ells)
    (auxR key resampling)).at (margNoise N (fun _ => 0) (fun _ _ _ => 0) (auxStd ells))
      (x, fun t => (eps_aux t, eps_xs t)) with hS
  set xs := auxParticles (fun t j => x t j + eps_aux t j * auxStd ells t) (auxStd ells)
    eps_xs b x with hxs
  have hx : ∀ t, auxMk (auxStd ells t) (x t + 0) (eps_aux t, eps_xs t) (b t) (x t) = xs t := by
    intro t
    simp only [auxMk, hxs, auxParticles, add_zero, mul_comm (eps_aux t _)]
  have hp := aux_pass_eq S b x xs (by rw [← hx 0]; rfl) (fun t Y => by rw [← hx t.succ]; rfl)
    (rwBody Gammat resampling) (auxInputs key Gparams xs b)
    (fun t Y => normalizeLog (S.LW t Y (xs t.succ))) (by
      intro t w y
      refine congrArg (Bind.bind _) ?_
      funext a
      rw [normalize_normalizeLog]
      have e1 : (fun i => Gammat (take y a i) (xs t.succ i) (Gparams t)) = S.LW t (take y a) (xs t.succ) := by
        funext i
        show _ = Gammat (take y a i) (xs t.succ i) (Gparams t) + logH (auxStd ells t.succ) 0 (xs t.succ) i
        rw [logH_zero, add_zero]
      rw [← e1]
      rfl) (fun t Y => ⟨-logsumexp (S.LW t Y (xs t.succ)), fun i => rfl⟩)
    (fun i => S.LW0 (xs 0) i - maxA (S.LW0 (xs 0))) ⟨-maxA (S.LW0 (xs 0)), fun i => rfl⟩
    (splitKey key (n + 3) 2) Gammat Gparams mv backward
  have e0 : (fun i => Gamma0 (xs 0 i)) = S.LW0 (xs 0) := by
    funext i
    show _ = Gamma0 (xs 0 i) + logH (auxStd ells 0) 0 (xs 0) i
    rw [logH_zero, add_zero]
  rw [← e0] at hp
  refine Eq.trans ?_ (congrFun hp f)
  cases backward <;> rfl

end programs

end Verif
