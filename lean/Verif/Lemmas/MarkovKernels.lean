import Verif.Lemmas.RotationKernels
import Verif.Lemmas.ChainInv
import Verif.Lemmas.Near
import Verif.Props.Smoothing

/-!
# The kernels are steps of Markov chains
-/

open scoped ENNReal
open MeasureTheory

namespace Verif
open Verif.Model Verif.Spec Matrix

section general
variable {X : Type} [MeasurableSpace X] {N n : ℕ}
  {K : (Fin (n + 1) → X) → (Fin (n + 1) → Fin (N + 1)) → Ex ((Fin (n + 1) → X) × (Fin (n + 1) → Fin (N + 1)))}
  {move : (Fin (N + 1) → ℝ) → Fin (N + 1) → Ex (Fin (N + 1))}

theorem Sys.OK.markov {S : Sys X N n} (hS : S.OK) {Γ : Fin n → X → X → ℝ} (hΓ : ∀ t, Measurable fun p : X × X => Γ t p.1 p.2)
    (hm : MoveKer move) (hm' : MoveMass move) (backward : Bool)
    (hK : ∀ x b f, Measurable f → K x b f = S.kernel Γ move backward x b f) : MarkovStep K where
  ker := (hS.kernel_ker hΓ hm backward).congr fun p f hf => (hK p.1 p.2 f hf).symm
  mass x b := (hK x b _ (by fun_prop)).trans (hS.kernel_mass Γ hm' backward x b)

theorem mixture_markov_of {E : Type} [MeasurableSpace E] {μ : Measure E} [IsProbabilityMeasure μ]
    {F : (Fin (n + 1) → X) → E → (Fin (n + 1) → X) → (Fin (n + 1) → Fin (N + 1)) → Ex ((Fin (n + 1) → X) × (Fin (n + 1) → Fin (N + 1)))}
    (hF : IsKer fun p : ((Fin (n + 1) → X) × (Fin (n + 1) → Fin (N + 1))) × E => F p.1.1 p.2 p.1.1 p.1.2)
    (hF' : ∀ z e x b, F z e x b (fun _ => 1) = 1)
    (hK : ∀ x b f, Measurable f → K x b f = ∫⁻ e, F x e x b f ∂μ) : MarkovStep K where
  ker := (IsKer.bind (P := fun (_ : (Fin (n + 1) → X) × (Fin (n + 1) → Fin (N + 1))) (f : E → ℝ≥0∞) => ∫⁻ e, f e ∂μ)
    (F := fun p e => F p.1 e p.1 p.2) (IsKer.const μ fun _ _ => rfl) hF).congr fun p f hf => (hK p.1 p.2 f hf).symm
  mass x b := by
    rw [hK x b _ (by fun_prop)]
    simp [hF']

theorem mixture_markov {E Θ : Type} [MeasurableSpace E] [MeasurableSpace Θ] {μ : Measure E} [IsProbabilityMeasure μ]
    {S : Θ → Sys X N n} (hS : SysMeas S) (hOK : ∀ θ, (S θ).OK) {Γ : Θ → Fin n → X → X → ℝ}
    (hΓ : ∀ t, Measurable fun p : Θ × X × X => Γ p.1 t p.2.1 p.2.2) (hm : MoveKer move) (hm' : MoveMass move) (backward : Bool)
    {c : (Fin (n + 1) → X) → E → Θ} (hc : Measurable fun p : (Fin (n + 1) → X) × E => c p.1 p.2)
    (hK : ∀ x b f, Measurable f → K x b f = ∫⁻ e, (S (c x e)).kernel (Γ (c x e)) move backward x b f ∂μ) : MarkovStep K :=
  mixture_markov_of (F := fun z e x b => (S (c z e)).kernel (Γ (c z e)) move backward x b)
    ((hS.kernel_ker hΓ hm backward).comp (g := fun p : ((Fin (n + 1) → X) × (Fin (n + 1) → Fin (N + 1))) × E =>
      (c p.1.1 p.2, p.1.1, p.1.2)) (by fun_prop))
    (fun z e x b => (hOK _).kernel_mass _ hm' backward x b) hK

end general

section csmc
variable {X P G : Type} [MeasurableSpace X] {N n : ℕ}

/-- Rotation of independent particles with different laws. -/
theorem lintegral_rot' {α : Type} [MeasurableSpace α] (μ : Fin (N + 1) → Measure α) [∀ i, SigmaFinite (μ i)] (s : Fin (N + 1))
    (f : (Fin (N + 1) → α) → ℝ≥0∞) (hf : Measurable f) :
    ∫⁻ e, f e ∂(Measure.pi fun i => μ (i + s)) = ∫⁻ e, f (rotA s e) ∂(Measure.pi μ) := by
  have hm := measurable_rotA (α := α) s
  have h := measurePreserving_piCongrLeft μ (Equiv.addRight s)
  rw [← h.lintegral_comp (by fun_prop)]
  refine lintegral_congr fun e => congrArg f (funext fun i => ?_)
  exact (Equiv.piCongrLeft_apply_apply (fun _ : Fin (N + 1) => α) (Equiv.addRight s) e i).symm

theorem Spec.SamplesFrom.rot {lam : Measure X} {q q' : Fin (N + 1) → X → ℝ} {Q Q' : Ex (Fin (N + 1) → X)} (h : SamplesFrom lam q Q)
    (h' : SamplesFrom lam q' Q') (s : Fin (N + 1)) (e : q' = rotA s q) (f : (Fin (N + 1) → X) → ℝ≥0∞) (hf : Measurable f) :
    Q' f = Q fun Xs => f (rotA s Xs) := by
  have hm := measurable_rotA (α := X) s
  subst e
  have : ∀ i, IsProbabilityMeasure (lam.withDensity fun x => ENNReal.ofReal (Real.exp (q i x))) := fun i =>
    ⟨by rw [withDensity_apply _ MeasurableSet.univ, Measure.restrict_univ, h.norm i]⟩
  rw [h.law _ (by fun_prop), h'.law f hf]
  exact lintegral_rot' (fun i => lam.withDensity fun x => ENNReal.ofReal (Real.exp (q i x))) s f hf

theorem Spec.ProperFK.rot {lam : Measure X} {M : FK Ex X P G N} (hM : ProperFK lam M) : RotFK M where
  M0_rvs key s f hf := by
    obtain ⟨m, c, _, h⟩ := hM.init
    exact (h key).rot (h key) s rfl f hf
  M0_logpdf s Xs i := by
    obtain ⟨m, c, e, _⟩ := hM.init
    rw [e, e]
    rfl
  Mt_rvs key s Y p f hf := by
    obtain ⟨m, c, _, _, h⟩ := hM.step p
    exact ((h key).2 Y).rot ((h key).2 (rotA s Y)) s rfl f hf
  Mt_logpdf s Y Xs p i := by
    obtain ⟨m, c, _, e, _⟩ := hM.step p
    rw [e, e]
    rfl

theorem csmc_markov_relabels (lam : Measure X) [SFinite lam] (key : Key) {M : FK Ex X P G N} (hM : ProperFK lam M)
    (Mparams : Fin n → P) (Gparams : Fin n → G) {resampling : Resampling Ex N} {mv : AncestorMove Ex N}
    (hR : ∀ key, CondResampling (fun w i j => resampling key w i j true)) (hm : ∀ key, MoveKer (moveIndex mv key)) (backward : Bool) :
    ((∀ key, MoveMass (moveIndex mv key)) → MarkovStep (fun x b =>
      (csmc_kernel key x b M Mparams Gparams resampling mv backward true : Ex _) >>= fun r => pure (r.xs, r.Bs))) ∧
    ((∀ key, RotResampling (fun w i j => resampling key w i j true)) → (∀ key, RotMove (moveIndex mv key)) → Relabels (fun x b =>
      (csmc_kernel key x b M Mparams Gparams resampling mv backward true : Ex _) >>= fun r => pure (r.xs, r.Bs))) := by
  obtain ⟨c0, c, hS⟩ := csmcDSys_OK (lam := lam) key Mparams Gparams hM hR
  have e : ∀ x b, _ = _ := fun x b => csmc_kernel_eq key M Mparams Gparams resampling mv backward
    (fun f => ∫⁻ x, ENNReal.ofReal (Real.exp (M.Gamma0 x)) * f x ∂lam)
    (fun t y f => ∫⁻ x, ENNReal.ofReal (Real.exp (M.Gammat y x (Gparams t))) * f x ∂lam)
    (tilt c0 (M.M0_rvs (splitKey key 3 0)))
    (fun t Y => tilt (c t) (M.Mt_rvs (splitKey (splitKey (splitKey key 3 1) n t) 2 0) Y (Mparams t))) x b
  refine ⟨fun hm' => ?_, fun hR' hm' => ?_⟩
  · exact hS.markov (fun t => hM.Gammat_meas (Gparams t)) (hm _) (hm' _) backward fun x b f _ => congrFun (e x b) f
  · exact (Sys.Rot.kernel hS.sysMeas (csmcSys_rot key hM.rot hR' _ _ _ _) (fun t => hM.Gammat_meas (Gparams t)) (hm _) (hm' _)
      backward).congr fun x b f _ => congrFun (e x b) f

end csmc

section aux
variable {d N n : ℕ} {G : Type} {Gamma0 : Vec d → ℝ} {Gamma0_grad : Vec d → Vec d} {Gammat : Vec d → Vec d → G → ℝ}
  {Gammat_grad : Vec d → Vec d → G → Vec d} {ells : Fin (n + 1) → ℝ} {resampling : Resampling Ex N} {mv : AncestorMove Ex N}

theorem rw_markov (key : Key) (Gparams : Fin n → G)
    (h0 : Measurable Gamma0) (h : ∀ g, Measurable fun p : Vec d × Vec d => Gammat p.1 p.2 g)
    (hells : ∀ t, 0 < ells t) (hR : ∀ key, CondResampling (fun w i j => resampling key w i j true))
    (hm : ∀ key, MoveKer (moveIndex mv key)) (hm' : ∀ key, MoveMass (moveIndex mv key)) (backward : Bool) :
    MarkovStep (fun x b => (rw_kernel (fun _ => true) key x b Gamma0 Gammat Gparams ells resampling mv backward : Ex _) >>=
      fun r => pure (r.xs, r.Bs)) :=
  (margSys_OK (R := auxR key resampling) (φ0 := fun _ => 0) (φ := fun _ _ _ => 0) (Γ := fun t y x => Gammat y x (Gparams t))
    h0 (fun t => h (Gparams t)) (by fun_prop) (fun t => by fun_prop) (auxStd_pos hells) (fun t => hR _)).markov
    (fun t => h (Gparams t)) (hm _) (hm' _) backward fun x b f hf => rw_kernel_eq key x b Gparams backward h0 h hells hR hm f hf

theorem l_markov (key : Key) (Gparams : Fin n → G) (deltas : Fin (n + 1) → ℝ)
    (h0 : Measurable Gamma0) (h : ∀ g, Measurable fun p : Vec d × Vec d => Gammat p.1 p.2 g)
    (hg0 : Measurable Gamma0_grad) (hg : ∀ g, Measurable fun p : Vec d × Vec d => Gammat_grad p.1 p.2 g)
    (hells : ∀ t, 0 < ells t) (hR : ∀ key, CondResampling (fun w i j => resampling key w i j true))
    (hm : ∀ key, MoveKer (moveIndex mv key)) (hm' : ∀ key, MoveMass (moveIndex mv key)) (backward : Bool) :
    MarkovStep (fun x b => (l_kernel key x b Gamma0 Gamma0_grad Gammat Gammat_grad Gparams ells deltas resampling mv backward :
      Ex _) >>= fun r => pure (r.xs, r.Bs)) :=
  (margSys_OK (R := auxR key resampling) (φ0 := fun x j => 0.5 * deltas 0 * Gamma0_grad x j)
    (φ := fun t y x j => 0.5 * deltas t.succ * Gammat_grad y x (Gparams t) j) (Γ := fun t y x => Gammat y x (Gparams t))
    h0 (fun t => h (Gparams t)) (by fun_prop) (fun t => by have := hg (Gparams t); fun_prop) (auxStd_pos hells) (fun t => hR _)).markov
    (fun t => h (Gparams t)) (hm _) (hm' _) backward fun x b f hf => l_kernel_eq key x b Gparams deltas backward h0 h hg0 hg hells hR hm f hf

theorem al_markov (key : Key) (Gparams : Fin n → G) (deltas : Fin (n + 1) → ℝ)
    (h0 : Measurable Gamma0) (h : ∀ g, Measurable fun p : Vec d × Vec d => Gammat p.1 p.2 g)
    (hg0 : Measurable Gamma0_grad) (hg : ∀ g, Measurable fun p : Vec d × Vec d => Gammat_grad p.1 p.2 g)
    (hells : ∀ t, 0 < ells t) (hR : ∀ key, CondResampling (fun w i j => resampling key w i j true))
    (hm : ∀ key, MoveKer (moveIndex mv key)) (hm' : ∀ key, MoveMass (moveIndex mv key)) (backward : Bool) :
    MarkovStep (fun x b => (al_kernel key x b Gamma0 Gamma0_grad Gammat Gammat_grad Gparams ells deltas resampling mv backward :
      Ex _) >>= fun r => pure (r.xs, r.Bs)) := by
  have hφ0 : Measurable fun (x : Vec d) (j : Fin d) => 0.5 * deltas 0 * Gamma0_grad x j := by fun_prop
  have hφ : ∀ t : Fin n, Measurable fun p : Vec d × Vec d => (fun j => 0.5 * deltas t.succ * Gammat_grad p.1 p.2 (Gparams t) j : Vec d) :=
    fun t => by have := hg (Gparams t); fun_prop
  have hΓ : ∀ t, Measurable fun p : Vec d × Vec d => Gammat p.1 p.2 (Gparams t) := fun t => h (Gparams t)
  have hcen := measurable_auxCenter (φ := fun t y x j => 0.5 * deltas t.succ * Gammat_grad y x (Gparams t) j) hφ0 hφ
  exact mixture_markov (μ := Measure.pi fun _ : Fin (n + 1) => gaussM d)
    (alSys_meas (s := auxStd ells) (R := auxR key resampling) (Γ := fun t y x => Gammat y x (Gparams t))
      (φ := fun t y x j => 0.5 * deltas t.succ * Gammat_grad y x (Gparams t) j) h0 hΓ hφ0 hφ (fun t => hR _))
    (alSys_OK h0 hΓ hφ0 hφ (auxStd_pos hells) (fun t => hR _))
    (Γ := augG (fun t y x => Gammat y x (Gparams t)) (fun t y x j => 0.5 * deltas t.succ * Gammat_grad y x (Gparams t) j) (auxStd ells))
    (fun t => measurable_augG hΓ hφ _ t (by fun_prop) (by fun_prop) (by fun_prop)) (hm _) (hm' _) backward
    (c := auxVars Gamma0_grad Gammat_grad Gparams deltas (auxStd ells))
    (by simp only [auxVars_center]; fun_prop)
    fun x b f hf => al_kernel_eq key x b Gparams deltas backward h0 h hg0 hg hells hR hm f hf

theorem rw_relabels (key : Key) (Gparams : Fin n → G)
    (h0 : Measurable Gamma0) (h : ∀ g, Measurable fun p : Vec d × Vec d => Gammat p.1 p.2 g)
    (hells : ∀ t, 0 < ells t) (hR : ∀ key, CondResampling (fun w i j => resampling key w i j true))
    (hR' : ∀ key, RotResampling (fun w i j => resampling key w i j true))
    (hm : ∀ key, MoveKer (moveIndex mv key)) (hm' : ∀ key, RotMove (moveIndex mv key)) (backward : Bool) :
    Relabels (fun x b => (rw_kernel (fun _ => true) key x b Gamma0 Gammat Gparams ells resampling mv backward : Ex _) >>=
      fun r => pure (r.xs, r.Bs)) := by
  have hS := margSys_OK (R := auxR key resampling) (φ0 := fun _ => 0) (φ := fun _ _ _ => 0) (Γ := fun t y x => Gammat y x (Gparams t))
    h0 (fun t => h (Gparams t)) (by fun_prop) (fun t => by fun_prop) (auxStd_pos hells) (fun t => hR _)
  exact (Sys.Rot.kernel hS.sysMeas (margSys_rot fun t => hR' _) (fun t => h (Gparams t)) (hm _) (hm' _)
    backward).congr fun x b f hf => rw_kernel_eq key x b Gparams backward h0 h hells hR hm f hf

theorem l_relabels (key : Key) (Gparams : Fin n → G) (deltas : Fin (n + 1) → ℝ)
    (h0 : Measurable Gamma0) (h : ∀ g, Measurable fun p : Vec d × Vec d => Gammat p.1 p.2 g)
    (hg0 : Measurable Gamma0_grad) (hg : ∀ g, Measurable fun p : Vec d × Vec d => Gammat_grad p.1 p.2 g)
    (hells : ∀ t, 0 < ells t) (hR : ∀ key, CondResampling (fun w i j => resampling key w i j true))
    (hR' : ∀ key, RotResampling (fun w i j => resampling key w i j true))
    (hm : ∀ key, MoveKer (moveIndex mv key)) (hm' : ∀ key, RotMove (moveIndex mv key)) (backward : Bool) :
    Relabels (fun x b => (l_kernel key x b Gamma0 Gamma0_grad Gammat Gammat_grad Gparams ells deltas resampling mv backward :
      Ex _) >>= fun r => pure (r.xs, r.Bs)) := by
  have hS := margSys_OK (R := auxR key resampling) (φ0 := fun x j => 0.5 * deltas 0 * Gamma0_grad x j)
    (φ := fun t y x j => 0.5 * deltas t.succ * Gammat_grad y x (Gparams t) j) (Γ := fun t y x => Gammat y x (Gparams t))
    h0 (fun t => h (Gparams t)) (by fun_prop) (fun t => by have := hg (Gparams t); fun_prop) (auxStd_pos hells) (fun t => hR _)
  exact (Sys.Rot.kernel hS.sysMeas (margSys_rot fun t => hR' _) (fun t => h (Gparams t)) (hm _) (hm' _)
    backward).congr fun x b f hf => l_kernel_eq key x b Gparams deltas backward h0 h hg0 hg hells hR hm f hf

theorem al_relabels (key : Key) (Gparams : Fin n → G) (deltas : Fin (n + 1) → ℝ)
    (h0 : Measurable Gamma0) (h : ∀ g, Measurable fun p : Vec d × Vec d => Gammat p.1 p.2 g)
    (hg0 : Measurable Gamma0_grad) (hg : ∀ g, Measurable fun p : Vec d × Vec d => Gammat_grad p.1 p.2 g)
    (hells : ∀ t, 0 < ells t) (hR : ∀ key, CondResampling (fun w i j => resampling key w i j true))
    (hR' : ∀ key, RotResampling (fun w i j => resampling key w i j true))
    (hm : ∀ key, MoveKer (moveIndex mv key)) (hm' : ∀ key, RotMove (moveIndex mv key)) (backward : Bool) :
    Relabels (fun x b => (al_kernel key x b Gamma0 Gamma0_grad Gammat Gammat_grad Gparams ells deltas resampling mv backward :
      Ex _) >>= fun r => pure (r.xs, r.Bs)) := by
  have hφ0 : Measurable fun (x : Vec d) (j : Fin d) => 0.5 * deltas 0 * Gamma0_grad x j := by fun_prop
  have hφ : ∀ t : Fin n, Measurable fun p : Vec d × Vec d => (fun j => 0.5 * deltas t.succ * Gammat_grad p.1 p.2 (Gparams t) j : Vec d) :=
    fun t => by have := hg (Gparams t); fun_prop
  have hΓ : ∀ t, Measurable fun p : Vec d × Vec d => Gammat p.1 p.2 (Gparams t) := fun t => h (Gparams t)
  exact Relabels.mixture' (fun e z => Sys.Rot.kernel
      (alSys_OK (Γ := fun t y x => Gammat y x (Gparams t)) (φ := fun t y x j => 0.5 * deltas t.succ * Gammat_grad y x (Gparams t) j)
        (R := auxR key resampling) h0 hΓ hφ0 hφ (auxStd_pos hells) (fun t => hR _) _).sysMeas
      (alSys_rot (fun t => hR' _) _)
      (fun t => measurable_augG hΓ hφ _ t measurable_const (by fun_prop) (by fun_prop)) (hm _) (hm' _) backward)
    fun x b f hf => al_kernel_eq key x b Gparams deltas backward h0 h hg0 hg hells hR hm f hf

end aux

section proposals
variable {d N n : ℕ} {MP RP : Type} {svd : Mat d d → SvdOut d} {M : GaussModel MP RP n d} {ells : Fin (n + 1) → ℝ}
  {resampling : Resampling Ex N} {mv : AncestorMove Ex N}

theorem tp_markov (h : ProposalOK svd M ells) (hM : GaussMeas M) (key : Key) (deltas : Fin (n + 1) → ℝ)
    (hR : ∀ key, CondResampling (fun w i j => resampling key w i j true))
    (hm : ∀ key, MoveKer (moveIndex mv key)) (hm' : ∀ key, MoveMass (moveIndex mv key)) (backward : Bool) :
    MarkovStep (fun x b => (tp_csmc_kernel svd M key x b ells deltas resampling mv backward : Ex _) >>= fun r => pure (r.xs, r.Bs)) :=
  (tpS_OK h hM key deltas hR).markov hM.gamma (hm _) (hm' _) backward fun x b f hf =>
    tp_kernel_eq h hM key x b deltas hR hm backward f hf

theorem atp_markov (h : ProposalOK svd M ells) (hM : GaussMeas M)
    (hex : ∀ t, (make_proposal svd M ells t).chol_invᵀ * (make_proposal svd M ells t).chol_inv =
      ((make_proposal svd M ells t).chol * (make_proposal svd M ells t).cholᵀ)⁻¹) (key : Key) (deltas : Fin (n + 1) → ℝ)
    (hR : ∀ key, CondResampling (fun w i j => resampling key w i j true))
    (hm : ∀ key, MoveKer (moveIndex mv key)) (hm' : ∀ key, MoveMass (moveIndex mv key)) (backward : Bool) :
    MarkovStep (fun x b => (atp_kernel svd M key x b ells deltas resampling mv backward : Ex _) >>= fun r => pure (r.xs, r.Bs)) := by
  have hcen := measurable_auxCenter (hM.phi0 deltas) (hM.phi deltas)
  refine mixture_markov (μ := Measure.pi fun _ : Fin (n + 1) => gaussM d)
    (atpSys_meas (N := N) (s := auxStd ells) (B := tpB svd M ells) (L := fun t => (make_proposal svd M ells t).chol)
      (d0 := M.mu0 - tpB svd M ells 0 *ᵥ M.mu0) (dt := tpD M (tpB svd M ells))
      (R := fun t w i j => resampling (splitKey (splitKey (splitKey (splitKey key 3 0) 3 1) n t) 2 1) w i j true)
      hM.gamma0 hM.gamma (hM.phi0 deltas) (hM.phi deltas) (hM.dt _) (fun t => hR _))
    (atpSys_OK hM.gamma0 hM.gamma (hM.phi0 deltas) (hM.phi deltas) (hM.dt _) h.det (fun t => hR _))
    (Γ := augG (tpGam M) (tpPhi M deltas) (auxStd ells))
    (fun t => measurable_augG hM.gamma (hM.phi deltas) _ t (by fun_prop) (by fun_prop) (by fun_prop))
    (hm (atpMoveKey key n backward)) (hm' _) backward
    (c := auxVars M.r0_grad M.rt_grad M.rt_params deltas (auxStd ells)) ?_
    fun x b f hf => atp_kernel_eq h hex key x b deltas backward f
  simp only [auxVars_center]
  have : Measurable (auxCenter (fun x j => 0.5 * deltas 0 * M.r0_grad x j)
    (fun t y x j => 0.5 * deltas t.succ * M.rt_grad y x (M.rt_params t) j)) := hcen
  fun_prop

theorem t_markov {r : RevDyn n d} {M : LinModel RP n d} (hM : LinMeas M) (hT : r.PT.PosDef) (hQ : ∀ t, (r.Qs t).PosDef)
    (hells : ∀ t, 0 < ells t) (key : Key) (deltas : Fin (n + 1) → ℝ)
    (hR : ∀ key, CondResampling (fun w i j => resampling key w i j true))
    (hm : ∀ key, MoveKer (moveIndex mv key)) (hm' : ∀ key, MoveMass (moveIndex mv key)) (backward : Bool) :
    MarkovStep (fun x b => (t_atp_kernel_rev r M key x b ells deltas resampling mv backward : Ex _) >>= fun r => pure (r.xs, r.Bs)) := by
  have hcen : Measurable (tCenter M deltas) := by
    have h0' := hM.r0_grad
    refine measurable_auxCenter (by unfold tlPhi0; fun_prop) fun t => ?_
    have := hM.rt_grad t
    unfold tlPhi
    fun_prop
  have hG := tG_meas deltas hM hT hQ hells
  refine mixture_markov (μ := Measure.pi fun _ : Fin (n + 1) => gaussM d)
    (gSys_meas (L := tL r ells) (N := N)
      (R := fun t w i j => resampling (splitKey (splitKey (splitKey (splitKey key 3 0) 3 1) n t) 2 1) w i j true) hG (fun t => hR _))
    (gSys_OK hG (tL_det hT hQ hells) (fun t => hR _))
    (Γ := tG r M ells deltas) (fun t => hG.inc t)
    (hm (atpMoveKey key n backward)) (hm' _) backward
    (c := auxVars M.r0_grad M.rt_grad M.rt_params deltas (auxStd ells)) ?_
    fun x b f hf => t_kernel_eq hT hQ hells key x b deltas backward f
  simp only [auxVars_center]
  have : Measurable (auxCenter (fun x j => 0.5 * deltas 0 * M.r0_grad x j)
    (fun t y x j => 0.5 * deltas t.succ * M.rt_grad y x (M.rt_params t) j)) := hcen
  fun_prop

end proposals

section second
variable {d N n : ℕ} {G : Type} {Gamma0 : Vec d → ℝ} {Gamma0_grad : Vec d → Vec d} {Gammat : Vec d → Vec d → G → ℝ}
  {Gammat_grad0 Gammat_grad1 : Vec d → Vec d → G → Vec d} {ells : Fin (n + 3) → ℝ} {resampling : Resampling Ex N}
  {mv : AncestorMove Ex N}

theorem Sys.bs2_mass {V : Type} {n : ℕ} (S : Sys (V × V) N n) (Γ : Fin n → V × V → V → ℝ) (τ : V → ℝ) (h : Hist (V × V) N n)
    (k : Fin (N + 1)) : S.bs2 Γ τ h k (fun _ => 1) = 1 := by
  induction n generalizing k τ with
  | zero => rfl
  | succ n ih =>
    show ∑ i, catP (normalizeW (fun i => S.init.lwLast h.init i +
      Γ (Fin.last n) (lastA h.init.2 i) (lastA h.2 k).2 + τ (lastA h.init.2 i).2)) i *
        S.init.bs2 (initA Γ) (fun y => Γ (Fin.last n) (y, (lastA h.init.2 i).2) (lastA h.2 k).2) h.init i (fun _ => 1) = 1
    simp only [ih, mul_one, catP_of_isProb (normalize_isProb _), sum_ofReal_of_isProb (normalize_isProb _)]

theorem Sys.OK.kernel2_mass {V : Type} [MeasurableSpace V] {n : ℕ} {S : Sys (V × V) N n} (hS : S.OK) (c : V)
    (Γ : Fin n → V × V → V → ℝ) {move : (Fin (N + 1) → ℝ) → Fin (N + 1) → Ex (Fin (N + 1))} (hm : MoveMass move)
    (backward : Bool) (x : Fin (n + 1) → V) (b : Fin (n + 1) → Fin (N + 1)) :
    S.kernel2 c Γ move backward x b (fun _ => 1) = 1 := by
  have h1 : ∀ h k, (if backward = true then S.bs2 Γ (fun _ => 0) h k
      else (pure (fun t => (h.tracex k t).2, h.trace k) : Ex _)) (fun _ => 1) = 1 := by
    intro h k
    cases backward with
    | true => exact S.bs2_mass Γ _ h k
    | false => rfl
  show S.fwd b (lift2 c x) (fun h => move (S.wLast h) (lastA b) (fun k =>
    (if backward = true then S.bs2 Γ (fun _ => 0) h k
      else (pure (fun t => (h.tracex k t).2, h.trace k) : Ex _)) (fun _ => 1))) = 1
  simp only [h1]
  have h2 : ∀ h, move (S.wLast h) (lastA b) (fun _ => 1) = 1 := fun h => hm _ (normalize_isProb _) _
  simp only [h2]
  exact hS.fwd_mass b _

theorem alsF_markov_relabels (key : Key) (Gparams : Fin (n + 2) → G) (deltas : Fin (n + 3) → ℝ)
    (h0 : Measurable Gamma0) (h : ∀ g, Measurable fun p : Vec d × Vec d => Gammat p.1 p.2 g)
    (hg : Measurable Gamma0_grad) (hg0 : ∀ g, Measurable fun p : Vec d × Vec d => Gammat_grad0 p.1 p.2 g)
    (hg1 : ∀ g, Measurable fun p : Vec d × Vec d => Gammat_grad1 p.1 p.2 g)
    (hells : ∀ t, 0 < ells t) (hR : ∀ key, CondResampling (fun w i j => resampling key w i j true))
    (hm : ∀ key, MoveKer (moveIndex mv key)) (backward : Bool) (φ : AlsFwd N n d → AlsFwd N n d)
    (hφ : ∀ F, (φ F).xs = F.xs ∧ (φ F).As = F.As ∧ (φ F).log_ws = F.log_ws)
    (hp : backward = true → ParentsOK Gammat Gammat_grad0 Gammat_grad1 Gparams ells deltas φ) :
    ((∀ key, MoveMass (moveIndex mv key)) → MarkovStep (fun x b => als_kernelF φ key x b Gamma0 Gamma0_grad Gammat
      Gammat_grad0 Gammat_grad1 Gparams ells deltas resampling mv backward)) ∧
    ((∀ key, RotResampling (fun w i j => resampling key w i j true)) → (∀ key, RotMove (moveIndex mv key)) →
      Relabels (fun x b => als_kernelF φ key x b Gamma0 Gamma0_grad Gammat
        Gammat_grad0 Gammat_grad1 Gparams ells deltas resampling mv backward)) := by
  have ha0 : Measurable (alsA0 Gamma0_grad deltas) := by unfold alsA0; fun_prop
  have ha : ∀ t, Measurable fun p : Vec d × Vec d => alsA Gammat_grad1 Gparams deltas t p.1 p.2 := fun t => by
    have := hg1 (Gparams t)
    unfold alsA
    fun_prop
  have hc : ∀ t, Measurable fun p : Vec d × Vec d => alsC Gammat_grad0 Gparams deltas t p.1 p.2 := fun t => by
    have := hg0 (Gparams t)
    unfold alsC
    fun_prop
  have hRt : ∀ t, CondResampling (auxR (n := n + 2) key resampling t) := fun t => hR _
  have hb : ∀ t, Measurable fun p : Vec d × Vec d => Gammat p.1 p.2 (Gparams t) := fun t => h (Gparams t)
  have hS := alsSys_meas (N := N) (s := auxStd ells) (Γ := fun t y x => Gammat y x (Gparams t)) h0 hb ha0 ha hc hRt
  have hcen := measurable_s2Center ha0 ha hc
  have hΓ : ∀ t, Measurable fun p : (Fin (n + 3) → Vec d) × (Vec d × Vec d) × Vec d =>
      s2G (fun t y x => Gammat y x (Gparams t)) (alsA0 Gamma0_grad deltas) (alsA Gammat_grad1 Gparams deltas)
        (alsC Gammat_grad0 Gparams deltas) (auxStd ells) p.1 t p.2.1 p.2.2 := fun t =>
    measurable_s2G hb ha0 ha hc _ t (by fun_prop) (by fun_prop) (by fun_prop)
  have hK := fun x b f (hf : Measurable f) => als_kernel_eq key x b Gparams deltas backward h0 h hg hg0 hg1 hells hR hm φ hφ hp f hf
  refine ⟨fun hm' => ?_, fun hR' hm' => ?_⟩
  · refine mixture_markov_of ?_ ?_ hK
    · exact (hS.kernel2_ker 0 hΓ (hm _) backward).comp (g := fun p : ((Fin (n + 3) → Vec d) × (Fin (n + 3) → Fin (N + 1))) ×
        (Fin (n + 3) → Vec d) => ((fun t j => s2Center (alsA0 Gamma0_grad deltas)
      (alsA Gammat_grad1 Gparams deltas) (alsC Gammat_grad0 Gparams deltas) p.1.1 t j + auxStd ells t * p.2 t j), p.1.1, p.1.2)) (by fun_prop)
    · exact fun z e x b => (alsSys_OK h0 hb ha0 ha hc (auxStd_pos hells) hRt _).kernel2_mass 0 _ (hm' _) backward x b
  · refine Relabels.mixture' (fun e z => ?_) hK
    have hRt' : ∀ t, RotResampling (auxR (n := n + 2) key resampling t) := fun t => hR' _
    exact Sys.Rot.kernel2 (alsSys_OK h0 hb ha0 ha hc (auxStd_pos hells) hRt _).sysMeas (alsSys_rot hRt' _) 0
      (fun t => measurable_s2G hb ha0 ha hc _ t (by fun_prop) (by fun_prop) (by fun_prop)) (hm _) (hm' _) backward

end second

section chains
variable {X : Type} [MeasurableSpace X] {N n : ℕ}

/-- Along a run, too, the indices are only labels. -/
theorem chain_relabels {kernel : Key → (Fin (n + 1) → X) × (Fin (n + 1) → Fin (N + 1)) →
      Ex ((Fin (n + 1) → X) × (Fin (n + 1) → Fin (N + 1)))} (hk : ∀ key, IsKer (kernel key))
    (hK : ∀ key, Relabels fun x b => kernel key (x, b)) {T : ℕ} (keys : Fin T → Key) (x : Fin (n + 1) → X)
    (b s : Fin (n + 1) → Fin (N + 1))
    (F : (Fin (T + 1) → (Fin (n + 1) → X) × (Fin (n + 1) → Fin (N + 1))) → ℝ≥0∞) (hF : Measurable F) :
    chain kernel (x, b + s) keys F = chain kernel (x, b) keys fun tr => F fun i => ((tr i).1, (tr i).2 + s) := by
  induction T generalizing x b with
  | zero => rfl
  | succ T ih =>
    have hm : ∀ p : (Fin (n + 1) → X) × (Fin (n + 1) → Fin (N + 1)),
        Measurable fun rest : Fin (T + 1) → (Fin (n + 1) → X) × (Fin (n + 1) → Fin (N + 1)) => F (insert0 p rest) :=
      fun p => hF.comp (measurable_insert0 measurable_const measurable_id)
    show kernel (keys 0) (x, b + s) (fun s' => chain kernel s' (tailA keys) fun rest => F (insert0 (x, b + s) rest)) =
      kernel (keys 0) (x, b) (fun s' => chain kernel s' (tailA keys) fun rest =>
        F fun i => ((insert0 (x, b) rest i).1, (insert0 (x, b) rest i).2 + s))
    refine (hK (keys 0) x b s _ ((chain_ker hk (tailA keys)).measurable' (hm (x, b + s)))).trans ?_
    refine Ex.congr_fun' (kernel (keys 0) (x, b)) fun r => ?_
    rw [ih (tailA keys) r.1 r.2 _ (hm _)]
    refine Ex.congr_fun' (chain kernel (r.1, r.2) (tailA keys)) fun rest => congrArg F (funext fun i => ?_)
    refine Fin.cases rfl (fun i => rfl) i

end chains

end Verif
