import Verif.Lemmas.Reach
import Verif.Lemmas.MarkovKernels
import Verif.Lemmas.MinorizeSchemes

/-!
# The kernels reach every set of positive measure
-/

open scoped ENNReal
open MeasureTheory

namespace Verif
open Verif.Model Verif.Spec Matrix

section general
variable {X : Type} [MeasurableSpace X] {N n : ℕ}

theorem Spec.SamplesFrom.reach {lam : Measure X} [SFinite lam] {q : Fin N → X → ℝ} {P : Ex (Fin N → X)} (h : SamplesFrom lam q P) (i : Fin N)
    {f : X → ℝ≥0∞} (hf : Measurable f) : ∫⁻ x, f x ∂lam ≤ ∞ * P (fun Xs => f (Xs i)) := by
  have : ∀ i, IsProbabilityMeasure (lam.withDensity fun x => ENNReal.ofReal (Real.exp (q i x))) := fun i =>
    ⟨by rw [withDensity_apply _ MeasurableSet.univ, Measure.restrict_univ, h.norm i]⟩
  rw [h.law _ (by fun_prop)]
  have hp := (measurePreserving_eval (fun i => lam.withDensity fun x => ENNReal.ofReal (Real.exp (q i x))) i).lintegral_comp hf
  simp only [Function.eval] at hp
  have hq : Measurable fun x => ENNReal.ofReal (Real.exp (q i x)) := measurable_expR (h.meas i)
  rw [hp, lintegral_withDensity_eq_lintegral_mul _ hq hf, ← lintegral_const_mul _ (hq.mul hf)]
  refine lintegral_mono fun x => ?_
  simp only [Pi.mul_apply]
  rw [← mul_assoc, ENNReal.top_mul (ENNReal.ofReal_pos.mpr (Real.exp_pos _)).ne']
  exact le_top_mul_iff.mpr fun h => h

/-- The same for mixtures. -/
theorem reach_mixture {E : Type} [MeasurableSpace E] {μ : Measure E} [IsProbabilityMeasure μ] {c : ℝ≥0∞} {F : E → ℝ≥0∞} (hF : Measurable F)
    (h : ∀ e, c ≤ ∞ * F e) : c ≤ ∞ * ∫⁻ e, F e ∂μ := by
  rw [← lintegral_const_mul _ hF]
  calc c = ∫⁻ _, c ∂μ := by simp
    _ ≤ _ := lintegral_mono h

theorem atSet_off {α : Type} {Xs : Fin (N + 1) → α} {b i : Fin (N + 1)} (h : i ≠ b) (x : α) : atSet Xs b x i = Xs i := by
  simp [atSet, h]

end general

/-- What the kernels need of their resampling and of their last move. -/
structure ReachOK {N : ℕ} (resampling : Resampling Ex N) (mv : AncestorMove Ex N) (backward : Bool) : Prop where
  N : N ≠ 0
  off : backward = false → ∀ key w, IsProb w → (∀ i, 0 < w i) → ∀ i j l, l ≠ i → offspring (fun w i j => resampling key w i j true) w i j l ≠ 0
  move : ∃ a : ℝ≥0∞, a ≠ 0 ∧ ∀ key, MovesAway a (moveIndex mv key)

section csmc
variable {X P G : Type} [MeasurableSpace X] {N n : ℕ}

theorem csmc_reach (lam : Measure X) [SigmaFinite lam] (key : Key) {M : FK Ex X P G N} (hM : ProperFK lam M)
    (Mparams : Fin n → P) (Gparams : Fin n → G) {resampling : Resampling Ex N} {mv : AncestorMove Ex N}
    (hR : ∀ key, CondResampling (fun w i j => resampling key w i j true)) (hm : ∀ key, MoveKer (moveIndex mv key)) (backward : Bool)
    (hO : ReachOK resampling mv backward) (x : Fin (n + 1) → X) (b : Fin (n + 1) → Fin (N + 1)) {f : (Fin (n + 1) → X) → ℝ≥0∞} (hf : Measurable f) :
    ∫⁻ x, f x ∂(Measure.pi fun _ => lam) ≤ ∞ * ((csmc_kernel key x b M Mparams Gparams resampling mv backward true : Ex _) >>= fun r =>
      pure (r.xs, r.Bs)) (fun r => f r.1) := by
  obtain ⟨c0, c, hS⟩ := csmcDSys_OK (lam := lam) key Mparams Gparams hM hR
  have e := csmc_kernel_eq key M Mparams Gparams resampling mv backward
    (fun f => ∫⁻ x, ENNReal.ofReal (Real.exp (M.Gamma0 x)) * f x ∂lam)
    (fun t y f => ∫⁻ x, ENNReal.ofReal (Real.exp (M.Gammat y x (Gparams t))) * f x ∂lam)
    (tilt c0 (M.M0_rvs (splitKey key 3 0)))
    (fun t Y => tilt (c t) (M.Mt_rvs (splitKey (splitKey (splitKey key 3 1) n t) 2 0) Y (Mparams t))) x b
  rw [e]
  obtain ⟨a, ha, hmv⟩ := hO.move
  refine hS.kernel_reach hO.N ⟨fun b x i hi f hf => ?_, fun t Y b x i hi f hf => ?_⟩ (fun t => hM.Gammat_meas (Gparams t)) backward
    (fun hb t => hO.off hb _) (hm _) ha (hmv _) x b hf
  · obtain ⟨m, c, _, h⟩ := hM.init
    show _ ≤ ∞ * M.M0_rvs (splitKey key 3 0) fun Xs => f (atSet Xs b x i)
    simp only [atSet_off hi]
    exact (h _).reach i hf
  · obtain ⟨m, c, _, _, h⟩ := hM.step (Mparams t)
    show _ ≤ ∞ * M.Mt_rvs (splitKey (splitKey (splitKey key 3 1) n t) 2 0) Y (Mparams t) fun Xs => f (atSet Xs b x i)
    simp only [atSet_off hi]
    exact ((h _).2 Y).reach i hf

end csmc

section aux
variable {d N n : ℕ} {G : Type} {Gamma0 : Vec d → ℝ} {Gamma0_grad : Vec d → Vec d} {Gammat : Vec d → Vec d → G → ℝ}
  {Gammat_grad : Vec d → Vec d → G → Vec d} {ells : Fin (n + 1) → ℝ} {resampling : Resampling Ex N} {mv : AncestorMove Ex N}

theorem auxMk_reach {s : ℝ} (hs : 0 < s) (c x : Vec d) {b i : Fin (N + 1)} (hi : i ≠ b) {f : Vec d → ℝ≥0∞} (hf : Measurable f) :
    ∫⁻ x, f x ≤ ∞ * ∫⁻ e, f (auxMk s c e b x i) ∂auxNu N d := by
  have e1 : ∀ e, auxMk s c e b x i = fun j => c j + s * e.1 j + s * e.2 i j := fun e => by
    unfold auxMk
    rw [atSet_off hi]
  simp only [e1]
  unfold auxNu
  rw [lintegral_prod _ (by fun_prop)]
  refine reach_mixture (Measurable.lintegral_prod_right' (f := fun p : Vec d × (Fin (N + 1) → Vec d) => f fun j => c j + s * p.1 j + s * p.2 i j)
    (by fun_prop)) fun z => ?_
  exact (iso_samplesFrom (N := N) hs (fun j => c j + s * z j) []).reach i hf

theorem margSys_free {Γ0 : Vec d → ℝ} {Γ : Fin n → Vec d → Vec d → ℝ} {φ0 : Vec d → Vec d} {φ : Fin n → Vec d → Vec d → Vec d}
    {s : Fin (n + 1) → ℝ} {R : Fin n → (Fin (N + 1) → ℝ) → Fin (N + 1) → Fin (N + 1) → Ex (Anc N)} (hs : ∀ t, 0 < s t) :
    (margSys Γ0 Γ φ0 φ s R).Free id volume where
  q0 _ _ _ hi _ hf := auxMk_reach (hs 0) _ _ hi hf
  q t _ _ _ _ hi _ hf := auxMk_reach (hs t.succ) _ _ hi hf

theorem isoP_reach {s : ℝ} (hs : 0 < s) (u x : Vec d) {b i : Fin (N + 1)} (hi : i ≠ b) {f : Vec d → ℝ≥0∞} (hf : Measurable f) :
    ∫⁻ x, f x ≤ ∞ * isoP N [] s u fun Xs => f (atSet Xs b x i) := by
  simp only [atSet_off hi]
  exact (iso_samplesFrom hs u []).reach i hf

theorem rw_reach (key : Key) (Gparams : Fin n → G)
    (h0 : Measurable Gamma0) (h : ∀ g, Measurable fun p : Vec d × Vec d => Gammat p.1 p.2 g)
    (hells : ∀ t, 0 < ells t) (hR : ∀ key, CondResampling (fun w i j => resampling key w i j true))
    (hm : ∀ key, MoveKer (moveIndex mv key)) (backward : Bool) (hO : ReachOK resampling mv backward)
    (x : Fin (n + 1) → Vec d) (b : Fin (n + 1) → Fin (N + 1)) {f : (Fin (n + 1) → Vec d) → ℝ≥0∞} (hf : Measurable f) :
    ∫⁻ x, f x ∂(Measure.pi fun _ => volume) ≤ ∞ * ((rw_kernel (fun _ => true) key x b Gamma0 Gammat Gparams ells resampling mv backward : Ex _) >>=
      fun r => pure (r.xs, r.Bs)) (fun r => f r.1) := by
  obtain ⟨a, ha, hmv⟩ := hO.move
  rw [rw_kernel_eq key x b Gparams backward h0 h hells hR hm (fun r => f r.1) (by fun_prop)]
  exact (margSys_OK (R := auxR key resampling) (φ0 := fun _ => 0) (φ := fun _ _ _ => 0) (Γ := fun t y x => Gammat y x (Gparams t))
    h0 (fun t => h (Gparams t)) (by fun_prop) (fun t => by fun_prop) (auxStd_pos hells) (fun t => hR _)).kernel_reach hO.N
    (margSys_free (auxStd_pos hells)) (fun t => h (Gparams t)) backward (fun hb t => hO.off hb _) (hm _) ha (hmv _) x b hf

theorem l_reach (key : Key) (Gparams : Fin n → G) (deltas : Fin (n + 1) → ℝ)
    (h0 : Measurable Gamma0) (h : ∀ g, Measurable fun p : Vec d × Vec d => Gammat p.1 p.2 g)
    (hg0 : Measurable Gamma0_grad) (hg : ∀ g, Measurable fun p : Vec d × Vec d => Gammat_grad p.1 p.2 g)
    (hells : ∀ t, 0 < ells t) (hR : ∀ key, CondResampling (fun w i j => resampling key w i j true))
    (hm : ∀ key, MoveKer (moveIndex mv key)) (backward : Bool) (hO : ReachOK resampling mv backward)
    (x : Fin (n + 1) → Vec d) (b : Fin (n + 1) → Fin (N + 1)) {f : (Fin (n + 1) → Vec d) → ℝ≥0∞} (hf : Measurable f) :
    ∫⁻ x, f x ∂(Measure.pi fun _ => volume) ≤ ∞ * ((l_kernel key x b Gamma0 Gamma0_grad Gammat Gammat_grad Gparams ells deltas resampling mv backward :
      Ex _) >>= fun r => pure (r.xs, r.Bs)) (fun r => f r.1) := by
  obtain ⟨a, ha, hmv⟩ := hO.move
  rw [l_kernel_eq key x b Gparams deltas backward h0 h hg0 hg hells hR hm (fun r => f r.1) (by fun_prop)]
  exact (margSys_OK (R := auxR key resampling) (φ0 := fun x j => 0.5 * deltas 0 * Gamma0_grad x j)
    (φ := fun t y x j => 0.5 * deltas t.succ * Gammat_grad y x (Gparams t) j) (Γ := fun t y x => Gammat y x (Gparams t))
    h0 (fun t => h (Gparams t)) (by fun_prop) (fun t => by have := hg (Gparams t); fun_prop) (auxStd_pos hells) (fun t => hR _)).kernel_reach hO.N
    (margSys_free (auxStd_pos hells)) (fun t => h (Gparams t)) backward (fun hb t => hO.off hb _) (hm _) ha (hmv _) x b hf

/-- Mixtures of systems. -/
theorem mixture_reach {X E Θ : Type} [MeasurableSpace X] [MeasurableSpace E] [MeasurableSpace Θ] {μ : Measure E} [IsProbabilityMeasure μ]
    {lam : Measure X} [SigmaFinite lam]
    {S : Θ → Sys X N n} (hS : SysMeas S) (hOK : ∀ θ, (S θ).OK) (hF : ∀ θ, (S θ).Free id lam) {Γ : Θ → Fin n → X → X → ℝ}
    (hΓ : ∀ t, Measurable fun p : Θ × X × X => Γ p.1 t p.2.1 p.2.2)
    {move : (Fin (N + 1) → ℝ) → Fin (N + 1) → Ex (Fin (N + 1))} (hm : MoveKer move) {a : ℝ≥0∞} (ha : a ≠ 0) (hmove : MovesAway a move)
    (backward : Bool) (hN : N ≠ 0)
    (hoff : backward = false → ∀ θ t w, IsProb w → (∀ i, 0 < w i) → ∀ i j l, l ≠ i → offspring ((S θ).R t) w i j l ≠ 0)
    {c : E → Θ} (hc : Measurable c) (x : Fin (n + 1) → X) (b : Fin (n + 1) → Fin (N + 1)) {f : (Fin (n + 1) → X) → ℝ≥0∞} (hf : Measurable f) :
    ∫⁻ x, f x ∂(Measure.pi fun _ => lam) ≤ ∞ * ∫⁻ e, (S (c e)).kernel (Γ (c e)) move backward x b (fun r => f r.1) ∂μ := by
  refine reach_mixture ?_ fun e => (hOK (c e)).kernel_reach hN (hF _) (fun t => (hΓ t).comp (by fun_prop : Measurable fun p : X × X => (c e, p)))
    backward (fun hb => hoff hb (c e)) hm ha hmove x b hf
  exact ((hS.kernel_ker hΓ hm backward).comp (g := fun e : E => (c e, x, b)) (by fun_prop)).measurable' (f := fun r => f r.1) (by fun_prop)

theorem al_reach (key : Key) (Gparams : Fin n → G) (deltas : Fin (n + 1) → ℝ)
    (h0 : Measurable Gamma0) (h : ∀ g, Measurable fun p : Vec d × Vec d => Gammat p.1 p.2 g)
    (hg0 : Measurable Gamma0_grad) (hg : ∀ g, Measurable fun p : Vec d × Vec d => Gammat_grad p.1 p.2 g)
    (hells : ∀ t, 0 < ells t) (hR : ∀ key, CondResampling (fun w i j => resampling key w i j true))
    (hm : ∀ key, MoveKer (moveIndex mv key)) (backward : Bool) (hO : ReachOK resampling mv backward)
    (x : Fin (n + 1) → Vec d) (b : Fin (n + 1) → Fin (N + 1)) {f : (Fin (n + 1) → Vec d) → ℝ≥0∞} (hf : Measurable f) :
    ∫⁻ x, f x ∂(Measure.pi fun _ => volume) ≤ ∞ * ((al_kernel key x b Gamma0 Gamma0_grad Gammat Gammat_grad Gparams ells deltas resampling mv backward :
      Ex _) >>= fun r => pure (r.xs, r.Bs)) (fun r => f r.1) := by
  obtain ⟨a, ha, hmv⟩ := hO.move
  have hφ0 : Measurable fun (x : Vec d) (j : Fin d) => 0.5 * deltas 0 * Gamma0_grad x j := by fun_prop
  have hφ : ∀ t : Fin n, Measurable fun p : Vec d × Vec d => (fun j => 0.5 * deltas t.succ * Gammat_grad p.1 p.2 (Gparams t) j : Vec d) :=
    fun t => by have := hg (Gparams t); fun_prop
  have hΓ : ∀ t, Measurable fun p : Vec d × Vec d => Gammat p.1 p.2 (Gparams t) := fun t => h (Gparams t)
  have hcen := measurable_auxCenter (φ := fun t y x j => 0.5 * deltas t.succ * Gammat_grad y x (Gparams t) j) hφ0 hφ
  have hc : Measurable fun p : (Fin (n + 1) → Vec d) × (Fin (n + 1) → Vec d) => auxVars Gamma0_grad Gammat_grad Gparams deltas (auxStd ells) p.1 p.2 := by
    simp only [auxVars_center]; fun_prop
  rw [al_kernel_eq key x b Gparams deltas backward h0 h hg0 hg hells hR hm (fun r => f r.1) (by fun_prop)]
  exact mixture_reach (μ := Measure.pi fun _ : Fin (n + 1) => gaussM d)
    (alSys_meas (s := auxStd ells) (R := auxR key resampling) (Γ := fun t y x => Gammat y x (Gparams t))
      (φ := fun t y x j => 0.5 * deltas t.succ * Gammat_grad y x (Gparams t) j) h0 hΓ hφ0 hφ (fun t => hR _))
    (alSys_OK h0 hΓ hφ0 hφ (auxStd_pos hells) (fun t => hR _))
    (fun u => ⟨fun _ _ _ hi _ hf => isoP_reach (auxStd_pos hells 0) _ _ hi hf, fun t _ _ _ _ hi _ hf => isoP_reach (auxStd_pos hells t.succ) _ _ hi hf⟩)
    (Γ := augG (fun t y x => Gammat y x (Gparams t)) (fun t y x j => 0.5 * deltas t.succ * Gammat_grad y x (Gparams t) j) (auxStd ells))
    (fun t => measurable_augG hΓ hφ _ t (by fun_prop) (by fun_prop) (by fun_prop)) (hm _) ha (hmv _) backward hO.N (fun hb _ t => hO.off hb _)
    (c := auxVars Gamma0_grad Gammat_grad Gparams deltas (auxStd ells) x)
    (hc.comp (by fun_prop : Measurable fun e : Fin (n + 1) → Vec d => (x, e))) x b hf

end aux

section proposals
variable {d N n : ℕ} {MP RP : Type} {svd : Mat d d → SvdOut d} {M : GaussModel MP RP n d} {ells : Fin (n + 1) → ℝ}
  {resampling : Resampling Ex N} {mv : AncestorMove Ex N}

theorem gaussP_reach {L : Mat d d} (hL : L.det ≠ 0) (m : Fin (N + 1) → Vec d) (x : Vec d) {b i : Fin (N + 1)} (hi : i ≠ b) {f : Vec d → ℝ≥0∞}
    (hf : Measurable f) : ∫⁻ x, f x ≤ ∞ * gaussP N L m fun Xs => f (atSet Xs b x i) := by
  simp only [atSet_off hi]
  exact (gaussP_samplesFrom hL m).reach i hf

theorem tp_reach (h : ProposalOK svd M ells) (hM : GaussMeas M) (key : Key) (deltas : Fin (n + 1) → ℝ)
    (hR : ∀ key, CondResampling (fun w i j => resampling key w i j true))
    (hm : ∀ key, MoveKer (moveIndex mv key)) (backward : Bool) (hO : ReachOK resampling mv backward)
    (x : Fin (n + 1) → Vec d) (b : Fin (n + 1) → Fin (N + 1)) {f : (Fin (n + 1) → Vec d) → ℝ≥0∞} (hf : Measurable f) :
    ∫⁻ x, f x ∂(Measure.pi fun _ => volume) ≤
      ∞ * ((tp_csmc_kernel svd M key x b ells deltas resampling mv backward : Ex _) >>= fun r => pure (r.xs, r.Bs)) (fun r => f r.1) := by
  obtain ⟨a, ha, hmv⟩ := hO.move
  rw [tp_kernel_eq h hM key x b deltas hR hm backward (fun r => f r.1) (by fun_prop)]
  have hm' : ∀ (L : Mat d d) (m : Vec d → Fin (N + 1) → Vec d) (b : Fin (N + 1)) (x : Vec d) (i : Fin (N + 1)) (f : Vec d → ℝ≥0∞), L.det ≠ 0 →
      Measurable m → i ≠ b → Measurable f → ∫⁻ x, f x ≤ ∞ * ∫⁻ e, (gaussP N L (m e)) (fun Xs => f (atSet Xs b x i)) ∂gaussM d :=
    fun L m b x i f hL hmm hi hf => by
      refine reach_mixture ?_ fun e => gaussP_reach hL (m e) x hi hf
      have hk := (gaussP_ker (N := N) L).comp (g := m) hmm
      exact hk.measurable' (f := fun Xs => f (atSet Xs b x i)) (by fun_prop)
  refine (tpS_OK h hM key deltas hR).kernel_reach hO.N ⟨fun b x i hi f hf => ?_, fun t Y b x i hi f hf => ?_⟩ hM.gamma backward
    (fun hb t => hO.off hb _) (hm _) ha (hmv _) x b hf
  · exact hm' _ (fun e _ => _) b x i f (h.det 0) (by fun_prop) hi hf
  · exact hm' _ (fun e i => _) b x i f (h.det t.succ) (by fun_prop) hi hf

theorem atp_reach (h : ProposalOK svd M ells) (hM : GaussMeas M)
    (hex : ∀ t, (make_proposal svd M ells t).chol_invᵀ * (make_proposal svd M ells t).chol_inv =
      ((make_proposal svd M ells t).chol * (make_proposal svd M ells t).cholᵀ)⁻¹) (key : Key) (deltas : Fin (n + 1) → ℝ)
    (hR : ∀ key, CondResampling (fun w i j => resampling key w i j true))
    (hm : ∀ key, MoveKer (moveIndex mv key)) (backward : Bool) (hO : ReachOK resampling mv backward)
    (x : Fin (n + 1) → Vec d) (b : Fin (n + 1) → Fin (N + 1)) {f : (Fin (n + 1) → Vec d) → ℝ≥0∞} (hf : Measurable f) :
    ∫⁻ x, f x ∂(Measure.pi fun _ => volume) ≤
      ∞ * ((atp_kernel svd M key x b ells deltas resampling mv backward : Ex _) >>= fun r => pure (r.xs, r.Bs)) (fun r => f r.1) := by
  obtain ⟨a, ha, hmv⟩ := hO.move
  have hcen := measurable_auxCenter (hM.phi0 deltas) (hM.phi deltas)
  have hc : Measurable fun p : (Fin (n + 1) → Vec d) × (Fin (n + 1) → Vec d) => auxVars M.r0_grad M.rt_grad M.rt_params deltas (auxStd ells) p.1 p.2 := by
    simp only [auxVars_center]
    have : Measurable (auxCenter (fun x j => 0.5 * deltas 0 * M.r0_grad x j)
      (fun t y x j => 0.5 * deltas t.succ * M.rt_grad y x (M.rt_params t) j)) := hcen
    fun_prop
  rw [atp_kernel_eq h hex key x b deltas backward (fun r => f r.1)]
  refine mixture_reach (μ := Measure.pi fun _ : Fin (n + 1) => gaussM d)
    (atpSys_meas (N := N) (s := auxStd ells) (B := tpB svd M ells) (L := fun t => (make_proposal svd M ells t).chol)
      (d0 := M.mu0 - tpB svd M ells 0 *ᵥ M.mu0) (dt := tpD M (tpB svd M ells))
      (R := fun t w i j => resampling (splitKey (splitKey (splitKey (splitKey key 3 0) 3 1) n t) 2 1) w i j true)
      hM.gamma0 hM.gamma (hM.phi0 deltas) (hM.phi deltas) (hM.dt _) (fun t => hR _))
    (atpSys_OK hM.gamma0 hM.gamma (hM.phi0 deltas) (hM.phi deltas) (hM.dt _) h.det (fun t => hR _))
    (fun u => ⟨fun _ _ _ hi _ hf => gaussP_reach (h.det 0) _ _ hi hf, fun t _ _ _ _ hi _ hf => gaussP_reach (h.det t.succ) _ _ hi hf⟩)
    (Γ := augG (tpGam M) (tpPhi M deltas) (auxStd ells))
    (fun t => measurable_augG hM.gamma (hM.phi deltas) _ t (by fun_prop) (by fun_prop) (by fun_prop))
    (hm (atpMoveKey key n backward)) ha (hmv _) backward hO.N (fun hb _ t => hO.off hb _)
    (c := auxVars M.r0_grad M.rt_grad M.rt_params deltas (auxStd ells) x)
    (hc.comp (by fun_prop : Measurable fun e : Fin (n + 1) → Vec d => (x, e))) x b hf

theorem t_reach {r : RevDyn n d} {M : LinModel RP n d} (hM : LinMeas M) (hT : r.PT.PosDef) (hQ : ∀ t, (r.Qs t).PosDef)
    (hells : ∀ t, 0 < ells t) (key : Key) (deltas : Fin (n + 1) → ℝ)
    (hR : ∀ key, CondResampling (fun w i j => resampling key w i j true))
    (hm : ∀ key, MoveKer (moveIndex mv key)) (backward : Bool) (hO : ReachOK resampling mv backward)
    (x : Fin (n + 1) → Vec d) (b : Fin (n + 1) → Fin (N + 1)) {f : (Fin (n + 1) → Vec d) → ℝ≥0∞} (hf : Measurable f) :
    ∫⁻ x, f x ∂(Measure.pi fun _ => volume) ≤
      ∞ * ((t_atp_kernel_rev r M key x b ells deltas resampling mv backward : Ex _) >>= fun r => pure (r.xs, r.Bs)) (fun r => f r.1) := by
  obtain ⟨a, ha, hmv⟩ := hO.move
  have hcen : Measurable (tCenter M deltas) := by
    have h0' := hM.r0_grad
    refine measurable_auxCenter (by unfold tlPhi0; fun_prop) fun t => ?_
    have := hM.rt_grad t
    unfold tlPhi
    fun_prop
  have hG := tG_meas deltas hM hT hQ hells
  have hdet := tL_det hT hQ hells
  have hc : Measurable fun p : (Fin (n + 1) → Vec d) × (Fin (n + 1) → Vec d) => auxVars M.r0_grad M.rt_grad M.rt_params deltas (auxStd ells) p.1 p.2 := by
    simp only [auxVars_center]
    have : Measurable (auxCenter (fun x j => 0.5 * deltas 0 * M.r0_grad x j)
      (fun t y x j => 0.5 * deltas t.succ * M.rt_grad y x (M.rt_params t) j)) := hcen
    fun_prop
  rw [t_kernel_eq hT hQ hells key x b deltas backward (fun r => f r.1)]
  refine mixture_reach (μ := Measure.pi fun _ : Fin (n + 1) => gaussM d)
    (gSys_meas (L := tL r ells) (N := N)
      (R := fun t w i j => resampling (splitKey (splitKey (splitKey (splitKey key 3 0) 3 1) n t) 2 1) w i j true) hG (fun t => hR _))
    (gSys_OK hG hdet (fun t => hR _))
    (fun u => ⟨fun _ _ _ hi _ hf => gaussP_reach (hdet 0) _ _ hi hf, fun t _ _ _ _ hi _ hf => gaussP_reach (hdet t.succ) _ _ hi hf⟩)
    (Γ := tG r M ells deltas) (fun t => hG.inc t)
    (hm (atpMoveKey key n backward)) ha (hmv _) backward hO.N (fun hb _ t => hO.off hb _)
    (c := auxVars M.r0_grad M.rt_grad M.rt_params deltas (auxStd ells) x)
    (hc.comp (by fun_prop : Measurable fun e : Fin (n + 1) → Vec d => (x, e))) x b hf

end proposals

section second
variable {d N n : ℕ} {G : Type} {Gamma0 : Vec d → ℝ} {Gamma0_grad : Vec d → Vec d} {Gammat : Vec d → Vec d → G → ℝ}
  {Gammat_grad0 Gammat_grad1 : Vec d → Vec d → G → Vec d} {ells : Fin (n + 3) → ℝ} {resampling : Resampling Ex N}
  {mv : AncestorMove Ex N}

theorem als_reach (key : Key) (Gparams : Fin (n + 2) → G) (deltas : Fin (n + 3) → ℝ)
    (h0 : Measurable Gamma0) (h : ∀ g, Measurable fun p : Vec d × Vec d => Gammat p.1 p.2 g)
    (hg : Measurable Gamma0_grad) (hg0 : ∀ g, Measurable fun p : Vec d × Vec d => Gammat_grad0 p.1 p.2 g)
    (hg1 : ∀ g, Measurable fun p : Vec d × Vec d => Gammat_grad1 p.1 p.2 g)
    (hells : ∀ t, 0 < ells t) (hR : ∀ key, CondResampling (fun w i j => resampling key w i j true))
    (hm : ∀ key, MoveKer (moveIndex mv key)) (backward : Bool) (φ : AlsFwd N n d → AlsFwd N n d)
    (hφ : ∀ F, (φ F).xs = F.xs ∧ (φ F).As = F.As ∧ (φ F).log_ws = F.log_ws)
    (hp : backward = true → ParentsOK Gammat Gammat_grad0 Gammat_grad1 Gparams ells deltas φ) (hO : ReachOK resampling mv backward)
    (x : Fin (n + 3) → Vec d) (b : Fin (n + 3) → Fin (N + 1)) {f : (Fin (n + 3) → Vec d) → ℝ≥0∞} (hf : Measurable f) :
    ∫⁻ x, f x ∂(Measure.pi fun _ => volume) ≤ ∞ * als_kernelF φ key x b Gamma0 Gamma0_grad Gammat
      Gammat_grad0 Gammat_grad1 Gparams ells deltas resampling mv backward (fun r => f r.1) := by
  obtain ⟨a, ha, hmv⟩ := hO.move
  have ha0 : Measurable (alsA0 Gamma0_grad deltas) := by unfold alsA0; fun_prop
  have haa : ∀ t, Measurable fun p : Vec d × Vec d => alsA Gammat_grad1 Gparams deltas t p.1 p.2 := fun t => by
    have := hg1 (Gparams t)
    unfold alsA
    fun_prop
  have hc : ∀ t, Measurable fun p : Vec d × Vec d => alsC Gammat_grad0 Gparams deltas t p.1 p.2 := fun t => by
    have := hg0 (Gparams t)
    unfold alsC
    fun_prop
  have hRt : ∀ t, CondResampling (auxR (n := n + 2) key resampling t) := fun t => hR _
  have hb : ∀ t, Measurable fun p : Vec d × Vec d => Gammat p.1 p.2 (Gparams t) := fun t => h (Gparams t)
  have hS := alsSys_meas (N := N) (s := auxStd ells) (Γ := fun t y x => Gammat y x (Gparams t)) h0 hb ha0 haa hc hRt
  have hΓ : ∀ t, Measurable fun p : (Fin (n + 3) → Vec d) × (Vec d × Vec d) × Vec d =>
      s2G (fun t y x => Gammat y x (Gparams t)) (alsA0 Gamma0_grad deltas) (alsA Gammat_grad1 Gparams deltas)
        (alsC Gammat_grad0 Gparams deltas) (auxStd ells) p.1 t p.2.1 p.2.2 := fun t =>
    measurable_s2G hb ha0 haa hc _ t (by fun_prop) (by fun_prop) (by fun_prop)
  rw [als_kernel_eq key x b Gparams deltas backward h0 h hg hg0 hg1 hells hR hm φ hφ hp (fun r => f r.1) (by fun_prop)]
  refine reach_mixture ?_ fun e => ?_
  · exact ((hS.kernel2_ker 0 hΓ (hm _) backward).comp (g := fun e : Fin (n + 3) → Vec d => ((fun t j => s2Center (alsA0 Gamma0_grad deltas)
      (alsA Gammat_grad1 Gparams deltas) (alsC Gammat_grad0 Gparams deltas) x t j + auxStd ells t * e t j), x, b)) (by fun_prop)).measurable'
      (f := fun r => f r.1) (by fun_prop)
  · exact (alsSys_OK h0 hb ha0 haa hc (auxStd_pos hells) hRt _).kernel2_reach hO.N
      ⟨fun _ _ _ hi _ hf => isoP_reach (auxStd_pos hells 0) _ _ hi hf, fun t _ _ _ _ hi _ hf => isoP_reach (auxStd_pos hells t.succ) _ _ hi hf⟩
      (fun t => measurable_s2G hb ha0 haa hc _ t measurable_const (by fun_prop) (by fun_prop)) backward (fun hb t => hO.off hb _) (hm _) ha (hmv _) 0 x b hf

end second

end Verif
