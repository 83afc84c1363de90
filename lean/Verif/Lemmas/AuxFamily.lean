import Verif.Lemmas.AuxPass
import Verif.Lemmas.IsoGauss

/-!
# Kernels that draw an auxiliary variable and then run a conditional particle system given it
-/

open scoped ENNReal
open MeasureTheory ProbabilityTheory

namespace Verif
open Verif.Spec Verif.Model

/-- A mixture over an auxiliary variable `θ` with conditional log-density `q x θ` of kernels that leave the joint
law of trajectory and auxiliary variable invariant. -/
theorem leavesInvariant_mixture {X Θ : Type} [MeasurableSpace X] [MeasurableSpace Θ] {N n : ℕ} {μ : Measure Θ}
    [SFinite μ] {lam : Measure X} [SigmaFinite lam] {logpi : (Fin (n + 1) → X) → ℝ} (hlp : Measurable logpi)
    {q : (Fin (n + 1) → X) → Θ → ℝ} (hq : Measurable fun p : (Fin (n + 1) → X) × Θ => q p.1 p.2)
    (hq1 : ∀ x, ∫⁻ θ, ENNReal.ofReal (Real.exp (q x θ)) ∂μ = 1)
    {Kθ : Θ → (Fin (n + 1) → X) → (Fin (n + 1) → Fin (N + 1)) →
      Ex ((Fin (n + 1) → X) × (Fin (n + 1) → Fin (N + 1)))}
    (hK : IsKer (fun p : Θ × (Fin (n + 1) → X) × (Fin (n + 1) → Fin (N + 1)) => Kθ p.1 p.2.1 p.2.2))
    (hinv : ∀ θ, LeavesInvariant lam (fun x => logpi x + q x θ) (Kθ θ))
    {K : (Fin (n + 1) → X) → (Fin (n + 1) → Fin (N + 1)) →
      Ex ((Fin (n + 1) → X) × (Fin (n + 1) → Fin (N + 1)))}
    (hKeq : ∀ x b f, Measurable f → K x b f = ∫⁻ θ, ENNReal.ofReal (Real.exp (q x θ)) * Kθ θ x b f ∂μ) :
    LeavesInvariant lam logpi K := by
  intro f hf
  have hKm : ∀ b, Measurable fun p : (Fin (n + 1) → X) × Θ => Kθ p.2 p.1 b f := fun b =>
    (hK.measurable' hf).comp (by fun_prop : Measurable fun p : (Fin (n + 1) → X) × Θ => (p.2, p.1, b))
  have hlq : Measurable fun p : (Fin (n + 1) → X) × Θ => logpi p.1 + q p.1 p.2 := by fun_prop
  have h1 : ∀ b, ∫⁻ x, ENNReal.ofReal (Real.exp (logpi x)) * K x b f ∂(Measure.pi fun _ => lam) =
      ∫⁻ θ, ∫⁻ x, ENNReal.ofReal (Real.exp (logpi x + q x θ)) * Kθ θ x b f ∂(Measure.pi fun _ => lam) ∂μ := by
    intro b
    have e : ∀ x, ENNReal.ofReal (Real.exp (logpi x)) * K x b f =
        ∫⁻ θ, ENNReal.ofReal (Real.exp (logpi x + q x θ)) * Kθ θ x b f ∂μ := by
      intro x
      have hm : Measurable fun θ => ENNReal.ofReal (Real.exp (q x θ)) * Kθ θ x b f :=
        measurable_expR_mul (hq.comp (by fun_prop : Measurable fun θ : Θ => (x, θ)))
          ((hKm b).comp (by fun_prop : Measurable fun θ : Θ => (x, θ)))
      rw [hKeq x b f hf, ← lintegral_const_mul _ hm]
      refine lintegral_congr fun θ => ?_
      rw [ofReal_exp_add, mul_assoc]
    simp only [e]
    exact lintegral_lintegral_swap (measurable_expR_mul hlq (hKm b)).aemeasurable
  have hfm : ∀ b, Measurable fun p : (Fin (n + 1) → X) × Θ => f (p.1, b) := fun b => by fun_prop
  have h2 : ∀ b, ∫⁻ x, ENNReal.ofReal (Real.exp (logpi x)) * f (x, b) ∂(Measure.pi fun _ => lam) =
      ∫⁻ θ, ∫⁻ x, ENNReal.ofReal (Real.exp (logpi x + q x θ)) * f (x, b) ∂(Measure.pi fun _ => lam) ∂μ := by
    intro b
    rw [← lintegral_lintegral_swap (measurable_expR_mul hlq (hfm b)).aemeasurable]
    refine lintegral_congr fun x => ?_
    have hm : Measurable fun θ => ENNReal.ofReal (Real.exp (q x θ)) :=
      measurable_expR (hq.comp (by fun_prop : Measurable fun θ : Θ => (x, θ)))
    have : ∀ θ, ENNReal.ofReal (Real.exp (logpi x + q x θ)) * f (x, b) =
        ENNReal.ofReal (Real.exp (logpi x)) * f (x, b) * ENNReal.ofReal (Real.exp (q x θ)) := fun θ => by
      rw [ofReal_exp_add]; ring
    simp only [this]
    rw [lintegral_const_mul _ hm, hq1, mul_one]
  simp only [h1, h2]
  have hm1 : ∀ b ∈ (Finset.univ : Finset (Fin (n + 1) → Fin (N + 1))), Measurable fun θ =>
      ∫⁻ x, ENNReal.ofReal (Real.exp (logpi x + q x θ)) * Kθ θ x b f ∂(Measure.pi fun _ => lam) := fun b _ =>
    (measurable_expR_mul hlq (hKm b)).lintegral_prod_left'
  have hm2 : ∀ b ∈ (Finset.univ : Finset (Fin (n + 1) → Fin (N + 1))), Measurable fun θ =>
      ∫⁻ x, ENNReal.ofReal (Real.exp (logpi x + q x θ)) * f (x, b) ∂(Measure.pi fun _ => lam) := fun b _ =>
    (measurable_expR_mul hlq (hfm b)).lintegral_prod_left'
  rw [← lintegral_finsetSum _ hm1, ← lintegral_finsetSum _ hm2]
  exact lintegral_congr fun θ => hinv θ f hf

/-- The backward sampling kernel does not see additive constants of the transition log-densities. -/
theorem Sys.bs_congr_const {X : Type} {N n : ℕ} (S : Sys X N n) {Γ Γ' : Fin n → X → X → ℝ}
    (h : ∀ t x, ∃ c, ∀ y, Γ t y x = Γ' t y x + c) (k : Hist X N n) (i : Fin (N + 1)) :
    S.bs Γ k i = S.bs Γ' k i := by
  induction n generalizing i with
  | zero => rfl
  | succ n ih =>
    have e1 : normalizeW (fun j => S.init.lwLast k.init j + Γ (Fin.last n) (lastA k.init.2 j) (lastA k.2 i)) =
        normalizeW (fun j => S.init.lwLast k.init j + Γ' (Fin.last n) (lastA k.init.2 j) (lastA k.2 i)) := by
      obtain ⟨c, hc⟩ := h (Fin.last n) (lastA k.2 i)
      refine normalize_congr_const ⟨c, fun j => ?_⟩
      rw [hc]; ring
    have e2 := fun j => ih S.init (Γ := initA Γ) (Γ' := initA Γ') (fun t x => h t.castSucc x) k.init j
    show (choice [] (normalizeW (fun j => S.init.lwLast k.init j + Γ (Fin.last n) (lastA k.init.2 j) (lastA k.2 i)))
      >>= fun j => S.init.bs (initA Γ) k.init j >>= _) = (choice [] (normalizeW (fun j => S.init.lwLast k.init j +
        Γ' (Fin.last n) (lastA k.init.2 j) (lastA k.2 i))) >>= fun j => S.init.bs (initA Γ') k.init j >>= _)
    rw [e1]
    simp only [e2]

theorem Sys.kernel_congr_const {X : Type} {N n : ℕ} (S : Sys X N n) {Γ Γ' : Fin n → X → X → ℝ}
    (h : ∀ t x, ∃ c, ∀ y, Γ t y x = Γ' t y x + c)
    (move : (Fin (N + 1) → ℝ) → Fin (N + 1) → Ex (Fin (N + 1))) (backward : Bool) :
    S.kernel Γ move backward = S.kernel Γ' move backward := by
  funext x b
  unfold Sys.kernel
  simp only [S.bs_congr_const h]

variable {N n d : ℕ}

/-- Independent isotropic Gaussians. -/
theorem iso_pi_law {k : ℕ} {s : Fin k → ℝ} (hs : ∀ t, 0 < s t) (m : Fin k → Vec d)
    (F : (Fin k → Vec d) → ℝ≥0∞) (hF : Measurable F) :
    ∫⁻ e, F (fun t j => m t j + s t * e t j) ∂(Measure.pi fun _ : Fin k => gaussM d) =
      ∫⁻ u, ENNReal.ofReal (Real.exp (∑ t, isoLogpdf (s t) (m t) (u t))) * F u ∂(Measure.pi fun _ => volume) := by
  have h1 : ∀ t, (gaussM d).map (fun z j => m t j + s t * z j) = volume.withDensity fun x =>
      ENNReal.ofReal (Real.exp (isoLogpdf (s t) (m t) x)) := by
    intro t
    refine Measure.ext_of_lintegral _ fun F hF => ?_
    rw [lintegral_map hF (by fun_prop), iso_law (hs t) (m t) F hF, lintegral_withDensity_exp (by fun_prop) hF]
  have : ∀ t, SigmaFinite ((gaussM d).map (fun z j => m t j + s t * z j)) := fun t => by
    rw [h1]; infer_instance
  have h := Measure.pi_map_pi (μ := fun _ : Fin k => gaussM d) (f := fun t z j => m t j + s t * z j)
    (fun i => (by fun_prop : Measurable fun (z : Vec d) j => m i j + s i * z j).aemeasurable)
  simp only [h1] at h
  rw [← lintegral_pi_withDensity (fun _ => volume) (fun t => isoLogpdf (s t) (m t)) (fun t => by fun_prop) F hF, ← h,
    lintegral_map hF (by fun_prop)]

/-- Centres of the auxiliary variables given the trajectory. -/
def auxCenter (φ0 : Vec d → Vec d) (φ : Fin n → Vec d → Vec d → Vec d) (x : Fin (n + 1) → Vec d) :
    Fin (n + 1) → Vec d :=
  insert0 (x 0 + φ0 (x 0)) (fun t => x t.succ + φ t (x t.castSucc) (x t.succ))

theorem measurable_auxCenter {φ0 : Vec d → Vec d} {φ : Fin n → Vec d → Vec d → Vec d} (h0 : Measurable φ0)
    (h : ∀ t, Measurable fun p : Vec d × Vec d => φ t p.1 p.2) : Measurable (auxCenter φ0 φ) := by
  refine measurable_pi_lambda _ fun t => ?_
  refine Fin.cases ?_ (fun t => ?_) t
  · show Measurable fun x : Fin (n + 1) → Vec d => x 0 + φ0 (x 0)
    fun_prop
  · have : Measurable fun x : Fin (n + 1) → Vec d => φ t (x t.castSucc) (x t.succ) :=
      (h t).comp (by fun_prop : Measurable fun x : Fin (n + 1) → Vec d => (x t.castSucc, x t.succ))
    show Measurable fun x : Fin (n + 1) → Vec d => x t.succ + φ t (x t.castSucc) (x t.succ)
    fun_prop

/-- The target given the auxiliary variables: initial part and transitions. -/
noncomputable def augG0 (Γ0 : Vec d → ℝ) (φ0 : Vec d → Vec d) (s : Fin (n + 1) → ℝ)
    (u : Fin (n + 1) → Vec d) (x : Vec d) : ℝ :=
  Γ0 x + isoLogpdf (s 0) (x + φ0 x) (u 0)

@[inherit_doc augG0]
noncomputable def augG (Γ : Fin n → Vec d → Vec d → ℝ) (φ : Fin n → Vec d → Vec d → Vec d) (s : Fin (n + 1) → ℝ)
    (u : Fin (n + 1) → Vec d) (t : Fin n) (y x : Vec d) : ℝ :=
  Γ t y x + isoLogpdf (s t.succ) (x + φ t y x) (u t.succ)

theorem pathLogDensity_aug (Γ0 : Vec d → ℝ) (φ0 : Vec d → Vec d) (Γ : Fin n → Vec d → Vec d → ℝ)
    (φ : Fin n → Vec d → Vec d → Vec d) (s : Fin (n + 1) → ℝ) (u : Fin (n + 1) → Vec d) (x : Fin (n + 1) → Vec d) :
    pathLogDensity (augG0 Γ0 φ0 s u) (augG Γ φ s u) x =
      pathLogDensity Γ0 Γ x + ∑ t, isoLogpdf (s t) (auxCenter φ0 φ x t) (u t) := by
  unfold pathLogDensity augG0 augG
  rw [Fin.sum_univ_succ (f := fun t => isoLogpdf (s t) (auxCenter φ0 φ x t) (u t)), Finset.sum_add_distrib]
  simp only [auxCenter, insert0_zero, insert0_succ]
  ring

@[fun_prop] theorem measurable_augG0 {Γ0 : Vec d → ℝ} {φ0 : Vec d → Vec d} (h0 : Measurable Γ0) (hφ0 : Measurable φ0)
    (s : Fin (n + 1) → ℝ) {β : Type} [MeasurableSpace β] {u : β → Fin (n + 1) → Vec d} {x : β → Vec d}
    (hu : Measurable u) (hx : Measurable x) : Measurable fun p => augG0 Γ0 φ0 s (u p) (x p) := by
  unfold augG0
  fun_prop

theorem measurable_augG {Γ : Fin n → Vec d → Vec d → ℝ} {φ : Fin n → Vec d → Vec d → Vec d}
    (h : ∀ t, Measurable fun p : Vec d × Vec d => Γ t p.1 p.2)
    (hφ : ∀ t, Measurable fun p : Vec d × Vec d => φ t p.1 p.2) (s : Fin (n + 1) → ℝ) (t : Fin n) {β : Type}
    [MeasurableSpace β] {u : β → Fin (n + 1) → Vec d} {y x : β → Vec d} (hu : Measurable u) (hy : Measurable y)
    (hx : Measurable x) : Measurable fun p => augG Γ φ s (u p) t (y p) (x p) := by
  have e1 : Measurable fun p => Γ t (y p) (x p) := (h t).comp (hy.prodMk hx)
  have e2 : Measurable fun p => φ t (y p) (x p) := (hφ t).comp (hy.prodMk hx)
  unfold augG
  fun_prop

/-- A kernel that draws auxiliary variables `u_t` around `x_t + φ_t(x_{t-1}, x_t)`, and then runs a conditional
particle system targeting the law given `u`. -/
theorem aux_mixture {Γ0 : Vec d → ℝ} {Γ : Fin n → Vec d → Vec d → ℝ} {φ0 : Vec d → Vec d}
    {φ : Fin n → Vec d → Vec d → Vec d} {s : Fin (n + 1) → ℝ}
    (h0 : Measurable Γ0) (h : ∀ t, Measurable fun p : Vec d × Vec d => Γ t p.1 p.2)
    (hφ0 : Measurable φ0) (hφ : ∀ t, Measurable fun p : Vec d × Vec d => φ t p.1 p.2) (hs : ∀ t, 0 < s t)
    {S : (Fin (n + 1) → Vec d) → Sys (Vec d) N n} (hOK : ∀ u, (S u).OK) (hM : SysMeas S)
    (hG0 : ∀ u f, Measurable f → (S u).G0 f = ∫⁻ x, ENNReal.ofReal (Real.exp (augG0 Γ0 φ0 s u x)) * f x)
    (hG : ∀ u t y f, Measurable f → (S u).G t y f = ∫⁻ x, ENNReal.ofReal (Real.exp (augG Γ φ s u t y x)) * f x)
    {move : (Fin (N + 1) → ℝ) → Fin (N + 1) → Ex (Fin (N + 1))} (hm : MoveInvariant move) (backward : Bool)
    {K : (Fin (n + 1) → Vec d) → (Fin (n + 1) → Fin (N + 1)) →
      Ex ((Fin (n + 1) → Vec d) × (Fin (n + 1) → Fin (N + 1)))}
    (hK : ∀ x b f, Measurable f → K x b f = ∫⁻ e, (S (fun t j => auxCenter φ0 φ x t j + s t * e t j)).kernel
      (augG Γ φ s (fun t j => auxCenter φ0 φ x t j + s t * e t j)) move backward x b f
        ∂(Measure.pi fun _ : Fin (n + 1) => gaussM d)) :
    LeavesInvariant volume (pathLogDensity Γ0 Γ) K := by
  have hc := measurable_auxCenter hφ0 hφ
  have hq : Measurable fun p : (Fin (n + 1) → Vec d) × (Fin (n + 1) → Vec d) =>
      ∑ t, isoLogpdf (s t) (auxCenter φ0 φ p.1 t) (p.2 t) :=
    Finset.measurable_fun_sum _ fun t _ => by fun_prop
  have hker := hM.kernel_ker (Γ := fun u => augG Γ φ s u)
    (fun t => measurable_augG h hφ s t (by fun_prop) (by fun_prop) (by fun_prop)) hm.ker backward
  refine leavesInvariant_mixture (μ := Measure.pi fun _ : Fin (n + 1) => (volume : Measure (Vec d)))
    (measurable_pathLogDensity h0 h) (q := fun x u => ∑ t, isoLogpdf (s t) (auxCenter φ0 φ x t) (u t)) hq ?_
    (Kθ := fun u => (S u).kernel (augG Γ φ s u) move backward) hker ?_ ?_
  · intro x
    have := iso_pi_law hs (auxCenter φ0 φ x) (fun _ => 1) measurable_const
    simpa using this.symm
  · intro u
    have := (hOK u).kernel_invariant (lam := volume) (Γ0 := augG0 Γ0 φ0 s u) (Γ := augG Γ φ s u) (by fun_prop)
      (hG0 u) ⟨fun t => measurable_augG h hφ s t measurable_const (by fun_prop) (by fun_prop), hG u⟩ hm backward
    have e : (fun x => pathLogDensity Γ0 Γ x + ∑ t, isoLogpdf (s t) (auxCenter φ0 φ x t) (u t)) =
        pathLogDensity (augG0 Γ0 φ0 s u) (augG Γ φ s u) := by
      funext x; rw [pathLogDensity_aug]
    rw [e]
    exact this
  · intro x b f hf
    rw [hK x b f hf]
    exact iso_pi_law hs (auxCenter φ0 φ x) (fun u => (S u).kernel (augG Γ φ s u) move backward x b f)
      ((hker.measurable' hf).comp (by fun_prop : Measurable fun u : Fin (n + 1) → Vec d => (u, x, b)))

end Verif
