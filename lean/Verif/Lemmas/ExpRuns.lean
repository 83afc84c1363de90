import Verif.Lemmas.Replicates
import Verif.Lemmas.MarkovKernels
import Verif.Props.ExpMultiTry

/-!
# The steps of the `lgssm_scaling` experiment
-/

open scoped ENNReal
open MeasureTheory

namespace Verif
open Verif.Model Verif.Spec Verif.Props Matrix

variable {N n d : ℕ}

/-- One step from `init x`, its trajectory kept. -/
def jumpStep {T : ℕ} (K : KernelPair Ex T d) (DELTA : StepSize T) (key : Key) (x : Traj T d) : Ex (Traj T d) := do
  let s ← K.kernel key (K.init x) DELTA
  pure (K.xs s)

/-- A pair whose step from `init x` keeps the law `π` of `x` up to `ε`. -/
structure PairOK {T : ℕ} (ε : ℝ≥0∞) (π : Measure (Traj T d)) (K : KernelPair Ex T d) (DELTA : StepSize T) : Prop where
  xs_init : ∀ x, K.xs (K.init x) = x
  ker : ∀ key, IsKer (jumpStep K DELTA key)
  mass : ∀ key x, jumpStep K DELTA key x (fun _ => 1) = 1
  key_free : ∀ key key' x f, Measurable f → jumpStep K DELTA key x f = jumpStep K DELTA key' x f
  near : ∀ key, NearStationary ε π (jumpStep K DELTA key)

/-- Resampling and last move. -/
structure SelOK (ε : ℝ≥0∞) (resampling : Resampling Ex N) (mv : AncestorMove Ex N) : Prop where
  cond : GoodResampling resampling
  rotR : ∀ key, RotResampling (fun w i j => resampling key w i j true)
  keyR : ∀ key key', resampling key = resampling key'
  ker : ∀ key, MoveKer (moveIndex mv key)
  mass : ∀ key, MoveMass (moveIndex mv key)
  rot : ∀ key, RotMove (moveIndex mv key)
  key : ∀ key key', mv key = mv key'
  near : (GoodMove mv ∧ ε = 0) ∨ (mv = forced ∧ ε = forceErr)

/-- What is needed of a conditional SMC kernel. -/
structure CsmcOK (ε : ℝ≥0∞) (l : (Fin (n + 1) → Vec d) → ℝ) (K : Key → (Fin (n + 1) → Vec d) → (Fin (n + 1) → Fin (N + 1)) →
    Ex ((Fin (n + 1) → Vec d) × (Fin (n + 1) → Fin (N + 1)))) : Prop where
  markov : ∀ key, MarkovStep (K key)
  relabels : ∀ key, Relabels (K key)
  free : ∀ key key' x b f, Measurable f → K key x b f = K key' x b f
  near : ∀ key, LeavesNearInvariant ε volume l (K key)

theorem CsmcOK.pair {ε : ℝ≥0∞} {l : (Fin (n + 1) → Vec d) → ℝ}
    {kernel : Key → (Fin (n + 1) → Vec d) → (Fin (n + 1) → Fin (N + 1)) → (Fin (n + 1) → ℝ) →
      Ex ((Fin (n + 1) → Vec d) × (Fin (n + 1) → Fin (N + 1)))} {DELTA : StepSize (n + 1)}
    (h : CsmcOK ε l fun key x b => kernel key x b DELTA.at) (hl : Measurable l)
    (hZ : ∫⁻ x, ENNReal.ofReal (Real.exp (l x)) ∂trajVol (n + 1) d ≠ 0 ∧
      ∫⁻ x, ENNReal.ofReal (Real.exp (l x)) ∂trajVol (n + 1) d ≠ ∞) :
    PairOK ε (lawOf (trajVol (n + 1) d) l) (csmcPair kernel) DELTA := by
  have hk : ∀ key, IsKer (jumpStep (csmcPair kernel) DELTA key) := fun key =>
    IsKer.bind (P := fun x : Fin (n + 1) → Vec d => kernel key x (fun _ => 0) DELTA.at) (F := fun _ r => pure r.1)
      ((h.markov key).ker.comp (g := fun x => (x, fun _ => 0)) (by fun_prop)) (IsKer.pure (by fun_prop))
  exact
    { xs_init := fun _ => rfl
      ker := hk
      mass := fun key x => (h.markov key).mass x fun _ => 0
      key_free := fun key key' x f hf => h.free key key' x (fun _ => 0) (fun r => f r.1) (by fun_prop)
      near := fun key => nearStationary_lawOf (hk key) hl hZ ((h.relabels key).nearInvariant (h.near key) fun _ => 0) }

/-- A multi-try kernel. -/
theorem statePair_ok {T : ℕ} {ε : ℝ≥0∞} {l : Traj T d → ℝ} {K : KernelPair Ex T d} [MeasurableSpace K.S] {DELTA : StepSize T}
    (hx : ∀ x, K.xs (K.init x) = x) (hxs : Measurable K.xs) (hin : Measurable K.init)
    (hk : ∀ key, IsKer fun s => K.kernel key s DELTA) (hm : ∀ key s, K.kernel key s DELTA (fun _ => 1) = 1)
    (hf : ∀ key key' s, K.kernel key s DELTA = K.kernel key' s DELTA) (hl : Measurable l)
    (hZ : ∫⁻ x, ENNReal.ofReal (Real.exp (l x)) ∂trajVol T d ≠ 0 ∧
      ∫⁻ x, ENNReal.ofReal (Real.exp (l x)) ∂trajVol T d ≠ ∞)
    (hn : ∀ key, StateNearInvariant ε (trajVol T d) l K.init fun s => K.kernel key s DELTA) :
    PairOK ε (lawOf (trajVol T d) l) K DELTA := by
  have hk' : ∀ key, IsKer (jumpStep K DELTA key) := fun key =>
    IsKer.bind (P := fun x => K.kernel key (K.init x) DELTA) (F := fun _ r => pure (K.xs r))
      ((hk key).comp hin) (IsKer.pure (by fun_prop))
  exact
    { xs_init := hx
      ker := hk'
      mass := fun key x => hm key _
      key_free := fun key key' x f _ => congrFun (hf key key' (K.init x)) fun s => f (K.xs s)
      near := fun key => nearStationary_lawOf (hk' key) hl hZ (fun f hf hf1 => by
        have := hn key (fun s => f (K.xs s)) (by fun_prop) fun s => hf1 _
        simp only [hx] at this
        exact this) }

/-- The same with the components given separately. -/
theorem statePair_ok' {T : ℕ} {ε : ℝ≥0∞} {l : Traj T d → ℝ} {S : Type} [MeasurableSpace S] {xs : S → Traj T d}
    {kern : Key → S → StepSize T → Ex S} {init : Traj T d → S} {DELTA : StepSize T}
    (hx : ∀ x, xs (init x) = x) (hxs : Measurable xs) (hin : Measurable init)
    (hk : ∀ key, IsKer fun s => kern key s DELTA) (hm : ∀ key s, kern key s DELTA (fun _ => 1) = 1)
    (hf : ∀ key key' s, kern key s DELTA = kern key' s DELTA) (hl : Measurable l)
    (hZ : ∫⁻ x, ENNReal.ofReal (Real.exp (l x)) ∂trajVol T d ≠ 0 ∧
      ∫⁻ x, ENNReal.ofReal (Real.exp (l x)) ∂trajVol T d ≠ ∞)
    (hn : ∀ key, StateNearInvariant ε (trajVol T d) l init fun s => kern key s DELTA) :
    PairOK ε (lawOf (trajVol T d) l) ⟨S, xs, kern, init⟩ DELTA :=
  @statePair_ok d T ε l ⟨S, xs, kern, init⟩ ‹_› DELTA hx hxs hin hk hm hf hl hZ hn

/-! ## Kernels -/

theorem measurable_lgGrad {sigma : ℝ} (hs : 0 < sigma) (y : Vec d) : Measurable fun p : Vec d × Vec d => jaxGrad (fun x => lgGamma_t sigma p.1 x y) p.2 :=
  measurable_jaxGrad_param (f := fun x' x => lgGamma_t sigma x' x y) (continuous_lgGamma_t hs y)

section kernels
variable {ε : ℝ≥0∞} {sigma : ℝ} (ys : Traj (n + 1) d) {resampling : Resampling Ex N} {mv : AncestorMove Ex N}
  (hS : SelOK ε resampling mv) (hs : 0 < sigma) (backward : Bool)
include hS hs

theorem lg_csmc_ok : CsmcOK ε (lgTarget sigma ys) fun key x b => outOf (lg_csmc_kernel ys sigma resampling mv backward key x b) where
  markov key := (csmc_markov_relabels volume key (C19_lgssm_proper ys hs) (tailA ys) (tailA ys) hS.cond hS.ker backward).1 hS.mass
  relabels key := (csmc_markov_relabels volume key (C19_lgssm_proper ys hs) (tailA ys) (tailA ys) hS.cond hS.ker backward).2
    hS.rotR hS.rot
  free key key' x b f hf := by
    obtain ⟨R0, hR⟩ : ∃ R0, resampling = fun _ => R0 := ⟨resampling [], funext fun k => hS.keyR k []⟩
    obtain ⟨m0, hm⟩ : ∃ m0, mv = fun _ => m0 := ⟨mv [], funext fun k => hS.key k []⟩
    have e : ∀ key, _ = _ := fun key => csmc_kernel_eq key (lgFK ys sigma) (tailA ys) (tailA ys) resampling mv backward
      (fun f => f 0) (fun t y f => f 0) (fun f => f 0) (fun t Y f => f 0) x b
    refine (congrFun (e key) f).trans (Eq.trans ?_ (congrFun (e key') f).symm)
    subst hR hm
    rfl
  near key := by
    rcases hS.near with ⟨hm, rfl⟩ | ⟨rfl, rfl⟩
    · exact (C58_lgssm_csmc ys hs key hS.cond hm backward).near_zero
    · exact C61_lgssm_csmc ys hS.cond key backward hs

variable {delta : Fin (n + 1) → ℝ} (hd : ∀ t, 0 < delta t)
include hd

theorem lg_rw_ok : CsmcOK ε (lgTarget sigma ys) fun key x b =>
    outOf (lg_rw_csmc (fun _ => true) ys sigma resampling mv backward key x b delta) where
  markov key := rw_markov key (tailA ys) (continuous_lgGamma_0 ys hs).measurable (fun y => (continuous_lgGamma_t hs y).measurable)
    hd hS.cond hS.ker hS.mass backward
  relabels key := rw_relabels key (tailA ys) (continuous_lgGamma_0 ys hs).measurable
    (fun y => (continuous_lgGamma_t hs y).measurable) hd hS.cond hS.rotR hS.ker hS.rot backward
  free key key' x b f hf := by
    obtain ⟨R0, hR⟩ : ∃ R0, resampling = fun _ => R0 := ⟨resampling [], funext fun k => hS.keyR k []⟩
    obtain ⟨m0, hm⟩ : ∃ m0, mv = fun _ => m0 := ⟨mv [], funext fun k => hS.key k []⟩
    have e : ∀ key, _ = _ := fun key => rw_kernel_eq key x b (tailA ys) backward (continuous_lgGamma_0 ys hs).measurable
      (fun y => (continuous_lgGamma_t hs y).measurable) hd hS.cond hS.ker f hf
    refine (e key).trans (Eq.trans ?_ (e key').symm)
    subst hR hm
    rfl
  near key := by
    rcases hS.near with ⟨hm, rfl⟩ | ⟨rfl, rfl⟩
    · exact (C58_lgssm_rw ys hs hd key hS.cond hm backward).near_zero
    · exact C61_lgssm_rw ys hS.cond key backward hs hd

theorem lg_al_ok : CsmcOK ε (lgTarget sigma ys) fun key x b =>
    outOf (lg_mala_csmc_filtering ys sigma resampling mv backward key x b delta) where
  markov key := al_markov key (tailA ys) delta (continuous_lgGamma_0 ys hs).measurable
    (fun y => (continuous_lgGamma_t hs y).measurable) (measurable_jaxGrad _) (measurable_lgGrad hs) hd hS.cond hS.ker hS.mass backward
  relabels key := al_relabels key (tailA ys) delta (continuous_lgGamma_0 ys hs).measurable
    (fun y => (continuous_lgGamma_t hs y).measurable) (measurable_jaxGrad _) (measurable_lgGrad hs) hd hS.cond hS.rotR hS.ker
    hS.rot backward
  free key key' x b f hf := by
    obtain ⟨R0, hR⟩ : ∃ R0, resampling = fun _ => R0 := ⟨resampling [], funext fun k => hS.keyR k []⟩
    obtain ⟨m0, hm⟩ : ∃ m0, mv = fun _ => m0 := ⟨mv [], funext fun k => hS.key k []⟩
    have e : ∀ key, _ = _ := fun key => al_kernel_eq (Gamma0_grad := jaxGrad (lgGamma_0 ys sigma))
      (Gammat_grad := fun x' x y => jaxGrad (fun x => lgGamma_t sigma x' x y) x) key x b (tailA ys) delta backward (continuous_lgGamma_0 ys hs).measurable
      (fun y => (continuous_lgGamma_t hs y).measurable) (measurable_jaxGrad _) (measurable_lgGrad hs) hd hS.cond hS.ker f hf
    refine (e key).trans (Eq.trans ?_ (e key').symm)
    subst hR hm
    rfl
  near key := by
    rcases hS.near with ⟨hm, rfl⟩ | ⟨rfl, rfl⟩
    · exact (C58_lgssm_mala_csmc ys hs hd key hS.cond hm backward).1.near_zero
    · exact (C61_lgssm_mala_csmc ys hS.cond key backward hs hd).1

theorem lg_l_ok : CsmcOK ε (lgTarget sigma ys) fun key x b =>
    outOf (lg_mala_csmc_marginal ys sigma resampling mv backward key x b delta) where
  markov key := l_markov key (tailA ys) delta (continuous_lgGamma_0 ys hs).measurable
    (fun y => (continuous_lgGamma_t hs y).measurable) (measurable_jaxGrad _) (measurable_lgGrad hs) hd hS.cond hS.ker hS.mass backward
  relabels key := l_relabels key (tailA ys) delta (continuous_lgGamma_0 ys hs).measurable
    (fun y => (continuous_lgGamma_t hs y).measurable) (measurable_jaxGrad _) (measurable_lgGrad hs) hd hS.cond hS.rotR hS.ker
    hS.rot backward
  free key key' x b f hf := by
    obtain ⟨R0, hR⟩ : ∃ R0, resampling = fun _ => R0 := ⟨resampling [], funext fun k => hS.keyR k []⟩
    obtain ⟨m0, hm⟩ : ∃ m0, mv = fun _ => m0 := ⟨mv [], funext fun k => hS.key k []⟩
    have e : ∀ key, _ = _ := fun key => l_kernel_eq (Gamma0_grad := jaxGrad (lgGamma_0 ys sigma))
      (Gammat_grad := fun x' x y => jaxGrad (fun x => lgGamma_t sigma x' x y) x) key x b (tailA ys) delta backward (continuous_lgGamma_0 ys hs).measurable
      (fun y => (continuous_lgGamma_t hs y).measurable) (measurable_jaxGrad _) (measurable_lgGrad hs) hd hS.cond hS.ker f hf
    refine (e key).trans (Eq.trans ?_ (e key').symm)
    subst hR hm
    rfl
  near key := by
    rcases hS.near with ⟨hm, rfl⟩ | ⟨rfl, rfl⟩
    · exact (C58_lgssm_mala_csmc ys hs hd key hS.cond hm backward).2.near_zero
    · exact (C61_lgssm_mala_csmc ys hS.cond key backward hs hd).2

theorem lg_twisted_ok (stop : Bool) : CsmcOK ε (lgTarget sigma ys) fun key x b =>
    outOf (lg_tp_csmc_twisted ys sigma stop resampling mv backward key x b delta) := by
  have hr := C36_scalar_partial (d := d) (n := n) (fun _ => 1) (posDef_smul_one (pow_pos hs 2))
    (fun _ => posDef_smul_one (pow_pos hs 2))
  simp only [one_smul] at hr
  have hM := lgLin_meas ys sigma stop
  exact
    { markov := fun key => t_markov hM hr.final_posDef hr.posDef hd key delta hS.cond hS.ker hS.mass backward
      relabels := fun key => t_relabels _ hM key delta delta hS.cond hS.rotR hS.ker hS.rot backward
      free := fun key key' x b f hf => by
        obtain ⟨R0, hR⟩ : ∃ R0, resampling = fun _ => R0 := ⟨resampling [], funext fun k => hS.keyR k []⟩
        obtain ⟨m0, hm⟩ : ∃ m0, mv = fun _ => m0 := ⟨mv [], funext fun k => hS.key k []⟩
        have e : ∀ key, _ = _ := fun key => t_kernel_eq (M := lgLin ys sigma stop) (resampling := resampling) (mv := mv)
          hr.final_posDef hr.posDef hd key x b delta backward f
        refine (e key).trans (Eq.trans ?_ (e key').symm)
        subst hR hm
        rfl
      near := fun key => by
        rcases hS.near with ⟨hm, rfl⟩ | ⟨rfl, rfl⟩
        · exact (C58_lgssm_twisted ys hs stop hd key hS.cond hm backward).near_zero
        · exact C61_lgssm_twisted ys hS.cond key backward hs hd stop }

variable (stop : Bool) {svd : Mat d d → SvdOut d}
    (hsvd : IsSvd (sigma ^ 2 • 1) (svd (sigma ^ 2 • 1)).U (svd (sigma ^ 2 • 1)).Gamma (svd (sigma ^ 2 • 1)).U_t)
    (hfl : ∀ t, 1e-15 ≤ sigma ^ 2 * (delta t / 2) / (sigma ^ 2 + delta t / 2))
include hsvd hfl

theorem lg_tp_ok : CsmcOK ε (lgTarget sigma ys) fun key x b =>
    outOf (lg_tp_csmc_marginal svd ys sigma stop resampling mv backward key x b delta) where
  markov key := tp_markov (lgGauss_ok ys hs stop hsvd hd hfl) (lgGauss_meas ys sigma stop) key delta hS.cond hS.ker hS.mass backward
  relabels key := tp_relabels svd (lgGauss_meas ys sigma stop) key delta delta hS.cond hS.rotR hS.ker hS.rot backward
  free key key' x b f hf := by
    obtain ⟨R0, hR⟩ : ∃ R0, resampling = fun _ => R0 := ⟨resampling [], funext fun k => hS.keyR k []⟩
    obtain ⟨m0, hm⟩ : ∃ m0, mv = fun _ => m0 := ⟨mv [], funext fun k => hS.key k []⟩
    have e : ∀ key, _ = _ := fun key => tp_kernel_eq (lgGauss_ok ys hs stop hsvd hd hfl) (lgGauss_meas ys sigma stop) key x b delta
      hS.cond hS.ker backward f hf
    refine (e key).trans (Eq.trans ?_ (e key').symm)
    subst hR hm
    rfl
  near key := by
    rcases hS.near with ⟨hm, rfl⟩ | ⟨rfl, rfl⟩
    · exact (C58_lgssm_tp_csmc ys hs stop hsvd hd hfl key hS.cond hm backward).1.near_zero
    · exact (C61_lgssm_tp_csmc ys hS.cond key backward hs hd stop hsvd hfl).1

theorem lg_atp_ok : CsmcOK ε (lgTarget sigma ys) fun key x b =>
    outOf (lg_tp_csmc_filtering svd ys sigma stop resampling mv backward key x b delta) := by
  have h := lgGauss_ok ys hs stop hsvd hd hfl
  have hex : ∀ t, (make_proposal svd (lgGauss ys sigma stop) delta t).chol_invᵀ *
      (make_proposal svd (lgGauss ys sigma stop) delta t).chol_inv =
      ((make_proposal svd (lgGauss ys sigma stop) delta t).chol * (make_proposal svd (lgGauss ys sigma stop) delta t).cholᵀ)⁻¹ :=
    fun t => by
      rw [svd_chol_eq h t]
      refine (atp_precision_iff (h.posDef t) (h.isSvd t) (h.pos t) (h.floor t)).mpr ?_
      rw [lgGauss_cov]
      exact isotropic_diagonal (pow_pos hs 2) hsvd
  exact
    { markov := fun key => atp_markov h (lgGauss_meas ys sigma stop) hex key delta hS.cond hS.ker hS.mass backward
      relabels := fun key => atp_relabels svd (lgGauss_meas ys sigma stop) key delta delta hS.cond hS.rotR hS.ker hS.rot backward
      free := fun key key' x b f hf => by
        obtain ⟨R0, hR⟩ : ∃ R0, resampling = fun _ => R0 := ⟨resampling [], funext fun k => hS.keyR k []⟩
        obtain ⟨m0, hm⟩ : ∃ m0, mv = fun _ => m0 := ⟨mv [], funext fun k => hS.key k []⟩
        have e : ∀ key, _ = _ := fun key => atp_kernel_eq (resampling := resampling) (mv := mv) h hex key x b delta backward f
        refine (e key).trans (Eq.trans ?_ (e key').symm)
        subst hR hm
        rfl
      near := fun key => by
        rcases hS.near with ⟨hm, rfl⟩ | ⟨rfl, rfl⟩
        · exact (C58_lgssm_tp_csmc ys hs stop hsvd hd hfl key hS.cond hm backward).2.near_zero
        · exact (C61_lgssm_tp_csmc ys hS.cond key backward hs hd stop hsvd hfl).2 }

end kernels

end Verif
