import Verif.Lemmas.SvChains
import Verif.Lemmas.FamilyKernels
import Verif.Lemmas.RotationKernels

/-!
# The kernels of the stochastic volatility experiment: their steps, and the adaptation
-/

open scoped ENNReal
open MeasureTheory Finset

namespace Verif
open Verif.Model Verif.Spec Verif.Props Matrix

variable {N n d T : ℕ}

/-! ## Multi-try kernels with their flag -/

section multitry
variable {log_pdf : Traj T d → ℝ} {grad : Traj T d → Traj T d}

/-- A candidate and whether it is new. -/
noncomputable def candFlag (log_pdf : Traj T d → ℝ) (grad : Traj T d → Traj T d) (s : VGState T d)
    (samples : Fin N → Traj T d) (i : Fin (N + 1)) : VGState T d × Bool := (candStates log_pdf grad s samples i, decide (i ≠ 0))

theorem measurable_candFlag (hl : Measurable log_pdf) (hg : Measurable grad) {β : Type} [MeasurableSpace β] {s : β → VGState T d}
    {samples : β → Fin N → Traj T d} (hs : Measurable s) (hsm : Measurable samples) :
    Measurable fun b => candFlag log_pdf grad (s b) (samples b) :=
  measurable_pi_lambda _ fun i => ((measurable_pi_apply i).comp (measurable_candStates hl hg hs hsm)).prodMk measurable_const

theorem mala_eq (key : Key) (s : VGState T d) (delta : ℝ) (log_pdf : Traj T d → ℝ) (grad : Traj T d → Traj T d)
    (N : ℕ) (auxiliary : Bool) :
    (mala_kernel key s delta log_pdf grad N auxiliary : Ex _) =
      drawSelect (malaNoise key N T d) (malaW delta log_pdf grad auxiliary s)
        (fun e => candFlag log_pdf grad s (malaProp delta s e)) (forcedIdx (splitKey key 3 1)) := by
  unfold malaW
  simp only [← expNormalize_eq]
  rfl

theorem mtp_eq (key : Key) (s : VGState (n + 1) d) (delta : ℝ) (D : Dyn n d) (log_pdf : Traj (n + 1) d → ℝ)
    (grad : Traj (n + 1) d → Traj (n + 1) d) (N : ℕ) :
    (tp_kernel key s delta D log_pdf grad N : Ex _) =
      drawSelect (mtpNoise key delta D N s) (tpW delta log_pdf grad s)
        (fun e => candFlag log_pdf grad s e.2) (forcedIdx (splitKey key 3 1)) := by
  unfold tpW
  simp only [← expNormalize_eq]
  rfl

/-- A selected candidate carries the right values. -/
theorem supp_drawSelect {E : Type} (D : Ex E) (W : E → Fin (N + 1) → ℝ) (x : Traj T d) (prop : E → Fin N → Traj T d)
    (move : (Fin (N + 1) → ℝ) → Fin (N + 1) → Ex (Fin (N + 1))) :
    Supp (drawSelect D W (fun e => candFlag log_pdf grad (tp_init log_pdf grad x) (prop e)) move)
      fun r => r.1 = tp_init log_pdf grad r.1.1 := by
  intro f f' h
  refine Ex.congr_fun' D fun e => Ex.congr_fun' (move (W e) 0) fun i => h _ ?_
  exact cand_states log_pdf grad x (prop e) i

end multitry

/-! ## What the kernels of the experiment satisfy -/

/-- A conditional SMC kernel, for positive step sizes. -/
structure CsmcStepOK (kernel : Key → (Fin (n + 1) → Vec d) → (Fin (n + 1) → Fin (N + 1)) → (Fin (n + 1) → ℝ) →
    Ex ((Fin (n + 1) → Vec d) × (Fin (n + 1) → Fin (N + 1)))) : Prop where
  markov : ∀ delta, (∀ t, 0 < delta t) → ∀ key, MarkovStep fun x b => kernel key x b delta
  relabels : ∀ delta, (∀ t, 0 < delta t) → ∀ key, Relabels fun x b => kernel key x b delta
  free : ∀ delta, (∀ t, 0 < delta t) → ∀ key key' x b f, Measurable f → kernel key x b delta f = kernel key' x b delta f

theorem CsmcStepOK.of {ε : ℝ≥0∞} {l : (Fin (n + 1) → Vec d) → ℝ}
    {kernel : Key → (Fin (n + 1) → Vec d) → (Fin (n + 1) → Fin (N + 1)) → (Fin (n + 1) → ℝ) →
      Ex ((Fin (n + 1) → Vec d) × (Fin (n + 1) → Fin (N + 1)))}
    (h : ∀ delta, (∀ t, 0 < delta t) → CsmcOK ε l fun key x b => kernel key x b delta) : CsmcStepOK kernel :=
  ⟨fun delta hd => (h delta hd).markov, fun delta hd => (h delta hd).relabels, fun delta hd => (h delta hd).free⟩

/-- A multi-try kernel, for positive step sizes. -/
structure VgStepOK (kernel : Key → VGState (n + 1) d → ℝ → Ex (VGState (n + 1) d × Bool))
    (init : Traj (n + 1) d → VGState (n + 1) d) : Prop where
  init_meas : Measurable init
  init_fst : ∀ x, (init x).1 = x
  ker : ∀ delta, 0 < delta → ∀ key, IsKer fun s => kernel key s delta
  mass : ∀ delta, 0 < delta → ∀ key s, kernel key s delta (fun _ => 1) = 1
  free : ∀ delta key key' s, kernel key s delta = kernel key' s delta
  supp : ∀ delta key x, Supp (kernel key (init x) delta) fun r => r.1 = init r.1.1

theorem mala_stepOK {log_pdf : Traj (n + 1) d → ℝ} {grad : Traj (n + 1) d → Traj (n + 1) d} (hl : Measurable log_pdf)
    (hg : Measurable grad) (N : ℕ) (auxiliary : Bool) :
    VgStepOK (fun key s delta => (mala_kernel key s delta log_pdf grad N auxiliary : Ex _)) (tp_init log_pdf grad) where
  init_meas := measurable_tp_init hl hg
  init_fst _ := rfl
  ker delta _ key := by
    have h := drawSelect_ker (malaNoise_ker (β := VGState (n + 1) d) (N := N) key) (measurable_malaW hl hg delta auxiliary)
      (g := fun s e => candFlag log_pdf grad s (malaProp delta s e))
      (measurable_candFlag hl hg measurable_fst (measurable_malaProp delta)) (force_moveKer (splitKey key 3 1))
    exact h.congr fun s f _ => (congrFun (mala_eq key s delta log_pdf grad N auxiliary) f).symm
  mass delta _ key s := by
    rw [mala_eq]
    exact drawSelect_mass (malaNoise_mass key) (fun e => normalize_isProb _) _ fun w hw k => force_mass _ hw k
  free _ _ _ _ := rfl
  supp delta key x := by
    rw [mala_eq]
    exact supp_drawSelect _ _ _ _ _

theorem tp_stepOK {D : Dyn n d} (hP : D.P0.PosDef) (hQ : ∀ t, (D.Qs t).PosDef) {log_pdf : Traj (n + 1) d → ℝ}
    {grad : Traj (n + 1) d → Traj (n + 1) d} (hl : Measurable log_pdf) (hg : Measurable grad) (N : ℕ) :
    VgStepOK (fun key s delta => (tp_kernel key s delta D log_pdf grad N : Ex _)) (tp_init log_pdf grad) where
  init_meas := measurable_tp_init hl hg
  init_fst _ := rfl
  ker delta hd key := by
    have h := drawSelect_ker (mtpNoise_ker (N := N) hP hQ hd key) (measurable_tpW hl hg delta)
      (g := fun s e => candFlag log_pdf grad s e.2)
      (measurable_candFlag hl hg measurable_fst (by fun_prop)) (force_moveKer (splitKey key 3 1))
    exact h.congr fun s f _ => (congrFun (mtp_eq key s delta D log_pdf grad N) f).symm
  mass delta hd key s := by
    rw [mtp_eq]
    exact drawSelect_mass (mtpNoise_mass hP hQ hd key s) (fun e => normalize_isProb _) _ fun w hw k => force_mass _ hw k
  free _ _ _ _ := rfl
  supp delta key x := by
    rw [mtp_eq]
    exact supp_drawSelect _ _ _ _ _

/-! ## Conditional SMC kernels -/

section kernels
variable {ε : ℝ≥0∞} {D : SvDyn d} (ys : Traj (n + 1) d) {resampling : Resampling Ex N} {mv : AncestorMove Ex N}
  (hS : SelOK ε resampling mv) (hP : D.P0.PosDef) (hQ : D.Q.PosDef) (backward : Bool)
include hS hP hQ

theorem sv_csmc_ok : CsmcOK ε (svTarget D.m0 D.P0 D.F D.Q D.b ys) fun key x b =>
    outOf (sv_csmc_kernel ys D resampling mv backward true key x b) where
  markov key := (csmc_markov_relabels volume key (C19_sv_proper ys hP hQ) (tailA ys) (tailA ys) hS.cond hS.ker backward).1 hS.mass
  relabels key := (csmc_markov_relabels volume key (C19_sv_proper ys hP hQ) (tailA ys) (tailA ys) hS.cond hS.ker backward).2
    hS.rotR hS.rot
  free key key' x b f hf := by
    obtain ⟨R0, hR⟩ : ∃ R0, resampling = fun _ => R0 := ⟨resampling [], funext fun k => hS.keyR k []⟩
    obtain ⟨m0, hm⟩ : ∃ m0, mv = fun _ => m0 := ⟨mv [], funext fun k => hS.key k []⟩
    have e : ∀ key, _ = _ := fun key => csmc_kernel_eq key (svFK ys D) (tailA ys) (tailA ys) resampling mv backward
      (fun f => f 0) (fun t y f => f 0) (fun f => f 0) (fun t Y f => f 0) x b
    refine (congrFun (e key) f).trans (Eq.trans ?_ (congrFun (e key') f).symm)
    subst hR hm
    rfl
  near key := by
    rcases hS.near with ⟨hm, rfl⟩ | ⟨rfl, rfl⟩
    · exact (C58_sv_csmc ys hP hQ key hS.cond hm backward).near_zero
    · exact C61_sv_csmc ys hS.cond key backward hP hQ

omit hS hP in
theorem measurable_svGrad (y : Vec d) : Measurable fun p : Vec d × Vec d => jaxGrad (fun x => svGamma_t D p.1 x y) p.2 :=
  measurable_jaxGrad_param (f := fun x' x => svGamma_t D x' x y) (continuous_svGamma_t hQ y)

variable {delta : Fin (n + 1) → ℝ} (hd : ∀ t, 0 < delta t)
include hd

theorem sv_rw_ok : CsmcOK ε (svTarget D.m0 D.P0 D.F D.Q D.b ys) fun key x b =>
    outOf (sv_rw_csmc (fun _ => true) ys D resampling mv backward key x b delta) where
  markov key := rw_markov key (tailA ys) (continuous_svGamma_0 ys hP).measurable (fun y => (continuous_svGamma_t hQ y).measurable)
    hd hS.cond hS.ker hS.mass backward
  relabels key := rw_relabels key (tailA ys) (continuous_svGamma_0 ys hP).measurable
    (fun y => (continuous_svGamma_t hQ y).measurable) hd hS.cond hS.rotR hS.ker hS.rot backward
  free key key' x b f hf := by
    obtain ⟨R0, hR⟩ : ∃ R0, resampling = fun _ => R0 := ⟨resampling [], funext fun k => hS.keyR k []⟩
    obtain ⟨m0, hm⟩ : ∃ m0, mv = fun _ => m0 := ⟨mv [], funext fun k => hS.key k []⟩
    have e : ∀ key, _ = _ := fun key => rw_kernel_eq key x b (tailA ys) backward (continuous_svGamma_0 ys hP).measurable
      (fun y => (continuous_svGamma_t hQ y).measurable) hd hS.cond hS.ker f hf
    refine (e key).trans (Eq.trans ?_ (e key').symm)
    subst hR hm
    rfl
  near key := by
    rcases hS.near with ⟨hm, rfl⟩ | ⟨rfl, rfl⟩
    · exact (C58_sv_rw ys hP hQ hd key hS.cond hm backward).near_zero
    · exact C61_sv_rw ys hS.cond key backward hP hQ hd

theorem sv_al_ok : CsmcOK ε (svTarget D.m0 D.P0 D.F D.Q D.b ys) fun key x b =>
    outOf (sv_mala_csmc_filtering ys D resampling mv backward key x b delta) where
  markov key := al_markov key (tailA ys) delta (continuous_svGamma_0 ys hP).measurable
    (fun y => (continuous_svGamma_t hQ y).measurable) (measurable_jaxGrad _) (measurable_svGrad hQ) hd hS.cond hS.ker hS.mass backward
  relabels key := al_relabels key (tailA ys) delta (continuous_svGamma_0 ys hP).measurable
    (fun y => (continuous_svGamma_t hQ y).measurable) (measurable_jaxGrad _) (measurable_svGrad hQ) hd hS.cond hS.rotR hS.ker
    hS.rot backward
  free key key' x b f hf := by
    obtain ⟨R0, hR⟩ : ∃ R0, resampling = fun _ => R0 := ⟨resampling [], funext fun k => hS.keyR k []⟩
    obtain ⟨m0, hm⟩ : ∃ m0, mv = fun _ => m0 := ⟨mv [], funext fun k => hS.key k []⟩
    have e : ∀ key, _ = _ := fun key => al_kernel_eq (Gamma0_grad := jaxGrad (svGamma_0 ys D))
      (Gammat_grad := fun x' x y => jaxGrad (fun x => svGamma_t D x' x y) x) key x b (tailA ys) delta backward
      (continuous_svGamma_0 ys hP).measurable (fun y => (continuous_svGamma_t hQ y).measurable) (measurable_jaxGrad _)
      (measurable_svGrad hQ) hd hS.cond hS.ker f hf
    refine (e key).trans (Eq.trans ?_ (e key').symm)
    subst hR hm
    rfl
  near key := by
    rcases hS.near with ⟨hm, rfl⟩ | ⟨rfl, rfl⟩
    · exact (C58_sv_mala_csmc ys hP hQ hd key hS.cond hm backward).1.near_zero
    · exact (C61_sv_mala_csmc ys hS.cond key backward hP hQ hd).1

theorem sv_l_ok : CsmcOK ε (svTarget D.m0 D.P0 D.F D.Q D.b ys) fun key x b =>
    outOf (sv_mala_csmc_marginal ys D resampling mv backward key x b delta) where
  markov key := l_markov key (tailA ys) delta (continuous_svGamma_0 ys hP).measurable
    (fun y => (continuous_svGamma_t hQ y).measurable) (measurable_jaxGrad _) (measurable_svGrad hQ) hd hS.cond hS.ker hS.mass backward
  relabels key := l_relabels key (tailA ys) delta (continuous_svGamma_0 ys hP).measurable
    (fun y => (continuous_svGamma_t hQ y).measurable) (measurable_jaxGrad _) (measurable_svGrad hQ) hd hS.cond hS.rotR hS.ker
    hS.rot backward
  free key key' x b f hf := by
    obtain ⟨R0, hR⟩ : ∃ R0, resampling = fun _ => R0 := ⟨resampling [], funext fun k => hS.keyR k []⟩
    obtain ⟨m0, hm⟩ : ∃ m0, mv = fun _ => m0 := ⟨mv [], funext fun k => hS.key k []⟩
    have e : ∀ key, _ = _ := fun key => l_kernel_eq (Gamma0_grad := jaxGrad (svGamma_0 ys D))
      (Gammat_grad := fun x' x y => jaxGrad (fun x => svGamma_t D x' x y) x) key x b (tailA ys) delta backward
      (continuous_svGamma_0 ys hP).measurable (fun y => (continuous_svGamma_t hQ y).measurable) (measurable_jaxGrad _)
      (measurable_svGrad hQ) hd hS.cond hS.ker f hf
    refine (e key).trans (Eq.trans ?_ (e key').symm)
    subst hR hm
    rfl
  near key := by
    rcases hS.near with ⟨hm, rfl⟩ | ⟨rfl, rfl⟩
    · exact (C58_sv_mala_csmc ys hP hQ hd key hS.cond hm backward).2.near_zero
    · exact (C61_sv_mala_csmc ys hS.cond key backward hP hQ hd).2

end kernels

section twisted
variable {ε : ℝ≥0∞} (ys : Traj (n + 1) d) {resampling : Resampling Ex N} {mv : AncestorMove Ex N}
  (hS : SelOK ε resampling mv) (backward : Bool) {delta : Fin (n + 1) → ℝ} (hd : ∀ t, 0 < delta t)

include hS hd in
theorem sv_twisted_ok {phi tau rho : ℝ} (hphi : phi ^ 2 < 1) (ht : 0 < tau) (h0 : 0 ≤ rho) (h1 : rho < 1) (stop : Bool) :
    let D := get_dynamics 0 phi tau rho d
    CsmcOK ε (svTarget D.m0 D.P0 D.F D.Q D.b ys) fun key x b =>
      outOf (sv_tp_csmc_twisted ys D stop resampling mv backward key x b delta) := by
  intro D
  have hr := sv_reversal (d := d) ys hphi ht h0 h1 stop
  have hM := svLin_meas ys D stop
  exact
    { markov := fun key => t_markov hM hr.final_posDef hr.posDef hd key delta hS.cond hS.ker hS.mass backward
      relabels := fun key => t_relabels _ hM key delta delta hS.cond hS.rotR hS.ker hS.rot backward
      free := fun key key' x b f hf => by
        obtain ⟨R0, hR⟩ : ∃ R0, resampling = fun _ => R0 := ⟨resampling [], funext fun k => hS.keyR k []⟩
        obtain ⟨m0, hm⟩ : ∃ m0, mv = fun _ => m0 := ⟨mv [], funext fun k => hS.key k []⟩
        have e : ∀ key, _ = _ := fun key => t_kernel_eq (M := svLin ys D stop) (resampling := resampling) (mv := mv)
          hr.final_posDef hr.posDef hd key x b delta backward f
        refine (e key).trans (Eq.trans ?_ (e key').symm)
        subst hR hm
        rfl
      near := fun key => by
        rcases hS.near with ⟨hm, rfl⟩ | ⟨rfl, rfl⟩
        · exact (C58_sv_twisted ys hphi ht h0 h1 stop hd key hS.cond hm backward).near_zero
        · exact C61_sv_twisted ys hS.cond key backward hphi ht h0 h1 stop hd }

include hS in
/-- Style `marginal`, without assumption on the factorisation. -/
theorem sv_tp_step (svd : Mat d d → SvdOut d) (D : SvDyn d) (stop : Bool) :
    CsmcStepOK fun key x b delta => outOf (sv_tp_csmc_marginal svd ys D stop resampling mv backward key x b delta) where
  markov delta _ := (tp_markov_free svd (svGauss_meas ys D stop) delta delta hS.cond hS.keyR hS.ker hS.mass hS.key backward).1
  relabels delta _ key := tp_relabels svd (svGauss_meas ys D stop) key delta delta hS.cond hS.rotR hS.ker hS.rot backward
  free delta _ key key' x b f _ :=
    (tp_markov_free svd (svGauss_meas ys D stop) delta delta hS.cond hS.keyR hS.ker hS.mass hS.key backward).2 key key' x b f

include hS in
/-- Style `filtering`, without assumption on the factorisation. -/
theorem sv_atp_step (svd : Mat d d → SvdOut d) (D : SvDyn d) (stop : Bool) :
    CsmcStepOK fun key x b delta => outOf (sv_tp_csmc_filtering svd ys D stop resampling mv backward key x b delta) where
  markov delta _ := (atp_markov_free svd (svGauss_meas ys D stop) delta delta hS.cond hS.keyR hS.ker hS.mass hS.key backward).1
  relabels delta _ key := atp_relabels svd (svGauss_meas ys D stop) key delta delta hS.cond hS.rotR hS.ker hS.rot backward
  free delta _ key key' x b f _ :=
    (atp_markov_free svd (svGauss_meas ys D stop) delta delta hS.cond hS.keyR hS.ker hS.mass hS.key backward).2 key key' x b f

include hS in
theorem sv_tp_ok {svd : Mat d d → SvdOut d} {D : SvDyn d} (stop : Bool) (h : ProposalOK svd (svGauss ys D stop) delta)
    (hd : ∀ t, 0 < delta t) :
    CsmcOK ε (svTarget D.m0 D.P0 D.F D.Q D.b ys) fun key x b =>
      outOf (sv_tp_csmc_marginal svd ys D stop resampling mv backward key x b delta) where
  markov := (sv_tp_step ys hS backward svd D stop).markov delta hd
  relabels := (sv_tp_step ys hS backward svd D stop).relabels delta hd
  free := (sv_tp_step ys hS backward svd D stop).free delta hd
  near key := by
    rcases hS.near with ⟨hm, rfl⟩ | ⟨rfl, rfl⟩
    · exact (C58_sv_tp_csmc ys stop h key hS.cond hm backward).near_zero
    · exact C61_sv_tp_csmc ys hS.cond key backward stop h

end twisted

/-! ## Adaptation -/

theorem adaptDelta_pos {cfg : AdaptCfg} (h0 : 0 < cfg.min_delta) (h1 : 0 < cfg.max_delta) (W i : ℕ) (acc : Option ℝ) (delta : ℝ) :
    0 < adaptDelta cfg W i acc delta := lt_min (lt_of_lt_of_le h0 (le_max_right _ _)) h1

/-- A kernel of the experiment whose runs can be analysed. -/
def SvOK (N : ℕ) (K : SvKernel Ex (n + 1) d) : Prop :=
  (∃ kernel : Key → (Fin (n + 1) → Vec d) → (Fin (n + 1) → Fin (N + 1)) → (Fin (n + 1) → ℝ) →
      Ex ((Fin (n + 1) → Vec d) × (Fin (n + 1) → Fin (N + 1))), CsmcStepOK kernel ∧
    (K = csmcSvPlain kernel ∨ ∃ stat, K = csmcSvTwisted stat kernel)) ∨
  ∃ kernel init, VgStepOK kernel init ∧ K = vgSv kernel init

theorem num_pos {delta : StepSize (n + 1)} (h : PosSteps delta) : 0 < delta.num := by
  cases delta with
  | scalar v => exact h 0
  | perStep v => exact h 0

/-- Its chains, from `init x`. -/
theorem SvOK.chains {K : SvKernel Ex (n + 1) d} (h : SvOK N K) {delta : StepSize (n + 1)} (hd : PosSteps delta) :
    ∃ Good : K.S → Prop, ChainsOK K delta Good ∧ ∀ x, Good (K.init x) := by
  rcases h with ⟨kernel, hk, rfl | ⟨stat, rfl⟩⟩ | ⟨kernel, init, hk, rfl⟩
  · exact ⟨_, csmcSv_chainsOK (hk.markov _ hd) (hk.relabels _ hd) (hk.free _ hd), fun _ => trivial⟩
  · exact ⟨_, csmcSv_chainsOK (hk.markov _ hd) (hk.relabels _ hd) (hk.free _ hd), fun _ => trivial⟩
  · exact ⟨_, vgSv_chainsOK hk.init_meas hk.init_fst (hk.ker _ (num_pos hd)) (hk.mass _ (num_pos hd))
      (fun key key' s f _ => congrFun (hk.free _ key key' s) f) fun key x => hk.supp _ key x, fun x => ⟨x, rfl⟩⟩

/-- What the adaptation leaves can be run. -/
theorem SvOK.adapt {K : SvKernel Ex (n + 1) d} (h : SvOK N K) {cfg : AdaptCfg} (h0 : 0 < cfg.min_delta) (h1 : 0 < cfg.max_delta)
    (key : Key) (x : Traj (n + 1) d) (W : ℕ) {delta_init : ℝ} (hd : 0 < delta_init) (n_steps : ℕ) :
    Supp (K.adaptation_loop key (K.init x) K.kernel cfg W delta_init n_steps)
      fun r => PosSteps r.2 ∧ ∃ Good : K.S → Prop, ChainsOK K r.2 Good ∧ Good r.1 := by
  have hd1 : PosSteps (StepSize.perStep fun _ : Fin (n + 1) => delta_init * 1) := fun t => by
    show 0 < delta_init * 1
    rwa [mul_one]
  rcases h with ⟨kernel, hk, rfl | ⟨stat, rfl⟩⟩ | ⟨kernel, init, hk, rfl⟩
  · refine supp_bind (R := fun r : ((Fin (n + 1) → Vec d) × (Fin (n + 1) → Fin (N + 1))) × (Fin (n + 1) → ℝ) => ∀ t, 0 < r.2 t)
      (supp_bind (R := fun r : AdaptCarry (Vec d) (Fin (N + 1)) (n + 1) W × (Fin n_steps → Unit) => ∀ t, 0 < r.1.deltas t) ?_
        fun r hr => supp_pure hr) fun r hr => supp_pure ⟨hr, _, csmcSv_chainsOK (hk.markov _ hr) (hk.relabels _ hr) (hk.free _ hr), trivial⟩
    refine supp_scanM (Inv := fun c : AdaptCarry (Vec d) (Fin (N + 1)) (n + 1) W => ∀ t, 0 < c.deltas t) (fun c i _ => ?_) _ _ hd1
    exact supp_bind' fun next => supp_pure fun t => adaptDelta_pos h0 h1 _ _ _ _
  · refine supp_bind (R := fun r : ((Fin (n + 1) → Vec d) × (Fin (n + 1) → Fin (N + 1))) × (Fin (n + 1) → ℝ) => ∀ t, 0 < r.2 t)
      (supp_bind (R := fun r : AdaptCarry (Vec d) (Fin (N + 1)) (n + 1) W × (Fin n_steps → Unit) => ∀ t, 0 < r.1.deltas t) ?_
        fun r hr => supp_pure hr) fun r hr => supp_pure ⟨hr, _, csmcSv_chainsOK (hk.markov _ hr) (hk.relabels _ hr) (hk.free _ hr), trivial⟩
    refine supp_scanM (Inv := fun c : AdaptCarry (Vec d) (Fin (N + 1)) (n + 1) W => ∀ t, 0 < c.deltas t) (fun c i _ => ?_) _ _ hd1
    exact supp_bind' fun next => supp_pure fun t => adaptDelta_pos h0 h1 _ _ _ _
  · refine supp_bind (R := fun r => 0 < r.2 ∧ ∃ x, r.1 = init x)
      (supp_bind (R := fun r => 0 < r.1.delta ∧ ∃ x, r.1.state = init x) ?_ fun r hr => supp_pure hr)
      fun r hr => supp_pure ?_
    · refine supp_scanM (Inv := fun c : TpCarry (VGState (n + 1) d) W => 0 < c.delta ∧ ∃ x, c.state = init x) (fun c i hc => ?_) _ _ ⟨hd, x, rfl⟩
      obtain ⟨_, y, hy⟩ := hc
      refine supp_bind (R := fun r => r.1 = init r.1.1) ?_ fun next hn => supp_pure ⟨adaptDelta_pos h0 h1 _ _ _ _, _, hn⟩
      rw [hy]
      exact hk.supp _ _ _
    · have hp : PosSteps (StepSize.scalar r.2 : StepSize (n + 1)) := fun _ => hr.1
      exact ⟨hp, _, vgSv_chainsOK hk.init_meas hk.init_fst (hk.ker _ (num_pos hp)) (hk.mass _ (num_pos hp))
        (fun key key' s f _ => congrFun (hk.free _ key key' s) f) (fun key x => hk.supp _ key x), hr.2⟩

end Verif
