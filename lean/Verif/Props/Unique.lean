import Verif.Lemmas.ReachSel
import Verif.Lemmas.TwistedOnly
import Verif.Lemmas.Unique
import Verif.Props.Indices
import Verif.Props.ExpRuns
import Verif.Props.ExpRunsKeys

/-!
# C70: every set of trajectories can be reached, and the target is the only invariant law
-/

open scoped ENNReal
open MeasureTheory

namespace Verif.Props
open Verif Verif.Model Verif.Spec Matrix

variable {N n d : ℕ} {resampling last_step : String} {R : Resampling Ex N} {mv : AncestorMove Ex N}

theorem sel_barker (hm : sel_last_step last_step = .ok mv) (h : last_step = "barker") : GoodMove mv := by
  subst h
  cases hm
  exact fun key => barker_moveInvariant key

/-- **C70** for `csmc.kernel` with any proper model and at least two particles: from every reference and all indices, one step
has positive probability to produce a trajectory in any set of positive measure; and with the Barker move the target is the only
invariant law. -/
theorem C70_csmc {X P G : Type} [MeasurableSpace X] (lam : Measure X) [SigmaFinite lam] (key : Key) {M : FK Ex X P G N} (hM : ProperFK lam M)
    (Mparams : Fin n → P) (Gparams : Fin n → G) (hR : sel_resampling resampling = .ok R) (hm : sel_last_step last_step = .ok mv)
    (hN : N ≠ 0) (backward : Bool) :
    let logpi := pathLogDensity M.Gamma0 (fun t y x => M.Gammat y x (Gparams t))
    let K := fun (x : Fin (n + 1) → X) (b : Fin (n + 1) → Fin (N + 1)) => (do
      let r ← csmc_kernel key x b M Mparams Gparams R mv backward true
      pure (r.xs, r.Bs) : Ex _)
    Reaches (Measure.pi fun _ => lam) (fun s : (Fin (n + 1) → X) × (Fin (n + 1) → Fin (N + 1)) => K s.1 s.2 >>= fun r => pure r.1) ∧
      (last_step = "barker" → ∫⁻ x, ENNReal.ofReal (Real.exp (logpi x)) ∂(Measure.pi fun _ => lam) ≠ 0 ∧
        ∫⁻ x, ENNReal.ofReal (Real.exp (logpi x)) ∂(Measure.pi fun _ => lam) ≠ ∞ → OnlyInvariant (lawOf (Measure.pi fun _ => lam) logpi) K) := by
  intro logpi K
  have hS := sel_ok hR hm
  have hr := fun x b f hf => csmc_reach (f := f) lam key hM Mparams Gparams hS.cond hS.ker backward (sel_reach hR hm hN backward) x b hf
  refine ⟨Spec.Reaches.of_le fun s f hf => hr s.1 s.2 f hf, fun hb hZ => ?_⟩
  obtain ⟨h1, -, h2⟩ := C62_csmc lam key hM Mparams Gparams hS.cond hS.rotR (sel_barker hm hb) hS.rot backward
  exact (onlyInvariant (measurable_pathLogDensity hM.Gamma0_meas fun _ => hM.Gammat_meas _) hZ
    ((csmc_markov_relabels lam key hM Mparams Gparams hS.cond hS.ker backward).1 hS.mass) h1 h2 hr).2

section aux
variable {G : Type} {Gamma0 : Vec d → ℝ} {Gamma0_grad : Vec d → Vec d} {Gammat : Vec d → Vec d → G → ℝ}
  {Gammat_grad : Vec d → Vec d → G → Vec d} {ells : Fin (n + 1) → ℝ}

/-- **C70** for `rw_csmc.kernel`. -/
theorem C70_rw (key : Key) (Gparams : Fin n → G)
    (h0 : Measurable Gamma0) (h : ∀ g, Measurable fun p : Vec d × Vec d => Gammat p.1 p.2 g) (hells : ∀ t, 0 < ells t)
    (hR : sel_resampling resampling = .ok R) (hm : sel_last_step last_step = .ok mv) (hN : N ≠ 0) (backward : Bool) :
    let logpi := pathLogDensity Gamma0 (fun t y x => Gammat y x (Gparams t))
    let K := fun (x : Fin (n + 1) → Vec d) (b : Fin (n + 1) → Fin (N + 1)) => (do
      let r ← rw_kernel (fun _ => true) key x b Gamma0 Gammat Gparams ells R mv backward
      pure (r.xs, r.Bs) : Ex _)
    Reaches (trajVol (n + 1) d) (fun s : (Fin (n + 1) → Vec d) × (Fin (n + 1) → Fin (N + 1)) => K s.1 s.2 >>= fun r => pure r.1) ∧
      (last_step = "barker" → ∫⁻ x, ENNReal.ofReal (Real.exp (logpi x)) ∂trajVol (n + 1) d ≠ 0 ∧
        ∫⁻ x, ENNReal.ofReal (Real.exp (logpi x)) ∂trajVol (n + 1) d ≠ ∞ → OnlyInvariant (lawOf (trajVol (n + 1) d) logpi) K) := by
  intro logpi K
  have hS := sel_ok hR hm
  have hr := fun x b f hf => rw_reach (f := f) key Gparams h0 h hells hS.cond hS.ker backward (sel_reach hR hm hN backward) x b hf
  refine ⟨Spec.Reaches.of_le fun s f hf => hr s.1 s.2 f hf, fun hb hZ => ?_⟩
  obtain ⟨h1, -, h2⟩ := C62_rw key Gparams h0 h hells hS.cond hS.rotR (sel_barker hm hb) hS.rot backward
  exact (onlyInvariant (measurable_pathLogDensity h0 fun _ => h _) hZ
    (rw_markov key Gparams h0 h hells hS.cond hS.ker hS.mass backward) h1 h2 hr).2

/-- **C70** for `l_csmc_f.kernel` (Particle-MALA). -/
theorem C70_l (key : Key) (Gparams : Fin n → G) (deltas : Fin (n + 1) → ℝ)
    (h0 : Measurable Gamma0) (h : ∀ g, Measurable fun p : Vec d × Vec d => Gammat p.1 p.2 g)
    (hg0 : Measurable Gamma0_grad) (hg : ∀ g, Measurable fun p : Vec d × Vec d => Gammat_grad p.1 p.2 g) (hells : ∀ t, 0 < ells t)
    (hR : sel_resampling resampling = .ok R) (hm : sel_last_step last_step = .ok mv) (hN : N ≠ 0) (backward : Bool) :
    let logpi := pathLogDensity Gamma0 (fun t y x => Gammat y x (Gparams t))
    let K := fun (x : Fin (n + 1) → Vec d) (b : Fin (n + 1) → Fin (N + 1)) => (do
      let r ← l_kernel key x b Gamma0 Gamma0_grad Gammat Gammat_grad Gparams ells deltas R mv backward
      pure (r.xs, r.Bs) : Ex _)
    Reaches (trajVol (n + 1) d) (fun s : (Fin (n + 1) → Vec d) × (Fin (n + 1) → Fin (N + 1)) => K s.1 s.2 >>= fun r => pure r.1) ∧
      (last_step = "barker" → ∫⁻ x, ENNReal.ofReal (Real.exp (logpi x)) ∂trajVol (n + 1) d ≠ 0 ∧
        ∫⁻ x, ENNReal.ofReal (Real.exp (logpi x)) ∂trajVol (n + 1) d ≠ ∞ → OnlyInvariant (lawOf (trajVol (n + 1) d) logpi) K) := by
  intro logpi K
  have hS := sel_ok hR hm
  have hr := fun x b f hf => l_reach (f := f) key Gparams deltas h0 h hg0 hg hells hS.cond hS.ker backward (sel_reach hR hm hN backward) x b hf
  refine ⟨Spec.Reaches.of_le fun s f hf => hr s.1 s.2 f hf, fun hb hZ => ?_⟩
  obtain ⟨h1, -, h2⟩ := C62_l key Gparams deltas h0 h hg0 hg hells hS.cond hS.rotR (sel_barker hm hb) hS.rot backward
  exact (onlyInvariant (measurable_pathLogDensity h0 fun _ => h _) hZ
    (l_markov key Gparams deltas h0 h hg0 hg hells hS.cond hS.ker hS.mass backward) h1 h2 hr).2

/-- **C70** for `al_csmc_f.kernel` (Particle-aMALA). -/
theorem C70_al (key : Key) (Gparams : Fin n → G) (deltas : Fin (n + 1) → ℝ)
    (h0 : Measurable Gamma0) (h : ∀ g, Measurable fun p : Vec d × Vec d => Gammat p.1 p.2 g)
    (hg0 : Measurable Gamma0_grad) (hg : ∀ g, Measurable fun p : Vec d × Vec d => Gammat_grad p.1 p.2 g) (hells : ∀ t, 0 < ells t)
    (hR : sel_resampling resampling = .ok R) (hm : sel_last_step last_step = .ok mv) (hN : N ≠ 0) (backward : Bool) :
    let logpi := pathLogDensity Gamma0 (fun t y x => Gammat y x (Gparams t))
    let K := fun (x : Fin (n + 1) → Vec d) (b : Fin (n + 1) → Fin (N + 1)) => (do
      let r ← al_kernel key x b Gamma0 Gamma0_grad Gammat Gammat_grad Gparams ells deltas R mv backward
      pure (r.xs, r.Bs) : Ex _)
    Reaches (trajVol (n + 1) d) (fun s : (Fin (n + 1) → Vec d) × (Fin (n + 1) → Fin (N + 1)) => K s.1 s.2 >>= fun r => pure r.1) ∧
      (last_step = "barker" → ∫⁻ x, ENNReal.ofReal (Real.exp (logpi x)) ∂trajVol (n + 1) d ≠ 0 ∧
        ∫⁻ x, ENNReal.ofReal (Real.exp (logpi x)) ∂trajVol (n + 1) d ≠ ∞ → OnlyInvariant (lawOf (trajVol (n + 1) d) logpi) K) := by
  intro logpi K
  have hS := sel_ok hR hm
  have hr := fun x b f hf => al_reach (f := f) key Gparams deltas h0 h hg0 hg hells hS.cond hS.ker backward (sel_reach hR hm hN backward) x b hf
  refine ⟨Spec.Reaches.of_le fun s f hf => hr s.1 s.2 f hf, fun hb hZ => ?_⟩
  obtain ⟨h1, -, h2⟩ := C62_al key Gparams deltas h0 h hg0 hg hells hS.cond hS.rotR (sel_barker hm hb) hS.rot backward
  exact (onlyInvariant (measurable_pathLogDensity h0 fun _ => h _) hZ
    (al_markov key Gparams deltas h0 h hg0 hg hells hS.cond hS.ker hS.mass backward) h1 h2 hr).2

end aux

section proposals
variable {MP RP : Type} {svd : Mat d d → SvdOut d} {M : GaussModel MP RP n d} {ells : Fin (n + 1) → ℝ}

/-- **C70** for `tp_csmc.kernel` (Particle-mGRAD). -/
theorem C70_tp (h : ProposalOK svd M ells) (hM : GaussMeas M) (key : Key) (deltas : Fin (n + 1) → ℝ)
    (hR : sel_resampling resampling = .ok R) (hm : sel_last_step last_step = .ok mv) (hN : N ≠ 0) (backward : Bool) :
    let K := fun (x : Fin (n + 1) → Vec d) (b : Fin (n + 1) → Fin (N + 1)) => (do
      let r ← tp_csmc_kernel svd M key x b ells deltas R mv backward
      pure (r.xs, r.Bs) : Ex _)
    Reaches (trajVol (n + 1) d) (fun s : (Fin (n + 1) → Vec d) × (Fin (n + 1) → Fin (N + 1)) => K s.1 s.2 >>= fun r => pure r.1) ∧
      (last_step = "barker" → ∫⁻ x, ENNReal.ofReal (Real.exp (gaussPath M x)) ∂trajVol (n + 1) d ≠ 0 ∧
        ∫⁻ x, ENNReal.ofReal (Real.exp (gaussPath M x)) ∂trajVol (n + 1) d ≠ ∞ → OnlyInvariant (lawOf (trajVol (n + 1) d) (gaussPath M)) K) := by
  intro K
  have hS := sel_ok hR hm
  have hr := fun x b f hf => tp_reach (f := f) h hM key deltas hS.cond hS.ker backward (sel_reach hR hm hN backward) x b hf
  refine ⟨Spec.Reaches.of_le fun s f hf => hr s.1 s.2 f hf, fun hb hZ => ?_⟩
  obtain ⟨h1, -, h2⟩ := C62_tp h hM key deltas hS.cond hS.rotR (sel_barker hm hb) hS.rot backward
  exact (onlyInvariant (measurable_gaussPath hM) hZ
    (tp_markov h hM key deltas hS.cond hS.ker hS.mass backward) h1 h2 hr).2

/-- **C70** for `atp_csmc_f.kernel` (Particle-aGRAD), for the covariances of C34. -/
theorem C70_atp (h : ProposalOK svd M ells) (hM : GaussMeas M)
    (hd : ∀ t, insert0 M.P0 M.Qs t = diagonal (svd (insert0 M.P0 M.Qs t)).Gamma) (key : Key) (deltas : Fin (n + 1) → ℝ)
    (hR : sel_resampling resampling = .ok R) (hm : sel_last_step last_step = .ok mv) (hN : N ≠ 0) (backward : Bool) :
    let K := fun (x : Fin (n + 1) → Vec d) (b : Fin (n + 1) → Fin (N + 1)) => (do
      let r ← atp_kernel svd M key x b ells deltas R mv backward
      pure (r.xs, r.Bs) : Ex _)
    Reaches (trajVol (n + 1) d) (fun s : (Fin (n + 1) → Vec d) × (Fin (n + 1) → Fin (N + 1)) => K s.1 s.2 >>= fun r => pure r.1) ∧
      (last_step = "barker" → ∫⁻ x, ENNReal.ofReal (Real.exp (gaussPath M x)) ∂trajVol (n + 1) d ≠ 0 ∧
        ∫⁻ x, ENNReal.ofReal (Real.exp (gaussPath M x)) ∂trajVol (n + 1) d ≠ ∞ → OnlyInvariant (lawOf (trajVol (n + 1) d) (gaussPath M)) K) := by
  intro K
  have hS := sel_ok hR hm
  have hex : ∀ t, (make_proposal svd M ells t).chol_invᵀ * (make_proposal svd M ells t).chol_inv =
      ((make_proposal svd M ells t).chol * (make_proposal svd M ells t).cholᵀ)⁻¹ := fun t => by
    rw [svd_chol_eq h t]
    exact (atp_precision_iff (h.posDef t) (h.isSvd t) (h.pos t) (h.floor t)).mpr (hd t)
  have hr := fun x b f hf => atp_reach (f := f) h hM hex key deltas hS.cond hS.ker backward (sel_reach hR hm hN backward) x b hf
  refine ⟨Spec.Reaches.of_le fun s f hf => hr s.1 s.2 f hf, fun hb hZ => ?_⟩
  obtain ⟨h1, -⟩ := C62_atp (svd := svd) (ells := ells) hM key deltas hS.cond hS.rotR hS.ker hS.rot backward
  exact (onlyInvariant (measurable_gaussPath hM) hZ
    (atp_markov h hM hex key deltas hS.cond hS.ker hS.mass backward) h1
    (C62_atp_invariant h hM hd key deltas hS.cond hS.rotR (sel_barker hm hb) hS.rot backward) hr).2

end proposals

section twisted
variable {RP : Type} {ells : Fin (n + 1) → ℝ} {M : LinModel RP n d}

/-- **C70** for `t_atp_csmc_f.kernel` (twisted Particle-aGRAD), with any reversed dynamics: the only invariant law is the process
they describe, reweighted by the potentials. -/
theorem C70_t {r : RevDyn n d} (hM : LinMeas M) (hT : r.PT.PosDef) (hQ : ∀ t, (r.Qs t).PosDef) (hells : ∀ t, 0 < ells t)
    (key : Key) (deltas : Fin (n + 1) → ℝ)
    (hR : sel_resampling resampling = .ok R) (hm : sel_last_step last_step = .ok mv) (hN : N ≠ 0) (backward : Bool) :
    let K := fun (x : Fin (n + 1) → Vec d) (b : Fin (n + 1) → Fin (N + 1)) => (do
      let r ← t_atp_kernel_rev r M key x b ells deltas R mv backward
      pure (r.xs, r.Bs) : Ex _)
    Reaches (trajVol (n + 1) d) (fun s : (Fin (n + 1) → Vec d) × (Fin (n + 1) → Fin (N + 1)) => K s.1 s.2 >>= fun r => pure r.1) ∧
      (last_step = "barker" → ∫⁻ x, ENNReal.ofReal (Real.exp (revPath r M x)) ∂trajVol (n + 1) d ≠ 0 ∧
        ∫⁻ x, ENNReal.ofReal (Real.exp (revPath r M x)) ∂trajVol (n + 1) d ≠ ∞ → OnlyInvariant (lawOf (trajVol (n + 1) d) (revPath r M)) K) := by
  intro K
  have hS := sel_ok hR hm
  have hr := fun x b f hf => t_reach (f := f) hM hT hQ hells key deltas hS.cond hS.ker backward (sel_reach hR hm hN backward) x b hf
  refine ⟨Spec.Reaches.of_le fun s f hf => hr s.1 s.2 f hf, fun hb hZ => ?_⟩
  have h1 : Relabels K := t_relabels r hM key ells deltas hS.cond hS.rotR hS.ker hS.rot backward
  exact (onlyInvariant (measurable_revPath hM r) hZ (t_markov hM hT hQ hells key deltas hS.cond hS.ker hS.mass backward) h1
    (h1.invariant (C57_invariant_rev hM hT hQ hells key deltas hS.cond (sel_barker hm hb) backward)) hr).2

/-- **C57**, exactly: with the Barker move and at least two particles, `t_atp_csmc_f.kernel` leaves its target invariant if and only if
its reversed dynamics are right. The covariances of the computed dynamics have to be positive definite for the code to run (Cholesky
factors); masses are finite for instance for bounded potentials. -/
theorem C57_invariant_iff (hM : LinMeas M) (hP : M.P0.PosDef) (hQ : ∀ t, (M.Qs t).PosDef)
    (hT : (get_reversed_dynamics M.mu0 M.P0 M.Fs M.Qs M.bs).PT.PosDef)
    (hS : ∀ t, ((get_reversed_dynamics M.mu0 M.P0 M.Fs M.Qs M.bs).Qs t).PosDef) (hells : ∀ t, 0 < ells t)
    {C : ℝ} (hC : ∀ x, pathLogDensity M.r0 (fun t y x => M.rt y x (M.rt_params t)) x ≤ C)
    (key : Key) (deltas : Fin (n + 1) → ℝ)
    (hR : sel_resampling resampling = .ok R) (hm : sel_last_step "barker" = .ok mv) (hN : N ≠ 0) (backward : Bool) :
    LeavesInvariant volume (linPath M) (fun x b => do
      let r ← t_atp_kernel M key x b ells deltas R mv backward
      pure (r.xs, r.Bs)) ↔
    IsReversal M.mu0 M.P0 M.Fs M.Qs M.bs (get_reversed_dynamics M.mu0 M.P0 M.Fs M.Qs M.bs) := by
  have hO := sel_ok hR hm
  refine ⟨fun h => ?_, fun h => C57_invariant_partial hM h hells key deltas hO.cond (sel_barker hm rfl) backward⟩
  have hZ := linPath_mass hM hP hQ hC
  have hZ' := revPath_mass hM hT hS hC
  have hu := ((C70_t hM hT hS hells key deltas hR hm hN backward).2 rfl hZ').1
  have hl := measurable_linPath hM
  have := lawOf_isProb hZ hl
  refine reversal_of_law hM hP hQ hT hS hZ hZ' ((hu (fun _ => 0) _).mp fun f hf => ?_)
  have hrel : Relabels (fun (x : Fin (n + 1) → Vec d) (b : Fin (n + 1) → Fin (N + 1)) => (do
      let r ← t_atp_kernel M key x b ells deltas R mv backward
      pure (r.xs, r.Bs) : Ex _)) := t_relabels _ hM key ells deltas hO.cond hO.rotR hO.ker hO.rot backward
  have hk := (t_markov hM hT hS hells key deltas hO.cond hO.ker hO.mass backward).ker
  have hb : IsKer fun x : Fin (n + 1) → Vec d => ((t_atp_kernel M key x (fun _ => 0) ells deltas R mv backward : Ex _) >>= fun r =>
      pure (r.xs, r.Bs)) >>= fun r => pure r.1 :=
    (hk.comp (g := fun x : Fin (n + 1) → Vec d => (x, fun _ => (0 : Fin (N + 1)))) (by fun_prop)).bind
      (IsKer.pure (g := fun p : (Fin (n + 1) → Vec d) × ((Fin (n + 1) → Vec d) × (Fin (n + 1) → Fin (N + 1))) => p.2.1) (by fun_prop))
  exact ((lintegral_lawOf hl (hb.measurable' hf)).trans (congrArg _ (hrel.invariant h (fun _ => 0) f hf))).trans (lintegral_lawOf hl hf).symm

/-- A random walk with drift, and potentials that are identically zero. -/
noncomputable def driftLin : LinModel Unit 1 1 where
  mu0 := 0
  P0 := 1
  r0 _ := 0
  r0_grad _ := 0
  Fs _ := 1
  bs _ := 1
  Qs _ := 1
  rt _ _ _ := 0
  rt_grad _ _ _ := 0
  rt_params _ := ()

theorem driftLin_meas : LinMeas driftLin where
  r0 := measurable_const
  r0_grad := measurable_const
  rt _ := measurable_const
  rt_grad _ := measurable_const

theorem driftLin_PT : (get_reversed_dynamics driftLin.mu0 driftLin.P0 driftLin.Fs driftLin.Qs driftLin.bs).PT = (2 : ℝ) • 1 := by
  show (0.5 : ℝ) • ((1ᵀ * 1 * 1 + 1) + (1ᵀ * 1 * 1 + 1)ᵀ) = (2 : ℝ) • (1 : Mat 1 1)
  simp only [transpose_one, Matrix.mul_one, transpose_add]
  rw [show (1 : Mat 1 1) + 1 = (2 : ℝ) • 1 from (two_smul ℝ _).symm, ← two_smul ℝ ((2 : ℝ) • (1 : Mat 1 1)), smul_smul, smul_smul]
  norm_num

theorem driftLin_Qs (t : Fin 1) :
    (get_reversed_dynamics driftLin.mu0 driftLin.P0 driftLin.Fs driftLin.Qs driftLin.bs).Qs t = (1 / 2 : ℝ) • 1 := by
  have ht : t = 0 := Subsingleton.elim _ _
  subst ht
  have hK : get_gain (1 : Mat 1 1) 1 1 = (1 / 2 : ℝ) • 1 := by
    rw [get_gain, solvePos]
    simp only [transpose_one, Matrix.mul_one]
    rw [show (1 : Mat 1 1) + 1 = (2 : ℝ) • 1 from (two_smul ℝ _).symm, inv_smul_one (by norm_num)]
    simp
  show (0.5 : ℝ) • ((1 - get_gain (1 : Mat 1 1) 1 1 * 1 * 1) + (1 - get_gain (1 : Mat 1 1) 1 1 * 1 * 1)ᵀ) = (1 / 2 : ℝ) • 1
  rw [hK]
  ext i j
  have hi : i = 0 := Subsingleton.elim _ _
  have hj : j = 0 := Subsingleton.elim _ _
  subst hi hj
  simp
  norm_num

/-- **C57** is false in general: for a one-dimensional random walk with drift over two time steps, with potentials that are
identically zero, no choice of step sizes, resampling, scanning or number of particles makes the kernel leave its target
invariant. -/
theorem C57_false {ells : Fin 2 → ℝ} (hells : ∀ t, 0 < ells t) (key : Key) (deltas : Fin 2 → ℝ)
    (hR : sel_resampling resampling = .ok R) (hm : sel_last_step "barker" = .ok mv) (hN : N ≠ 0) (backward : Bool) :
    ¬ LeavesInvariant volume (linPath driftLin) (fun x b => do
      let r ← t_atp_kernel driftLin key x b ells deltas R mv backward
      pure (r.xs, r.Bs)) := by
  rw [C57_invariant_iff driftLin_meas PosDef.one (fun _ => PosDef.one) (by rw [driftLin_PT]; exact posDef_smul_one (by norm_num))
    (fun t => by rw [driftLin_Qs]; exact posDef_smul_one (by norm_num)) hells (C := 0)
    (fun x => by simp [pathLogDensity, driftLin]) key deltas hR hm hN backward]
  exact fun h => C36_false_drift h

end twisted

section second
variable {G : Type} {Gamma0 : Vec d → ℝ} {Gamma0_grad : Vec d → Vec d} {Gammat : Vec d → Vec d → G → ℝ}
  {Gammat_grad0 Gammat_grad1 : Vec d → Vec d → G → Vec d} {ells : Fin (n + 3) → ℝ}

/-- **C70** for `al_csmc_s.kernel` with backward scanning (smoothing-style Particle-aMALA). -/
theorem C70_als (key : Key) (Gparams : Fin (n + 2) → G) (deltas : Fin (n + 3) → ℝ)
    (h0 : Measurable Gamma0) (h : ∀ g, Measurable fun p : Vec d × Vec d => Gammat p.1 p.2 g)
    (hg : Measurable Gamma0_grad) (hg0 : ∀ g, Measurable fun p : Vec d × Vec d => Gammat_grad0 p.1 p.2 g)
    (hg1 : ∀ g, Measurable fun p : Vec d × Vec d => Gammat_grad1 p.1 p.2 g) (hells : ∀ t, 0 < ells t)
    (hR : sel_resampling resampling = .ok R) (hm : sel_last_step last_step = .ok mv) (hN : N ≠ 0) :
    let logpi := pathLogDensity Gamma0 (fun t y x => Gammat y x (Gparams t))
    let K := fun (x : Fin (n + 3) → Vec d) (b : Fin (n + 3) → Fin (N + 1)) => (do
      let r ← als_kernel key x b Gamma0 Gamma0_grad Gammat Gammat_grad0 Gammat_grad1 Gparams ells deltas R mv false
      pure (r.xs, r.Bs) : Ex _)
    Reaches (trajVol (n + 3) d) (fun s : (Fin (n + 3) → Vec d) × (Fin (n + 3) → Fin (N + 1)) => K s.1 s.2 >>= fun r => pure r.1) ∧
      (last_step = "barker" → ∫⁻ x, ENNReal.ofReal (Real.exp (logpi x)) ∂trajVol (n + 3) d ≠ 0 ∧
        ∫⁻ x, ENNReal.ofReal (Real.exp (logpi x)) ∂trajVol (n + 3) d ≠ ∞ → OnlyInvariant (lawOf (trajVol (n + 3) d) logpi) K) := by
  intro logpi K
  have hS := sel_ok hR hm
  have e : K = fun x b => als_kernelF id key x b Gamma0 Gamma0_grad Gammat Gammat_grad0 Gammat_grad1 Gparams ells deltas R mv false :=
    funext fun x => funext fun b => als_kernel_eq_F key x b Gparams ells deltas R mv false
  have hr : ∀ x b f, Measurable f → ∫⁻ x, f x ∂(Measure.pi fun _ => volume) ≤ ∞ * K x b (fun r => f r.1) := fun x b f hf => by
    rw [e]
    exact als_reach key Gparams deltas h0 h hg hg0 hg1 hells hS.cond hS.ker false id (fun F => ⟨rfl, rfl, rfl⟩)
      (fun hb => absurd hb (by decide)) (sel_reach hR hm hN false) x b hf
  refine ⟨Spec.Reaches.of_le fun s f hf => hr s.1 s.2 f hf, fun hb hZ => ?_⟩
  obtain ⟨h1, -, h2⟩ := C62_als key Gparams deltas h0 h hg hg0 hg1 hells hS.cond hS.rotR (sel_barker hm hb) hS.rot
  refine (onlyInvariant (measurable_pathLogDensity h0 fun _ => h _) hZ ?_ h1 h2 hr).2
  have := (alsF_markov_relabels key Gparams deltas h0 h hg hg0 hg1 hells hS.cond hS.ker false id
    (fun F => ⟨rfl, rfl, rfl⟩) (fun hb => absurd hb (by decide))).1 hS.mass
  rw [← e] at this
  exact this

end second

/-! ## Examples: the linear Gaussian experiment (`sigma = 2`, `D = 3`, `T = 20`), two particles and more -/

section examples

/-- Two particles suffice. -/
example (ys : Traj 20 3) : OnlyInvariant (lawOf (trajVol 20 3) (lgTarget 2 ys))
    (fun (x : Fin 20 → Vec 3) (b : Fin 20 → Fin 2) => (do
      let r ← lg_csmc_kernel ys 2 (fun key w i j c => killing key w i j c) (fun key w k => barker_move key w k) false [] x b
      pure (r.xs, r.Bs) : Ex _)) := by
  have hZ := lgTarget_mass (sigma := 2) (by norm_num) ys
  rw [← lgTarget_gamma ys (by norm_num)] at hZ ⊢
  exact (C70_csmc (resampling := "killing") (last_step := "barker") volume [] (C19_lgssm_proper ys (by norm_num)) (tailA ys) (tailA ys)
    rfl rfl one_ne_zero false).2 rfl hZ

example (ys : Traj 20 3) : OnlyInvariant (lawOf (trajVol 20 3) (lgTarget 2 ys))
    (fun (x : Fin 20 → Vec 3) (b : Fin 20 → Fin 26) => (do
      let r ← lg_rw_csmc (fun _ => true) ys 2 (fun key w i j c => multinomial key w i j c) (fun key w k => barker_move key w k) true [] x b
        (fun _ => 0.1)
      pure (r.xs, r.Bs) : Ex _)) := by
  have hZ := lgTarget_mass (sigma := 2) (by norm_num) ys
  rw [← lgTarget_gamma ys (by norm_num)] at hZ ⊢
  exact (C70_rw (resampling := "multinomial") (last_step := "barker") [] (tailA ys) (continuous_lgGamma_0 ys (by norm_num)).measurable
    (fun y => (continuous_lgGamma_t (by norm_num) y).measurable) (fun _ => by norm_num) rfl rfl (by decide) true).2 rfl hZ

/-- With the forced move: trajectories of any set of positive measure are reached. -/
example (ys : Traj 20 3) := (C70_l (N := 25) (Gamma0_grad := jaxGrad (lgGamma_0 ys 2))
  (Gammat_grad := fun x' x y => jaxGrad (fun x => lgGamma_t 2 x' x y) x) (resampling := "killing") (last_step := "forced") [] (tailA ys) (fun _ => 0.1)
  (continuous_lgGamma_0 ys (by norm_num : (0 : ℝ) < 2)).measurable (fun y => (continuous_lgGamma_t (by norm_num : (0 : ℝ) < 2) y).measurable)
  (measurable_jaxGrad _) (measurable_lgGrad (by norm_num : (0 : ℝ) < 2)) (ells := fun _ => 0.1) (fun _ => by norm_num) rfl rfl (by decide) true).1

example (ys : Traj 20 3) : OnlyInvariant (lawOf (trajVol 20 3) (lgTarget 2 ys))
    (fun (x : Fin 20 → Vec 3) (b : Fin 20 → Fin 26) => (do
      let r ← lg_mala_csmc_filtering ys 2 (fun key w i j c => multinomial key w i j c) (fun key w k => barker_move key w k) false [] x b
        (fun _ => 0.1)
      pure (r.xs, r.Bs) : Ex _)) := by
  have hZ := lgTarget_mass (sigma := 2) (by norm_num) ys
  rw [← lgTarget_gamma ys (by norm_num)] at hZ ⊢
  exact (C70_al (resampling := "multinomial") (last_step := "barker") [] (tailA ys) _ (continuous_lgGamma_0 ys (by norm_num)).measurable
    (fun y => (continuous_lgGamma_t (by norm_num) y).measurable) (measurable_jaxGrad _) (measurable_lgGrad (by norm_num))
    (fun _ => by norm_num) rfl rfl (by decide) false).2 rfl hZ

/-- Particle-mGRAD and Particle-aGRAD, with the factorisation of `sigma² I`. -/
example (ys : Traj 20 3) : OnlyInvariant (lawOf (trajVol 20 3) (gaussPath (lgGauss ys 2 false)))
    (fun (x : Fin 20 → Vec 3) (b : Fin 20 → Fin 26) => (do
      let r ← tp_csmc_kernel (diagSvd 3) (lgGauss ys 2 false) [] x b (fun _ => 0.1) (fun _ => 0.1)
        (fun key w i j c => killing key w i j c) (fun key w k => barker_move key w k) true
      pure (r.xs, r.Bs) : Ex _)) ∧
    OnlyInvariant (lawOf (trajVol 20 3) (gaussPath (lgGauss ys 2 false)))
    (fun (x : Fin 20 → Vec 3) (b : Fin 20 → Fin 26) => (do
      let r ← atp_kernel (diagSvd 3) (lgGauss ys 2 false) [] x b (fun _ => 0.1) (fun _ => 0.1)
        (fun key w i j c => killing key w i j c) (fun key w k => barker_move key w k) false
      pure (r.xs, r.Bs) : Ex _)) := by
  have hsvd := diagSvd_smul 3 (c := 2 ^ 2) (by norm_num)
  have hok := lgGauss_ok ys (sigma := 2) (by norm_num) false hsvd (delta := fun _ => 0.1) (fun _ => by norm_num) fun _ => by norm_num
  have hZ := lgTarget_mass (sigma := 2) (by norm_num) ys
  rw [show lgTarget 2 ys = gaussPath (lgGauss ys 2 false) from funext fun x => (C55_lgssm_tp_csmc 2 false ys x).1.symm] at hZ
  refine ⟨(C70_tp (resampling := "killing") (last_step := "barker") hok (lgGauss_meas ys 2 false) [] _ rfl rfl (by decide) true).2 rfl hZ,
    (C70_atp (resampling := "killing") (last_step := "barker") hok (lgGauss_meas ys 2 false) (fun t => ?_) [] _ rfl rfl (by decide) false).2 rfl hZ⟩
  rw [lgGauss_cov]
  exact isotropic_diagonal (by norm_num) hsvd

example (ys : Traj 20 3) : OnlyInvariant (lawOf (trajVol 20 3) (lgTarget 2 ys))
    (fun (x : Fin 20 → Vec 3) (b : Fin 20 → Fin 26) => (do
      let r ← als_kernel (n := 17) [] x b (lgGamma_0 ys 2) (jaxGrad (lgGamma_0 ys 2)) (lgGamma_t 2) (fun _ _ _ => 0)
        (fun x' x y => jaxGrad (fun x => lgGamma_t 2 x' x y) x) (tailA ys) (fun _ => 0.1) (fun _ => 0.1)
        (fun key w i j c => killing key w i j c) (fun key w k => barker_move key w k) false
      pure (r.xs, r.Bs) : Ex _)) := by
  have hZ := lgTarget_mass (sigma := 2) (by norm_num) ys
  rw [← lgTarget_gamma ys (by norm_num)] at hZ ⊢
  exact (C70_als (n := 17) (resampling := "killing") (last_step := "barker") [] (tailA ys) _ (continuous_lgGamma_0 ys (by norm_num)).measurable
    (fun y => (continuous_lgGamma_t (by norm_num) y).measurable) (measurable_jaxGrad _) (fun _ => measurable_const)
    (measurable_lgGrad (by norm_num)) (fun _ => by norm_num) rfl rfl (by decide)).2 rfl hZ

/-- The reversed dynamics of a model without drift, with bounded potentials. -/
example (y : Fin 9 → ℝ) : OnlyInvariant (lawOf (trajVol 10 2) (linPath (exLin y)))
    (fun (x : Fin 10 → Vec 2) (b : Fin 10 → Fin 26) => (do
      let r ← t_atp_kernel (exLin y) [] x b (fun _ => 2) (fun _ => 1) (fun key w i j c => killing key w i j c)
        (fun key w k => barker_move key w k) true
      pure (r.xs, r.Bs) : Ex _)) := by
  have hr : IsReversal (exLin y).mu0 (exLin y).P0 (exLin y).Fs (exLin y).Qs (exLin y).bs
      (get_reversed_dynamics (exLin y).mu0 (exLin y).P0 (exLin y).Fs (exLin y).Qs (exLin y).bs) :=
    C36_scalar_partial (fun _ => 0.9) (posDef_smul_one (by norm_num)) (fun _ => posDef_smul_one (by norm_num))
  have hZ := revPath_mass (exLin_meas y) hr.final_posDef hr.posDef (C := 0) fun x => by
    simp only [pathLogDensity, exLin]
    have : ∑ t : Fin 9, -(x t.succ 0 - y t) ^ 2 ≤ 0 := Finset.sum_nonpos fun t _ => by nlinarith [sq_nonneg (x t.succ 0 - y t)]
    nlinarith [sq_nonneg (x 0 0)]
  rw [show linPath (exLin y) = revPath _ (exLin y) from funext (linPath_rev hr)]
  exact (C70_t (resampling := "killing") (last_step := "barker") (exLin_meas y) hr.final_posDef hr.posDef (fun _ => by norm_num) [] _
    rfl rfl (by decide) true).2 rfl hZ

example (key : Key) : ¬ LeavesInvariant (N := 31) volume (linPath driftLin) (fun x b => do
      let r ← t_atp_kernel driftLin key x b (fun _ => 0.01) (fun _ => 0.01) (fun key w i j c => killing key w i j c)
        (fun key w k => barker_move key w k) true
      pure (r.xs, r.Bs)) :=
  C57_false (resampling := "killing") (fun _ => by norm_num) key _ rfl rfl (by decide) true

end examples

end Verif.Props
