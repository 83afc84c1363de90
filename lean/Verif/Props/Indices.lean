import Verif.Lemmas.MarkovKernels
import Verif.Props.Chains
import Verif.Props.Gradient
import Verif.Props.AuxGradient
import Verif.Props.Grad
import Verif.Props.Twisted

/-!
# C62: the indices of the reference are only labels
-/

open scoped ENNReal
open MeasureTheory

namespace Verif.Props
open Verif Verif.Model Verif.Spec Matrix

/-! ## One step -/

section csmc
variable {X P G : Type} [MeasurableSpace X] {N n : ℕ}

/-- C62 for `csmc.kernel` with any proper model: relabelling the reference relabels the result; the law of the new
trajectory and of the acceptance flags does not depend on the indices; and the target is left invariant from any fixed
indices. -/
theorem C62_csmc (lam : Measure X) [SigmaFinite lam] (key : Key) {M : FK Ex X P G N} (hM : ProperFK lam M)
    (Mparams : Fin n → P) (Gparams : Fin n → G) {resampling : Resampling Ex N} {mv : AncestorMove Ex N}
    (hR : ∀ key, CondResampling (fun w i j => resampling key w i j true))
    (hR' : ∀ key, RotResampling (fun w i j => resampling key w i j true))
    (hmv : ∀ key, MoveInvariant (moveIndex mv key)) (hm' : ∀ key, RotMove (moveIndex mv key)) (backward : Bool) :
    let K := fun x b => (do
      let r ← csmc_kernel key x b M Mparams Gparams resampling mv backward true
      pure (r.xs, r.Bs) : Ex _)
    Relabels K ∧ IndexFree K ∧
      InvariantFromAnyIndex lam (pathLogDensity M.Gamma0 (fun t y x => M.Gammat y x (Gparams t))) K := by
  intro K
  have h : Relabels K := (csmc_markov_relabels lam key hM Mparams Gparams hR (fun key => (hmv key).ker) backward).2 hR' hm'
  exact ⟨h, h.indexFree, h.invariant (C15_C16_csmc_invariant lam key M hM Mparams Gparams resampling hR mv hmv backward)⟩

/-- Without a proper model: labels do not matter as soon as proposals and weights do not depend on them. The moves may
be the forced ones, for which the kernel is not invariant. -/
theorem C62_csmc_labels (key : Key) {M : FK Ex X P G N} {Mparams : Fin n → P} {Gparams : Fin n → G} (hM : RotFK M)
    (hM' : MeasFK M n Mparams Gparams) {resampling : Resampling Ex N} {mv : AncestorMove Ex N}
    (hR : ∀ key, CondResampling (fun w i j => resampling key w i j true))
    (hR' : ∀ key, RotResampling (fun w i j => resampling key w i j true))
    (hm : ∀ key, MoveKer (moveIndex mv key)) (hm' : ∀ key, RotMove (moveIndex mv key)) (backward : Bool) :
    let K := fun x b => (do
      let r ← csmc_kernel key x b M Mparams Gparams resampling mv backward true
      pure (r.xs, r.Bs) : Ex _)
    Relabels K ∧ IndexFree K := by
  intro K
  have h : Relabels K := csmc_relabels key hM hM' hR hR' hm hm' backward
  exact ⟨h, h.indexFree⟩

end csmc

section aux
variable {d N n : ℕ} {G : Type} {Gamma0 : Vec d → ℝ} {Gamma0_grad : Vec d → Vec d} {Gammat : Vec d → Vec d → G → ℝ}
  {Gammat_grad : Vec d → Vec d → G → Vec d} {ells : Fin (n + 1) → ℝ} {resampling : Resampling Ex N} {mv : AncestorMove Ex N}

/-- C62 for `rw_csmc.kernel`. -/
theorem C62_rw (key : Key) (Gparams : Fin n → G)
    (h0 : Measurable Gamma0) (h : ∀ g, Measurable fun p : Vec d × Vec d => Gammat p.1 p.2 g)
    (hells : ∀ t, 0 < ells t) (hR : ∀ key, CondResampling (fun w i j => resampling key w i j true))
    (hR' : ∀ key, RotResampling (fun w i j => resampling key w i j true))
    (hmv : ∀ key, MoveInvariant (moveIndex mv key)) (hm' : ∀ key, RotMove (moveIndex mv key)) (backward : Bool) :
    let K := fun x b => (do
      let r ← rw_kernel (fun _ => true) key x b Gamma0 Gammat Gparams ells resampling mv backward
      pure (r.xs, r.Bs) : Ex _)
    Relabels K ∧ IndexFree K ∧ InvariantFromAnyIndex volume (pathLogDensity Gamma0 (fun t y x => Gammat y x (Gparams t))) K := by
  intro K
  have hL : Relabels K := rw_relabels key Gparams h0 h hells hR hR' (fun key => (hmv key).ker) hm' backward
  exact ⟨hL, hL.indexFree, hL.invariant (C21_rw_invariant key Gparams h0 h hells hR hmv backward)⟩

/-- C62 for `l_csmc_f.kernel` (Particle-MALA). -/
theorem C62_l (key : Key) (Gparams : Fin n → G) (deltas : Fin (n + 1) → ℝ)
    (h0 : Measurable Gamma0) (h : ∀ g, Measurable fun p : Vec d × Vec d => Gammat p.1 p.2 g)
    (hg0 : Measurable Gamma0_grad) (hg : ∀ g, Measurable fun p : Vec d × Vec d => Gammat_grad p.1 p.2 g)
    (hells : ∀ t, 0 < ells t) (hR : ∀ key, CondResampling (fun w i j => resampling key w i j true))
    (hR' : ∀ key, RotResampling (fun w i j => resampling key w i j true))
    (hmv : ∀ key, MoveInvariant (moveIndex mv key)) (hm' : ∀ key, RotMove (moveIndex mv key)) (backward : Bool) :
    let K := fun x b => (do
      let r ← l_kernel key x b Gamma0 Gamma0_grad Gammat Gammat_grad Gparams ells deltas resampling mv backward
      pure (r.xs, r.Bs) : Ex _)
    Relabels K ∧ IndexFree K ∧ InvariantFromAnyIndex volume (pathLogDensity Gamma0 (fun t y x => Gammat y x (Gparams t))) K := by
  intro K
  have hL : Relabels K := l_relabels key Gparams deltas h0 h hg0 hg hells hR hR' (fun key => (hmv key).ker) hm' backward
  exact ⟨hL, hL.indexFree, hL.invariant (C23_l_invariant key Gparams deltas h0 h hg0 hg hells hR hmv backward)⟩

/-- C62 for `al_csmc_f.kernel` (Particle-aMALA). -/
theorem C62_al (key : Key) (Gparams : Fin n → G) (deltas : Fin (n + 1) → ℝ)
    (h0 : Measurable Gamma0) (h : ∀ g, Measurable fun p : Vec d × Vec d => Gammat p.1 p.2 g)
    (hg0 : Measurable Gamma0_grad) (hg : ∀ g, Measurable fun p : Vec d × Vec d => Gammat_grad p.1 p.2 g)
    (hells : ∀ t, 0 < ells t) (hR : ∀ key, CondResampling (fun w i j => resampling key w i j true))
    (hR' : ∀ key, RotResampling (fun w i j => resampling key w i j true))
    (hmv : ∀ key, MoveInvariant (moveIndex mv key)) (hm' : ∀ key, RotMove (moveIndex mv key)) (backward : Bool) :
    let K := fun x b => (do
      let r ← al_kernel key x b Gamma0 Gamma0_grad Gammat Gammat_grad Gparams ells deltas resampling mv backward
      pure (r.xs, r.Bs) : Ex _)
    Relabels K ∧ IndexFree K ∧ InvariantFromAnyIndex volume (pathLogDensity Gamma0 (fun t y x => Gammat y x (Gparams t))) K := by
  intro K
  have hL : Relabels K := al_relabels key Gparams deltas h0 h hg0 hg hells hR hR' (fun key => (hmv key).ker) hm' backward
  exact ⟨hL, hL.indexFree, hL.invariant (C22_al_invariant key Gparams deltas h0 h hg0 hg hells hR hmv backward)⟩

end aux

section proposals
variable {d N n : ℕ} {MP RP : Type} {svd : Mat d d → SvdOut d} {M : GaussModel MP RP n d} {ells : Fin (n + 1) → ℝ}
  {resampling : Resampling Ex N} {mv : AncestorMove Ex N}

/-- C62 for `tp_csmc.kernel` (Particle-mGRAD). -/
theorem C62_tp (h : ProposalOK svd M ells) (hM : GaussMeas M) (key : Key) (deltas : Fin (n + 1) → ℝ)
    (hR : ∀ key, CondResampling (fun w i j => resampling key w i j true))
    (hR' : ∀ key, RotResampling (fun w i j => resampling key w i j true))
    (hmv : ∀ key, MoveInvariant (moveIndex mv key)) (hm' : ∀ key, RotMove (moveIndex mv key)) (backward : Bool) :
    let K := fun x b => (do
      let r ← tp_csmc_kernel svd M key x b ells deltas resampling mv backward
      pure (r.xs, r.Bs) : Ex _)
    Relabels K ∧ IndexFree K ∧ InvariantFromAnyIndex volume (gaussPath M) K := by
  intro K
  have hL : Relabels K := tp_relabels svd hM key ells deltas hR hR' (fun key => (hmv key).ker) hm' backward
  exact ⟨hL, hL.indexFree, hL.invariant (C35_tp_invariant h hM key deltas hR hmv backward)⟩

/-- C62 for `atp_csmc_f.kernel` (Particle-aGRAD): labels do not matter, also for the covariances for which the kernel
does not leave its target invariant (C34). -/
theorem C62_atp (hM : GaussMeas M) (key : Key) (deltas : Fin (n + 1) → ℝ)
    (hR : ∀ key, CondResampling (fun w i j => resampling key w i j true))
    (hR' : ∀ key, RotResampling (fun w i j => resampling key w i j true))
    (hm : ∀ key, MoveKer (moveIndex mv key)) (hm' : ∀ key, RotMove (moveIndex mv key)) (backward : Bool) :
    let K := fun x b => (do
      let r ← atp_kernel svd M key x b ells deltas resampling mv backward
      pure (r.xs, r.Bs) : Ex _)
    Relabels K ∧ IndexFree K := by
  intro K
  have hL : Relabels K := atp_relabels svd hM key ells deltas hR hR' hm hm' backward
  exact ⟨hL, hL.indexFree⟩

/-- C62 for `atp_csmc_f.kernel`: invariance from any fixed indices, for the covariances of C34. -/
theorem C62_atp_invariant (h : ProposalOK svd M ells) (hM : GaussMeas M)
    (hd : ∀ t, insert0 M.P0 M.Qs t = diagonal (svd (insert0 M.P0 M.Qs t)).Gamma) (key : Key) (deltas : Fin (n + 1) → ℝ)
    (hR : ∀ key, CondResampling (fun w i j => resampling key w i j true))
    (hR' : ∀ key, RotResampling (fun w i j => resampling key w i j true))
    (hmv : ∀ key, MoveInvariant (moveIndex mv key)) (hm' : ∀ key, RotMove (moveIndex mv key)) (backward : Bool) :
    InvariantFromAnyIndex volume (gaussPath M) (fun x b => do
      let r ← atp_kernel svd M key x b ells deltas resampling mv backward
      pure (r.xs, r.Bs)) :=
  (atp_relabels svd hM key ells deltas hR hR' (fun key => (hmv key).ker) hm' backward).invariant
    (C34_atp_invariant_partial h hM hd key deltas hR hmv backward)

/-- C62 for `t_atp_csmc_f.kernel` (twisted Particle-aGRAD). -/
theorem C62_t {M : LinModel RP n d} (hM : LinMeas M) (key : Key) (deltas : Fin (n + 1) → ℝ)
    (hR : ∀ key, CondResampling (fun w i j => resampling key w i j true))
    (hR' : ∀ key, RotResampling (fun w i j => resampling key w i j true))
    (hm : ∀ key, MoveKer (moveIndex mv key)) (hm' : ∀ key, RotMove (moveIndex mv key)) (backward : Bool) :
    let K := fun x b => (do
      let r ← t_atp_kernel M key x b ells deltas resampling mv backward
      pure (r.xs, r.Bs) : Ex _)
    Relabels K ∧ IndexFree K := by
  intro K
  have hL : Relabels K := t_relabels _ hM key ells deltas hR hR' hm hm' backward
  exact ⟨hL, hL.indexFree⟩

/-- C62 for `t_atp_csmc_f.kernel`: invariance from any fixed indices, when the reversed dynamics are right. -/
theorem C62_t_invariant {M : LinModel RP n d} (hM : LinMeas M)
    (hr : IsReversal M.mu0 M.P0 M.Fs M.Qs M.bs (get_reversed_dynamics M.mu0 M.P0 M.Fs M.Qs M.bs))
    (hells : ∀ t, 0 < ells t) (key : Key) (deltas : Fin (n + 1) → ℝ)
    (hR : ∀ key, CondResampling (fun w i j => resampling key w i j true))
    (hR' : ∀ key, RotResampling (fun w i j => resampling key w i j true))
    (hmv : ∀ key, MoveInvariant (moveIndex mv key)) (hm' : ∀ key, RotMove (moveIndex mv key)) (backward : Bool) :
    InvariantFromAnyIndex volume (linPath M) (fun x b => do
      let r ← t_atp_kernel M key x b ells deltas resampling mv backward
      pure (r.xs, r.Bs)) :=
  Relabels.invariant (C62_t hM key deltas hR hR' (fun key => (hmv key).ker) hm' backward).1
    (C57_invariant_partial hM hr hells key deltas hR hmv backward)

end proposals

section second
variable {d N n : ℕ} {G : Type} {Gamma0 : Vec d → ℝ} {Gamma0_grad : Vec d → Vec d} {Gammat : Vec d → Vec d → G → ℝ}
  {Gammat_grad0 Gammat_grad1 : Vec d → Vec d → G → Vec d} {ells : Fin (n + 3) → ℝ} {resampling : Resampling Ex N}
  {mv : AncestorMove Ex N}

/-- C62 for `al_csmc_s.kernel` with backward scanning (smoothing-style Particle-aMALA). -/
theorem C62_als (key : Key) (Gparams : Fin (n + 2) → G) (deltas : Fin (n + 3) → ℝ)
    (h0 : Measurable Gamma0) (h : ∀ g, Measurable fun p : Vec d × Vec d => Gammat p.1 p.2 g)
    (hg : Measurable Gamma0_grad) (hg0 : ∀ g, Measurable fun p : Vec d × Vec d => Gammat_grad0 p.1 p.2 g)
    (hg1 : ∀ g, Measurable fun p : Vec d × Vec d => Gammat_grad1 p.1 p.2 g)
    (hells : ∀ t, 0 < ells t) (hR : ∀ key, CondResampling (fun w i j => resampling key w i j true))
    (hR' : ∀ key, RotResampling (fun w i j => resampling key w i j true))
    (hmv : ∀ key, MoveInvariant (moveIndex mv key)) (hm' : ∀ key, RotMove (moveIndex mv key)) :
    let K := fun x b => (do
      let r ← als_kernel key x b Gamma0 Gamma0_grad Gammat Gammat_grad0 Gammat_grad1 Gparams ells deltas resampling mv false
      pure (r.xs, r.Bs) : Ex _)
    Relabels K ∧ IndexFree K ∧ InvariantFromAnyIndex volume (pathLogDensity Gamma0 (fun t y x => Gammat y x (Gparams t))) K := by
  intro K
  have hL : Relabels K := ((alsF_markov_relabels key Gparams deltas h0 h hg hg0 hg1 hells hR (fun key => (hmv key).ker) false id
    (fun F => ⟨rfl, rfl, rfl⟩) (fun hb => absurd hb (by decide))).2 hR' hm').congr fun x b f _ =>
      congrFun (als_kernel_eq_F key x b Gparams ells deltas resampling mv false) f
  exact ⟨hL, hL.indexFree, hL.invariant (C27_al_csmc_s_invariant_partial key Gparams deltas h0 h hg hg0 hg1 hells hR hmv false
    (fun hb => absurd hb (by decide)))⟩

end second

/-! ## Runs -/

section runs
variable {X : Type} [MeasurableSpace X] {N n : ℕ}

/-- C62 for `sampling_routine`: the joint law of all samples and all acceptance flags does not depend on the initial
indices. -/
theorem C62_sampling_labels {kernel : Key → (Fin (n + 1) → X) × (Fin (n + 1) → Fin (N + 1)) →
      Ex ((Fin (n + 1) → X) × (Fin (n + 1) → Fin (N + 1)))} (hk : ∀ key, IsKer (kernel key))
    (hK : ∀ key, Relabels fun x b => kernel key (x, b)) (key : Key) (n_samples g : ℕ) (x : Fin (n + 1) → X)
    (b b' : Fin (n + 1) → Fin (N + 1))
    (F : (Fin (strideLen n_samples g) → Fin (n + 1) → X) × (Fin (strideLen n_samples g) → Fin (n + 1) → Bool) → ℝ≥0∞)
    (hF : Measurable F) :
    sampling_routine key x b kernel n_samples g F = sampling_routine key x b' kernel n_samples g F := by
  have e : ∀ b, (sampling_routine key x b kernel n_samples g : Ex _) F = chain kernel (x, b) (splitKey key n_samples) (fun tr =>
      F (fun k => (tr ⟨k * g + 1, Nat.succ_lt_succ (strideLen_lt k)⟩).1,
        fun k t => decide ((tr ⟨k * g + 1, Nat.succ_lt_succ (strideLen_lt k)⟩).2 t ≠
          (tr ⟨k * g, Nat.lt_succ_of_lt (strideLen_lt k)⟩).2 t))) := fun b =>
    congrFun (C49_sampling (m := Ex) key x b kernel n_samples g) F
  have hd : Measurable fun p : Fin (N + 1) × Fin (N + 1) => decide (p.1 ≠ p.2) := Measurable.of_discrete
  have hm : Measurable fun tr : Fin (n_samples + 1) → (Fin (n + 1) → X) × (Fin (n + 1) → Fin (N + 1)) =>
      F (fun k => (tr ⟨k * g + 1, Nat.succ_lt_succ (strideLen_lt k)⟩).1,
        fun k t => decide ((tr ⟨k * g + 1, Nat.succ_lt_succ (strideLen_lt k)⟩).2 t ≠
          (tr ⟨k * g, Nat.lt_succ_of_lt (strideLen_lt k)⟩).2 t)) := by
    refine hF.comp (Measurable.prodMk (by fun_prop) (measurable_pi_lambda _ fun k => measurable_pi_lambda _ fun t => ?_))
    exact hd.comp (by fun_prop : Measurable fun tr : Fin (n_samples + 1) → (Fin (n + 1) → X) × (Fin (n + 1) → Fin (N + 1)) =>
      ((tr ⟨k * g + 1, Nat.succ_lt_succ (strideLen_lt k)⟩).2 t, (tr ⟨k * g, Nat.lt_succ_of_lt (strideLen_lt k)⟩).2 t))
  rw [e, e]
  have := chain_relabels hk hK (splitKey key n_samples) x b (b' - b) _ hm
  rw [add_sub_cancel] at this
  rw [this]
  refine Ex.congr_fun' (chain kernel (x, b) (splitKey key n_samples)) fun tr => congrArg F (Prod.ext rfl ?_)
  funext k t
  refine decide_eq_decide.mpr (not_congr ?_)
  exact (add_left_inj ((b' - b) t)).symm

/-- C62 for `sampling_routine`: started from the target and any fixed indices, every sample has the target as its law. -/
theorem C62_sampling {lam : Measure X} {logpi : (Fin (n + 1) → X) → ℝ}
    {kernel : Key → (Fin (n + 1) → X) × (Fin (n + 1) → Fin (N + 1)) →
      Ex ((Fin (n + 1) → X) × (Fin (n + 1) → Fin (N + 1)))} (hM : ∀ key, MarkovStep fun x b => kernel key (x, b))
    (hK : ∀ key, Relabels fun x b => kernel key (x, b))
    (hinv : ∀ key, LeavesInvariant lam logpi fun x b => kernel key (x, b)) (key : Key) (n_samples g : ℕ)
    (k : Fin (strideLen n_samples g)) (b : Fin (n + 1) → Fin (N + 1)) (f : (Fin (n + 1) → X) → ℝ≥0∞) (hf : Measurable f) :
    ∫⁻ x, ENNReal.ofReal (Real.exp (logpi x)) *
      sampling_routine key x b kernel n_samples g (fun r => f (r.1 k)) ∂(Measure.pi fun _ => lam) =
    ∫⁻ x, ENNReal.ofReal (Real.exp (logpi x)) * f x ∂(Measure.pi fun _ => lam) := by
  have h1 := C50_sampling lam logpi kernel (fun key => (hM key).ker) (fun key s => (hM key).mass s.1 s.2) hinv key n_samples g k f hf
  have e : ∀ b' x, sampling_routine key x b' kernel n_samples g (fun r => f (r.1 k)) =
      sampling_routine key x b kernel n_samples g (fun r => f (r.1 k)) := fun b' x =>
    C62_sampling_labels (fun key => (hM key).ker) hK key n_samples g x b' b (fun r => f (r.1 k)) (by fun_prop)
  simp only [e, Finset.sum_const, nsmul_eq_mul] at h1
  refine (ENNReal.mul_right_inj ?_ (ENNReal.natCast_ne_top _)).mp h1
  simp

end runs

section runs_of_kernels
variable {d N n : ℕ} {G : Type} {Gamma0 : Vec d → ℝ} {Gamma0_grad : Vec d → Vec d} {Gammat : Vec d → Vec d → G → ℝ}
  {Gammat_grad : Vec d → Vec d → G → Vec d} {ells : Fin (n + 1) → ℝ}

/-- Every sample of a run of `csmc.kernel`, started from the target and any fixed indices, has the target as its law. -/
theorem C62_csmc_sampling {X P G : Type} [MeasurableSpace X] (lam : Measure X) [SigmaFinite lam] {M : FK Ex X P G N}
    (hM : ProperFK lam M) (Mparams : Fin n → P) (Gparams : Fin n → G) (backward : Bool) (key : Key) (n_samples g : ℕ)
    (k : Fin (strideLen n_samples g)) (b : Fin (n + 1) → Fin (N + 1)) (f : (Fin (n + 1) → X) → ℝ≥0∞) (hf : Measurable f) :
    let logpi := pathLogDensity M.Gamma0 (fun t y x => M.Gammat y x (Gparams t))
    ∫⁻ x, ENNReal.ofReal (Real.exp (logpi x)) * sampling_routine key x b (fun key s => (do
      let r ← csmc_kernel key s.1 s.2 M Mparams Gparams (fun key w i j c => killing key w i j c)
        (fun key w k => barker_move key w k) backward true
      pure (r.xs, r.Bs) : Ex _)) n_samples g (fun r => f (r.1 k)) ∂(Measure.pi fun _ => lam) =
    ∫⁻ x, ENNReal.ofReal (Real.exp (logpi x)) * f x ∂(Measure.pi fun _ => lam) := by
  intro logpi
  have hkr := fun key => csmc_markov_relabels lam key hM Mparams Gparams (fun key => killing_condResampling key)
    (fun key => (barker_moveInvariant key).ker) backward
  exact C62_sampling (fun key => (hkr key).1 fun key _ hw k => barker_mass key hw k) (fun key => (hkr key).2 killing_rot barker_rot)
    (fun key => C15_C16_csmc_invariant lam key M hM Mparams Gparams _ (fun key => killing_condResampling key) _
      (fun key => barker_moveInvariant key) backward) key n_samples g k b f hf

/-- The same for `rw_csmc.kernel`. -/
theorem C62_rw_sampling (Gparams : Fin n → G)
    (h0 : Measurable Gamma0) (h : ∀ g, Measurable fun p : Vec d × Vec d => Gammat p.1 p.2 g) (hells : ∀ t, 0 < ells t)
    (backward : Bool) (key : Key) (n_samples g : ℕ)
    (k : Fin (strideLen n_samples g)) (b : Fin (n + 1) → Fin (N + 1)) (f : (Fin (n + 1) → Vec d) → ℝ≥0∞) (hf : Measurable f) :
    let logpi := pathLogDensity Gamma0 (fun t y x => Gammat y x (Gparams t))
    ∫⁻ x, ENNReal.ofReal (Real.exp (logpi x)) * sampling_routine key x b (fun key s => (do
      let r ← rw_kernel (fun _ => true) key s.1 s.2 Gamma0 Gammat Gparams ells (fun key w i j c => killing key w i j c)
        (fun key w k => barker_move key w k) backward
      pure (r.xs, r.Bs) : Ex _)) n_samples g (fun r => f (r.1 k)) =
    ∫⁻ x, ENNReal.ofReal (Real.exp (logpi x)) * f x := by
  intro logpi
  exact C62_sampling (fun key => rw_markov key Gparams h0 h hells (fun key => killing_condResampling key)
      (fun key => (barker_moveInvariant key).ker) (fun key _ hw k => barker_mass key hw k) backward)
    (fun key => (C62_rw key Gparams h0 h hells (fun key => killing_condResampling key) killing_rot
      (fun key => barker_moveInvariant key) barker_rot backward).1)
    (fun key => C21_rw_invariant_killing_barker key Gparams h0 h hells backward) key n_samples g k b f hf

/-- The same for `l_csmc_f.kernel`. -/
theorem C62_l_sampling (Gparams : Fin n → G) (deltas : Fin (n + 1) → ℝ)
    (h0 : Measurable Gamma0) (h : ∀ g, Measurable fun p : Vec d × Vec d => Gammat p.1 p.2 g)
    (hg0 : Measurable Gamma0_grad) (hg : ∀ g, Measurable fun p : Vec d × Vec d => Gammat_grad p.1 p.2 g) (hells : ∀ t, 0 < ells t)
    (backward : Bool) (key : Key) (n_samples g : ℕ)
    (k : Fin (strideLen n_samples g)) (b : Fin (n + 1) → Fin (N + 1)) (f : (Fin (n + 1) → Vec d) → ℝ≥0∞) (hf : Measurable f) :
    let logpi := pathLogDensity Gamma0 (fun t y x => Gammat y x (Gparams t))
    ∫⁻ x, ENNReal.ofReal (Real.exp (logpi x)) * sampling_routine key x b (fun key s => (do
      let r ← l_kernel key s.1 s.2 Gamma0 Gamma0_grad Gammat Gammat_grad Gparams ells deltas (fun key w i j c => killing key w i j c)
        (fun key w k => barker_move key w k) backward
      pure (r.xs, r.Bs) : Ex _)) n_samples g (fun r => f (r.1 k)) =
    ∫⁻ x, ENNReal.ofReal (Real.exp (logpi x)) * f x := by
  intro logpi
  exact C62_sampling (fun key => l_markov key Gparams deltas h0 h hg0 hg hells (fun key => killing_condResampling key)
      (fun key => (barker_moveInvariant key).ker) (fun key _ hw k => barker_mass key hw k) backward)
    (fun key => (C62_l key Gparams deltas h0 h hg0 hg hells (fun key => killing_condResampling key) killing_rot
      (fun key => barker_moveInvariant key) barker_rot backward).1)
    (fun key => C23_l_invariant_killing_barker key Gparams deltas h0 h hg0 hg hells backward) key n_samples g k b f hf

/-- The same for `al_csmc_f.kernel`. -/
theorem C62_al_sampling (Gparams : Fin n → G) (deltas : Fin (n + 1) → ℝ)
    (h0 : Measurable Gamma0) (h : ∀ g, Measurable fun p : Vec d × Vec d => Gammat p.1 p.2 g)
    (hg0 : Measurable Gamma0_grad) (hg : ∀ g, Measurable fun p : Vec d × Vec d => Gammat_grad p.1 p.2 g) (hells : ∀ t, 0 < ells t)
    (backward : Bool) (key : Key) (n_samples g : ℕ)
    (k : Fin (strideLen n_samples g)) (b : Fin (n + 1) → Fin (N + 1)) (f : (Fin (n + 1) → Vec d) → ℝ≥0∞) (hf : Measurable f) :
    let logpi := pathLogDensity Gamma0 (fun t y x => Gammat y x (Gparams t))
    ∫⁻ x, ENNReal.ofReal (Real.exp (logpi x)) * sampling_routine key x b (fun key s => (do
      let r ← al_kernel key s.1 s.2 Gamma0 Gamma0_grad Gammat Gammat_grad Gparams ells deltas (fun key w i j c => killing key w i j c)
        (fun key w k => barker_move key w k) backward
      pure (r.xs, r.Bs) : Ex _)) n_samples g (fun r => f (r.1 k)) =
    ∫⁻ x, ENNReal.ofReal (Real.exp (logpi x)) * f x := by
  intro logpi
  exact C62_sampling (fun key => al_markov key Gparams deltas h0 h hg0 hg hells (fun key => killing_condResampling key)
      (fun key => (barker_moveInvariant key).ker) (fun key _ hw k => barker_mass key hw k) backward)
    (fun key => (C62_al key Gparams deltas h0 h hg0 hg hells (fun key => killing_condResampling key) killing_rot
      (fun key => barker_moveInvariant key) barker_rot backward).1)
    (fun key => C22_al_invariant key Gparams deltas h0 h hg0 hg hells (fun key => killing_condResampling key)
      (fun key => barker_moveInvariant key) backward) key n_samples g k b f hf

/-- The same for `tp_csmc.kernel`. -/
theorem C62_tp_sampling {MP RP : Type} {svd : Mat d d → SvdOut d} {M : GaussModel MP RP n d} (h : ProposalOK svd M ells)
    (hM : GaussMeas M) (deltas : Fin (n + 1) → ℝ) (backward : Bool) (key : Key) (n_samples g : ℕ)
    (k : Fin (strideLen n_samples g)) (b : Fin (n + 1) → Fin (N + 1)) (f : (Fin (n + 1) → Vec d) → ℝ≥0∞) (hf : Measurable f) :
    ∫⁻ x, ENNReal.ofReal (Real.exp (gaussPath M x)) * sampling_routine key x b (fun key s => (do
      let r ← tp_csmc_kernel svd M key s.1 s.2 ells deltas (fun key w i j c => killing key w i j c)
        (fun key w k => barker_move key w k) backward
      pure (r.xs, r.Bs) : Ex _)) n_samples g (fun r => f (r.1 k)) =
    ∫⁻ x, ENNReal.ofReal (Real.exp (gaussPath M x)) * f x :=
  C62_sampling (fun key => tp_markov h hM key deltas (fun key => killing_condResampling key)
      (fun key => (barker_moveInvariant key).ker) (fun key _ hw k => barker_mass key hw k) backward)
    (fun key => (C62_tp h hM key deltas (fun key => killing_condResampling key) killing_rot
      (fun key => barker_moveInvariant key) barker_rot backward).1)
    (fun key => C35_tp_invariant_killing_barker h hM key deltas backward) key n_samples g k b f hf

/-- The same for `atp_csmc_f.kernel`, for the covariances of C34. -/
theorem C62_atp_sampling {MP RP : Type} {svd : Mat d d → SvdOut d} {M : GaussModel MP RP n d} (h : ProposalOK svd M ells)
    (hM : GaussMeas M) (hd : ∀ t, insert0 M.P0 M.Qs t = diagonal (svd (insert0 M.P0 M.Qs t)).Gamma)
    (deltas : Fin (n + 1) → ℝ) (backward : Bool) (key : Key) (n_samples g : ℕ)
    (k : Fin (strideLen n_samples g)) (b : Fin (n + 1) → Fin (N + 1)) (f : (Fin (n + 1) → Vec d) → ℝ≥0∞) (hf : Measurable f) :
    ∫⁻ x, ENNReal.ofReal (Real.exp (gaussPath M x)) * sampling_routine key x b (fun key s => (do
      let r ← atp_kernel svd M key s.1 s.2 ells deltas (fun key w i j c => killing key w i j c)
        (fun key w k => barker_move key w k) backward
      pure (r.xs, r.Bs) : Ex _)) n_samples g (fun r => f (r.1 k)) =
    ∫⁻ x, ENNReal.ofReal (Real.exp (gaussPath M x)) * f x := by
  have hex : ∀ t, (make_proposal svd M ells t).chol_invᵀ * (make_proposal svd M ells t).chol_inv =
      ((make_proposal svd M ells t).chol * (make_proposal svd M ells t).cholᵀ)⁻¹ := fun t => by
    rw [svd_chol_eq h t]
    exact (atp_precision_iff (h.posDef t) (h.isSvd t) (h.pos t) (h.floor t)).mpr (hd t)
  exact C62_sampling (fun key => atp_markov h hM hex key deltas (fun key => killing_condResampling key)
      (fun key => (barker_moveInvariant key).ker) (fun key _ hw k => barker_mass key hw k) backward)
    (fun key => (C62_atp hM key deltas (fun key => killing_condResampling key) killing_rot
      (fun key => (barker_moveInvariant key).ker) barker_rot backward).1)
    (fun key => C34_atp_invariant_partial h hM hd key deltas (fun key => killing_condResampling key)
      (fun key => barker_moveInvariant key) backward) key n_samples g k b f hf

/-- The same for `t_atp_csmc_f.kernel`, when the reversed dynamics are right. -/
theorem C62_t_sampling {RP : Type} {M : LinModel RP n d} (hM : LinMeas M)
    (hr : IsReversal M.mu0 M.P0 M.Fs M.Qs M.bs (get_reversed_dynamics M.mu0 M.P0 M.Fs M.Qs M.bs)) (hells : ∀ t, 0 < ells t)
    (deltas : Fin (n + 1) → ℝ) (backward : Bool) (key : Key) (n_samples g : ℕ)
    (k : Fin (strideLen n_samples g)) (b : Fin (n + 1) → Fin (N + 1)) (f : (Fin (n + 1) → Vec d) → ℝ≥0∞) (hf : Measurable f) :
    ∫⁻ x, ENNReal.ofReal (Real.exp (linPath M x)) * sampling_routine key x b (fun key s => (do
      let r ← t_atp_kernel M key s.1 s.2 ells deltas (fun key w i j c => killing key w i j c)
        (fun key w k => barker_move key w k) backward
      pure (r.xs, r.Bs) : Ex _)) n_samples g (fun r => f (r.1 k)) =
    ∫⁻ x, ENNReal.ofReal (Real.exp (linPath M x)) * f x :=
  C62_sampling (fun key => t_markov hM hr.final_posDef hr.posDef hells key deltas (fun key => killing_condResampling key)
      (fun key => (barker_moveInvariant key).ker) (fun key _ hw k => barker_mass key hw k) backward)
    (fun key => (C62_t hM key deltas (fun key => killing_condResampling key) killing_rot
      (fun key => (barker_moveInvariant key).ker) barker_rot backward).1)
    (fun key => C57_invariant_partial hM hr hells key deltas (fun key => killing_condResampling key)
      (fun key => barker_moveInvariant key) backward) key n_samples g k b f hf

end runs_of_kernels

/-! ## Examples -/

/-- A run of `csmc.kernel` started at indices zero, as `init` does. -/
example (y : Fin 7 → Fin 2 → ℝ) (f : (Fin 8 → Fin 2 → ℝ) → ℝ≥0∞) (hf : Measurable f) :=
  C62_csmc_sampling (n := 7) (N := 25) volume (exampleFK_proper 2 25) (fun _ => ()) y true [] 100 10
    (⟨3, by decide⟩ : Fin (strideLen 100 10)) 0 f hf

/-- Multinomial resampling. -/
example (y : Fin 7 → Fin 2 → ℝ) := C62_csmc (n := 7) volume [] (exampleFK_proper 2 25) (fun _ => ()) y
  (fun key => multinomial_condResampling key) multinomial_rot (fun key => barker_moveInvariant key) barker_rot false

/-- A run of Particle-MALA. -/
example (y : Fin 9 → ℝ) (f : (Fin 10 → Vec 1) → ℝ≥0∞) (hf : Measurable f) := C62_l_sampling (N := 25) (n := 9) (d := 1)
  (Gamma0 := fun x => -(x 0 ^ 2)) (Gamma0_grad := fun x _ => -2 * x 0)
  (Gammat := fun y x (o : ℝ) => -(x 0 - y 0) ^ 2 - (x 0 - o) ^ 2)
  (Gammat_grad := fun y x (o : ℝ) _ => -2 * (x 0 - y 0) - 2 * (x 0 - o))
  y (ells := fun t => 1 + t) (fun t => 2 + t) (by fun_prop) (fun g => by fun_prop) (by fun_prop) (fun g => by fun_prop)
  (fun t => by positivity) true [] 50 5 ⟨7, by decide⟩ 0 f hf

/-- The forced move does not look at the labels either. -/
example (y : Fin 9 → ℝ) (svd : Mat 2 2 → SvdOut 2) :=
  C62_atp (N := 25) (svd := svd) (ells := fun _ => 2) (exModel_meas y) [] (fun _ => 1) (fun key => killing_condResampling key) killing_rot
    force_moveKer force_rot true

end Verif.Props
