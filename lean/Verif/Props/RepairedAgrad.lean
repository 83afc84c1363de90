import Verif.Lemmas.RepairedAtpsKernel
import Verif.Props.GradFalse
import Verif.Props.SmoothingFalse

/-!
# C87: with the faulty steps repaired, Particle-aGRAD and Particle-aGRAD+ leave their targets invariant
-/

open scoped ENNReal
open MeasureTheory

namespace Verif.Props
open Verif Verif.Spec Verif.Model Matrix

variable {N n d : ℕ} {MP RP : Type} {svd : Mat d d → SvdOut d} {rt_grad0 : Vec d → Vec d → RP → Vec d}

/-- C87: what is repaired is the code.  With the steps of the code, `atp_kernelWith` is `atp_csmc_f.kernel`. -/
theorem C87_code_f {m : Type → Type} [RandM m] (M : GaussModel MP RP n d) (key : Key) (x : Fin (n + 1) → Vec d)
    (b : Fin (n + 1) → Fin (N + 1)) (ells deltas : Fin (n + 1) → ℝ) (resampling : Resampling m N) (mv : AncestorMove m N)
    (backward : Bool) :
    atp_kernelWith (make_proposal svd M ells) M key x b ells deltas resampling mv backward =
      atp_kernel svd M key x b ells deltas resampling mv backward := rfl

/-- C87: with the steps of the code, `atps_kernelWith` is `atp_csmc_s.kernel`. -/
theorem C87_code_s {m : Type → Type} [RandM m] [LawfulMonad m] (M : GaussModel MP RP (n + 2) d) (key : Key)
    (x : Fin (n + 3) → Vec d) (b : Fin (n + 3) → Fin (N + 1)) (ells deltas : Fin (n + 3) → ℝ) (resampling : Resampling m N)
    (mv : AncestorMove m N) (backward : Bool) :
    atps_kernelWith (fun Xs _ _ => Xs) (fun v a => take v a) (make_proposal svd M ells) M rt_grad0 key x b ells deltas
      resampling mv backward = atps_kernel svd M rt_grad0 key x b ells deltas resampling mv backward :=
  atps_kernelWith_code svd M rt_grad0 key x b ells deltas resampling mv backward

/-- C87: `make_proposal` is right exactly if every covariance is the diagonal matrix of its singular values in the order of
`svd`. -/
theorem C87_right_iff {M : GaussModel MP RP n d} {ells : Fin (n + 1) → ℝ} (h : ProposalOK svd M ells) :
    RightProposal svd M ells (make_proposal svd M ells) ↔
      ∀ t, insert0 M.P0 M.Qs t = diagonal (svd (insert0 M.P0 M.Qs t)).Gamma := by
  have e : ∀ t, (make_proposal svd M ells t).chol_invᵀ * (make_proposal svd M ells t).chol_inv =
      ((make_proposal svd M ells t).chol * (make_proposal svd M ells t).cholᵀ)⁻¹ ↔
        insert0 M.P0 M.Qs t = diagonal (svd (insert0 M.P0 M.Qs t)).Gamma := fun t => by
    rw [svd_chol_eq h t]
    exact atp_precision_iff (h.posDef t) (h.isSvd t) (h.pos t) (h.floor t)
  exact ⟨fun hp t => (e t).mp (hp.density t), fun hd => make_proposal_right fun t => (e t).mpr (hd t)⟩

/-- **C87** for `atp_csmc_f` (Particle-aGRAD): with proposal parameters whose density is right the kernel leaves the target
invariant, for all covariances. -/
theorem C87_repaired_f {M : GaussModel MP RP n d} {ells : Fin (n + 1) → ℝ} (h : ProposalOK svd M ells) (hM : GaussMeas M)
    {prop : Fin (n + 1) → PropParams d} (hp : RightProposal svd M ells prop) (key : Key) (deltas : Fin (n + 1) → ℝ)
    {resampling : Resampling Ex N} {mv : AncestorMove Ex N}
    (hR : ∀ key, CondResampling (fun w i j => resampling key w i j true))
    (hmv : ∀ key, MoveInvariant (fun w k => do
      let r ← mv key w k
      pure r.1)) (backward : Bool) :
    LeavesInvariant volume (gaussPath M)
      (fun x b => do
        let r ← atp_kernelWith prop M key x b ells deltas resampling mv backward
        pure (r.xs, r.Bs)) :=
  gaussPath_shift h (atpWith_invariant h hM hp key deltas hR hmv backward)

/-- C87 for `atp_csmc_f` with `chol_inv` the inverse of `chol`. -/
theorem C87_exact_f {M : GaussModel MP RP n d} {ells : Fin (n + 1) → ℝ} (h : ProposalOK svd M ells) (hM : GaussMeas M)
    (key : Key) (deltas : Fin (n + 1) → ℝ) {resampling : Resampling Ex N} {mv : AncestorMove Ex N}
    (hR : ∀ key, CondResampling (fun w i j => resampling key w i j true))
    (hmv : ∀ key, MoveInvariant (fun w k => do
      let r ← mv key w k
      pure r.1)) (backward : Bool) :
    LeavesInvariant volume (gaussPath M)
      (fun x b => do
        let r ← atp_kernelWith (exactProposal svd M ells) M key x b ells deltas resampling mv backward
        pure (r.xs, r.Bs)) :=
  C87_repaired_f h hM (exactProposal_right h) key deltas hR hmv backward

section smoothing
variable {M : GaussModel MP RP (n + 2) d} {ells deltas : Fin (n + 3) → ℝ} {resampling : Resampling Ex N} {mv : AncestorMove Ex N}

/-- **C87** for `atp_csmc_s` (Particle-aGRAD+): with proposal parameters whose density is right, the reference written into
its place, and the particles of time 1 having the resampled particles of time 0 as parents, the kernel leaves the target
invariant, for all covariances and both backward passes. -/
theorem C87_repaired_s (h : ProposalOK svd M ells) (hM : GaussMeas M)
    (hg0 : ∀ g, Measurable fun p : Vec d × Vec d => rt_grad0 p.1 p.2 g) {prop : Fin (n + 3) → PropParams d}
    (hp : RightProposal svd M ells prop) (key : Key)
    (hR : ∀ key, CondResampling (fun w i j => resampling key w i j true))
    (hmv : ∀ key, MoveInvariant (fun w k => do
      let r ← mv key w k
      pure r.1)) (backward : Bool) :
    LeavesInvariant volume (gaussPath M) (fun x b => (atps_kernelWith (fun Xs b x => atSet Xs b x) (fun v _ => v) prop M rt_grad0
      key x b ells deltas resampling mv backward : Ex _)) :=
  atpsWith_invariant h hM hg0 hp _ key hR hmv backward fun _ _ _ => rfl

/-- C87 for `atp_csmc_s` with `chol_inv` the inverse of `chol`. -/
theorem C87_exact_s (h : ProposalOK svd M ells) (hM : GaussMeas M)
    (hg0 : ∀ g, Measurable fun p : Vec d × Vec d => rt_grad0 p.1 p.2 g) (key : Key)
    (hR : ∀ key, CondResampling (fun w i j => resampling key w i j true))
    (hmv : ∀ key, MoveInvariant (fun w k => do
      let r ← mv key w k
      pure r.1)) (backward : Bool) :
    LeavesInvariant volume (gaussPath M) (fun x b => (atps_kernelWith (fun Xs b x => atSet Xs b x) (fun v _ => v)
      (exactProposal svd M ells) M rt_grad0 key x b ells deltas resampling mv backward : Ex _)) :=
  C87_repaired_s h hM hg0 (exactProposal_right h) key hR hmv backward

/-- C87 for `atp_csmc_s` with backward scanning (`backward = False`): the parents handed to the backward pass are not used,
and the reference is the only step to repair if the covariances are diagonal matrices of their singular values. -/
theorem C87_scanning_s (h : ProposalOK svd M ells) (hM : GaussMeas M)
    (hg0 : ∀ g, Measurable fun p : Vec d × Vec d => rt_grad0 p.1 p.2 g)
    (hd : ∀ t, insert0 M.P0 M.Qs t = diagonal (svd (insert0 M.P0 M.Qs t)).Gamma) (key : Key)
    (hR : ∀ key, CondResampling (fun w i j => resampling key w i j true))
    (hmv : ∀ key, MoveInvariant (fun w k => do
      let r ← mv key w k
      pure r.1)) :
    LeavesInvariant volume (gaussPath M) (fun x b => (atps_kernelWith (fun Xs b x => atSet Xs b x) (fun v a => take v a)
      (make_proposal svd M ells) M rt_grad0 key x b ells deltas resampling mv false : Ex _)) :=
  atpsWith_invariant h hM hg0 ((C87_right_iff h).mpr hd) _ key hR hmv false fun h => by cases h

end smoothing

/-! ### Concrete models -/

/-- A model with correlated covariances and the gradients of its potentials meeting the hypotheses of C87, with killing
resampling, the Barker move and backward sampling. -/
example (y : Fin 9 → ℝ) : ∃ svd, ProposalOK svd (exModel y) (fun _ => 2) ∧
    ¬ RightProposal svd (exModel y) (fun _ => 2) (make_proposal svd (exModel y) (fun _ => 2)) ∧
    LeavesInvariant (N := 25) volume (gaussPath (exModel y)) (fun x b => do
      let r ← atp_kernelWith (exactProposal svd (exModel y) fun _ => 2) (exModel y) [] x b (fun _ => 2) (fun _ => 1)
        (fun key w i j c => killing key w i j c) (fun key w k => barker_move key w k) true
      pure (r.xs, r.Bs)) ∧
    LeavesInvariant (N := 25) volume (gaussPath (exModel y)) (fun x b =>
      (atps_kernelWith (n := 7) (fun Xs b x => atSet Xs b x) (fun v _ => v) (exactProposal svd (exModel y) fun _ => 2) (exModel y)
        (fun _ _ _ => 0) [] x b (fun _ => 2) (fun _ => 1) (fun key w i j c => killing key w i j c)
        (fun key w k => barker_move key w k) true : Ex _)) := by
  obtain ⟨s, hs⟩ := exists_svd exQ_posDef
  have h : ProposalOK (fun _ => s) (exModel y) (fun _ => 2) := by
    constructor
    · intro t; rw [exModel_cov]; exact exQ_posDef
    · intro t; rw [exModel_cov]; exact hs
    · intro t; norm_num
    · intro t; rw [exModel_cov]; exact exQ_floor
  refine ⟨fun _ => s, h, fun hp => ?_, ?_, ?_⟩
  · have e := congrFun (congrFun ((C87_right_iff h).mp hp 0) 0) 1
    rw [exModel_cov, diagonal_apply_ne _ (by decide)] at e
    norm_num [exQ] at e
  · exact C87_exact_f h (exModel_meas y) [] _ (fun key => killing_condResampling key) (fun key => barker_moveInvariant key) true
  · exact C87_exact_s (n := 7) h (exModel_meas y) (fun _ => measurable_const) [] (fun key => killing_condResampling key)
      (fun key => barker_moveInvariant key) true

/-- The model of C29 with a step potential: the kernel of the code does not leave its target invariant; with the reference
written into its place it does. -/
example := C87_scanning_s (N := 25) (n := 0) (rt_grad0 := fun _ _ _ => 0) (deltas := fun _ => 2)
  (exLast_ok (fun x => if 0 < x 0 then 1 else 0) fun _ => 0)
  (exLast_meas (Measurable.ite (measurableSet_lt measurable_const (measurable_pi_apply 0)) measurable_const measurable_const)
    measurable_const) (fun _ => measurable_const) (fun t => by rw [exLast_cov]; simp) []
  (fun key => killing_condResampling key) (fun key => barker_moveInvariant key)

end Verif.Props
