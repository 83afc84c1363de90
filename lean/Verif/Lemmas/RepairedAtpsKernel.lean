import Verif.Lemmas.RepairedAtps

/-!
# Particle-aGRAD+ with the reference written into the particles leaves its target invariant
-/

open scoped ENNReal
open MeasureTheory ProbabilityTheory

namespace Verif
open Verif.Spec Verif.Model Matrix

variable {N n d : ℕ} {MP RP : Type} {svd : Mat d d → SvdOut d} {M : GaussModel MP RP (n + 2) d}
  {rt_grad0 : Vec d → Vec d → RP → Vec d} {prop : Fin (n + 3) → PropParams d} {ells deltas : Fin (n + 3) → ℝ}

/-- The system given the auxiliary variables. -/
noncomputable def atpsS (svd : Mat d d → SvdOut d) (M : GaussModel MP RP (n + 2) d)
    (rt_grad0 : Vec d → Vec d → RP → Vec d) (key : Key) (ells deltas : Fin (n + 3) → ℝ)
    (resampling : Resampling Ex N) (u : Fin (n + 3) → Vec d) : Sys (Vec d × Vec d) N (n + 2) :=
  atp2Sys (tpGamma_0 M.mu0 (invChol M.P0) M.r0) (tpGam M) (alsA0 M.r0_grad deltas)
    (alsA M.rt_grad M.rt_params deltas) (alsC rt_grad0 M.rt_params deltas) (tpB svd M ells)
    (fun t => (make_proposal svd M ells t).chol) (auxStd ells) (M.mu0 - tpB svd M ells 0 *ᵥ M.mu0)
    (tpD M (tpB svd M ells)) (atpsR key resampling) u

/-- The passes after the forward pass, given the values of the parents. -/
theorem atps_passWith_eq (par : Parents1 N d) (key : Key) (b : Fin (n + 3) → Fin (N + 1)) (u : Fin (n + 3) → Vec d)
    (mv : AncestorMove Ex N) (backward : Bool) (hpar : backward = true → ∀ v a, par v a = v)
    (S : Sys (Vec d × Vec d) N (n + 2)) (h : Hist (Vec d × Vec d) N (n + 2)) :
    (if backward then
      als_backward_sampling_pass (splitKey key (n + 5) 2) (atpsGammatTilde M rt_grad0) (atpsParams M deltas ells u)
        (atpsGamma1Tilde M rt_grad0) (atpsParams1 M deltas ells u) (lastA b) (atpsSaved S par h).xs
        (atpsSaved S par h).xs_m_1 (atpsSaved S par h).log_ws mv
    else backward_scanning_pass (splitKey key (n + 5) 2) (atpsSaved S par h).As (lastA b) (atpsSaved S par h).xs
      (lastA (atpsSaved S par h).log_ws) mv : Ex _) = (do
      let k ← moveIndex mv (auxMoveKey key (n + 2) backward) (S.wLast h) (lastA b)
      if backward then S.bs2 (alsΓ (atpsGammatTilde M rt_grad0) (atpsParams M deltas ells u)
        (atpsGamma1Tilde M rt_grad0) (atpsParams1 M deltas ells u)) (fun _ => 0) h k
      else pure (fun t => (h.tracex k t).2, h.trace k)) := by
  have hl := atpsSaved_sameWeights S par h
  cases backward with
  | true =>
    simp only [if_true]
    refine Eq.trans ?_ (als_bs_eq (splitKey key (n + 5) 2) (atpsGammatTilde M rt_grad0) (atpsParams M deltas ells u)
        (atpsGamma1Tilde M rt_grad0) (atpsParams1 M deltas ells u) (lastA b) _ mv S h hl)
    have e : (atpsSaved S par h).xs_m_1 = fun t i => (h.2 t.succ i).1 := by
      funext t
      refine Fin.cases ?_ (fun t => rfl) t
      show par _ _ = _
      rw [hpar rfl]
      rfl
    rw [e]
    rfl
  | false =>
    have hw : normalizeW (lastA (atpsSaved S par h).log_ws) = S.wLast h := by
      rw [Sys.wLast, ← S.lws_last h]
      exact normalize_congr_const (hl (Fin.last (n + 2)))
    simp only [Bool.false_eq_true, if_false]
    refine (als_bscan_eq (splitKey key (n + 5) 2) h (lastA b) (lastA (atpsSaved S par h).log_ws) mv).trans ?_
    rw [hw]
    rfl

/-- The kernel given the auxiliary variables. -/
theorem atps_givenWith_eq (h : ProposalOK svd M ells) (hp : RightProposal svd M ells prop) (par : Parents1 N d)
    (key : Key) (x : Fin (n + 3) → Vec d) (b : Fin (n + 3) → Fin (N + 1))
    {resampling : Resampling Ex N} {mv : AncestorMove Ex N} (backward : Bool)
    (hpar : backward = true → ∀ v a, par v a = v) (u : Fin (n + 3) → Vec d)
    (S Sc : Sys (Vec d × Vec d) N (n + 2)) (hS : S = atpsS svd M rt_grad0 key ells deltas resampling u)
    (hSc : Sc = atpsCode S prop M rt_grad0 ells deltas key resampling u) :
    ((atpsForwardWith (fun Xs b x => atSet Xs b x) par prop M rt_grad0 key x b ells deltas resampling u : Ex _) >>=
      fun F => if backward then
          als_backward_sampling_pass (splitKey key (n + 5) 2) (atpsGammatTilde M rt_grad0) (atpsParams M deltas ells u)
            (atpsGamma1Tilde M rt_grad0) (atpsParams1 M deltas ells u) (lastA b) F.xs F.xs_m_1 F.log_ws mv
        else backward_scanning_pass (splitKey key (n + 5) 2) F.As (lastA b) F.xs (lastA F.log_ws) mv) =
      S.kernel2 0 (s2G (tpGam M) (alsA0 M.r0_grad deltas) (alsA M.rt_grad M.rt_params deltas)
        (alsC rt_grad0 M.rt_params deltas) (auxStd ells) u) (moveIndex mv (auxMoveKey key (n + 2) backward))
          backward x b := by
  have hB : ∀ t, tpB svd M ells t = (prop t).K_1 * (prop t).K_2 := fun t => by rw [hp.K_1, hp.K_2]; rfl
  have hC : ∀ t, ∃ c, ∀ m x, c + mvn_logpdf x m 0 (some (prop t).chol_inv) false =
      normalLogpdf m ((prop t).chol * (prop t).cholᵀ) x := fun t => by
    have hd : (prop t).chol.det ≠ 0 := by rw [hp.chol]; exact h.det t
    obtain ⟨c, hcc⟩ := (mvn_logpdf_eq_iff (mul_transpose_posDef hd) (0 : Vec d)).mpr (hp.density t)
    refine ⟨c, fun m x => ?_⟩
    have := hcc (x - m)
    simpa [mvn_logpdf, logpdf_with_inv, normalLogpdf] using this
  have hΓ : ∀ t, ∃ c, ∀ y x, alsΓ (atpsGammatTilde M rt_grad0) (atpsParams M deltas ells u)
        (atpsGamma1Tilde M rt_grad0) (atpsParams1 M deltas ells u) t y x =
      s2G (tpGam M) (alsA0 M.r0_grad deltas) (alsA M.rt_grad M.rt_params deltas) (alsC rt_grad0 M.rt_params deltas)
        (auxStd ells) u t y x + c := by
    intro t
    refine Fin.cases ⟨_, fun y x => atpsGamma1_eq h.pos deltas u y x⟩
      (fun t => ⟨_, fun y x => atpsGammat_eq h.pos deltas u t y x⟩) t
  have hk := Sys.kernel2_congr (S := Sc) (S' := S) (b := b) (x := x) (c := 0) ?_ ?_ (by subst hSc hS; rfl) ?_ ?_
    (s2G (tpGam M) (alsA0 M.r0_grad deltas) (alsA M.rt_grad M.rt_params deltas) (alsC rt_grad0 M.rt_params deltas)
        (auxStd ells) u) (moveIndex mv (auxMoveKey key (n + 2) backward)) backward
  · refine Eq.trans ?_ hk
    have hfw := atps_forwardWith_eq par key x b resampling u S Sc hSc
    rw [hfw, bind_assoc]
    simp only [pure_bind]
    refine congrArg (Bind.bind (m := Ex) _) (funext fun k => ?_)
    refine (atps_passWith_eq par key b u mv backward hpar Sc k).trans ?_
    refine congrArg (Bind.bind (m := Ex) _) (funext fun i => ?_)
    rw [Sc.bs2_congr_const hΓ ⟨0, fun _ => (add_zero _).symm⟩ k i]
  · subst hSc hS
    intro Xs
    obtain ⟨c, hcc⟩ := hC 0
    refine ⟨c + isoC d (auxStd ells 0), fun i => ?_⟩
    show atpsGamma0Tilde M (Xs i).2 (deltas 0) (ells 0) (u 0) -
      mvn_logpdf (Xs i).2 (M.mu0 + (prop 0).K_1 *ᵥ ((prop 0).K_2 *ᵥ (u 0 - M.mu0))) 0 (some (prop 0).chol_inv) false =
      augG0 (tpGamma_0 M.mu0 (invChol M.P0) M.r0) (alsA0 M.r0_grad deltas) (auxStd ells) u (Xs i).2 -
        normalLogpdf ((M.mu0 - tpB svd M ells 0 *ᵥ M.mu0) + tpB svd M ells 0 *ᵥ u 0)
          ((make_proposal svd M ells 0).chol * (make_proposal svd M ells 0).cholᵀ) (Xs i).2 + _
    rw [atpsGamma0_eq h.pos, atp_mean _ _ _ (hB 0), ← hp.chol, ← hcc]
    ring
  · subst hSc hS
    intro t Y Xs
    obtain ⟨c, hcc⟩ := hC t.succ
    obtain ⟨c', hc'⟩ := hΓ t
    refine ⟨c + c', fun i => ?_⟩
    have e : atpsLW prop M rt_grad0 ells deltas u t Y Xs i = alsΓ (atpsGammatTilde M rt_grad0) (atpsParams M deltas ells u)
        (atpsGamma1Tilde M rt_grad0) (atpsParams1 M deltas ells u) t (Y i) (Xs i).2 -
        mvn_logpdf (Xs i).2 (M.mu (Y i).2 (M.mu_params t) + (prop t.succ).K_1 *ᵥ ((prop t.succ).K_2 *ᵥ
        (u t.succ - M.mu (Y i).2 (M.mu_params t)))) 0 (some (prop t.succ).chol_inv) false := by
      refine Fin.cases rfl (fun t => rfl) t
    refine (congrArg (fun z => z) e).trans ?_
    rw [hc', atp_mean _ _ _ (hB t.succ)]
    show _ = s2G (tpGam M) (alsA0 M.r0_grad deltas) (alsA M.rt_grad M.rt_params deltas)
        (alsC rt_grad0 M.rt_params deltas) (auxStd ells) u t (Y i) (Xs i).2 -
        normalLogpdf ((M.mu (Y i).2 (M.mu_params t) - tpB svd M ells t.succ *ᵥ M.mu (Y i).2 (M.mu_params t)) +
            tpB svd M ells t.succ *ᵥ u t.succ)
          ((make_proposal svd M ells t.succ).chol * (make_proposal svd M ells t.succ).cholᵀ) (Xs i).2 + _
    rw [← hp.chol, ← hcc]
    ring
  · subst hSc hS
    show (atpM0_rvs [] (N + 1) (u 0) M.mu0 (prop 0).K_1 (prop 0).K_2 (prop 0).chol >>=
        fun Xs => (pure (fun i => ((0 : Vec d), atSet Xs (b 0) (x 0) i)) : Ex _)) =
      (gaussP N (make_proposal svd M ells 0).chol (fun _ => (M.mu0 - tpB svd M ells 0 *ᵥ M.mu0) +
        tpB svd M ells 0 *ᵥ u 0) >>= fun Xs => pure (fun i => ((0 : Vec d), atSet Xs (b 0) (x 0) i)))
    rw [← atp_mean _ _ _ (hB 0), ← hp.chol]
    rfl
  · subst hSc hS
    intro t Y
    show (atpMt_rvs M.mu [] (fun i => (Y i).2) (atpsMtParams M prop u t) >>= fun Xs =>
        (pure (fun i => ((Y i).2, atSet Xs (b t.succ) (x t.succ) i)) : Ex _)) =
      (gaussP N (make_proposal svd M ells t.succ).chol (fun i =>
        (M.mu (Y i).2 (M.mu_params t) - tpB svd M ells t.succ *ᵥ M.mu (Y i).2 (M.mu_params t)) +
          tpB svd M ells t.succ *ᵥ u t.succ) >>= fun Xs => pure (fun i => ((Y i).2, atSet Xs (b t.succ) (x t.succ) i)))
    simp only [← atp_mean _ _ _ (hB t.succ), ← hp.chol]
    rfl

/-- The kernel is a mixture, over the auxiliary variables, of the kernels given them. -/
theorem atps_kernelWith_eq (h : ProposalOK svd M ells) (hp : RightProposal svd M ells prop) (par : Parents1 N d)
    (key : Key) (x : Fin (n + 3) → Vec d) (b : Fin (n + 3) → Fin (N + 1))
    {resampling : Resampling Ex N} {mv : AncestorMove Ex N} (backward : Bool)
    (hpar : backward = true → ∀ v a, par v a = v)
    (f : (Fin (n + 3) → Vec d) × (Fin (n + 3) → Fin (N + 1)) → ℝ≥0∞) :
    (atps_kernelWith (fun Xs b x => atSet Xs b x) par prop M rt_grad0 key x b ells deltas resampling mv backward : Ex _) f =
    ∫⁻ e, (atpsS svd M rt_grad0 key ells deltas resampling (fun t j => s2Center (alsA0 M.r0_grad deltas)
      (alsA M.rt_grad M.rt_params deltas) (alsC rt_grad0 M.rt_params deltas) x t j + auxStd ells t * e t j)).kernel2 0
      (s2G (tpGam M) (alsA0 M.r0_grad deltas) (alsA M.rt_grad M.rt_params deltas) (alsC rt_grad0 M.rt_params deltas)
        (auxStd ells) (fun t j => s2Center (alsA0 M.r0_grad deltas)
      (alsA M.rt_grad M.rt_params deltas) (alsC rt_grad0 M.rt_params deltas) x t j + auxStd ells t * e t j))
      (moveIndex mv (auxMoveKey key (n + 2) backward)) backward x b f
      ∂(Measure.pi fun _ : Fin (n + 3) => gaussM d) := by
  refine lintegral_congr fun eps => ?_
  have hu : (fun t j => x t j + 0.5 * deltas t * fullGrad M.r0_grad rt_grad0 M.rt_grad M.rt_params x t j +
      auxStd ells t * eps t j) = fun t j => s2Center (alsA0 M.r0_grad deltas)
      (alsA M.rt_grad M.rt_params deltas) (alsC rt_grad0 M.rt_params deltas) x t j + auxStd ells t * eps t j := by
    funext t j
    rw [alsAux_center]
  rw [← hu]
  exact congrFun (atps_givenWith_eq (deltas := deltas) (rt_grad0 := rt_grad0) (resampling := resampling) (mv := mv) h hp
    par key x b backward hpar _ _ _ rfl rfl) f

theorem atpsWith_invariant (h : ProposalOK svd M ells) (hM : GaussMeas M)
    (hg0 : ∀ g, Measurable fun p : Vec d × Vec d => rt_grad0 p.1 p.2 g) (hp : RightProposal svd M ells prop)
    (par : Parents1 N d) (key : Key) {resampling : Resampling Ex N} {mv : AncestorMove Ex N}
    (hR : ∀ key, CondResampling (fun w i j => resampling key w i j true))
    (hmv : ∀ key, MoveInvariant (moveIndex mv key)) (backward : Bool)
    (hpar : backward = true → ∀ v a, par v a = v) :
    LeavesInvariant volume (gaussPath M) (fun x b => (atps_kernelWith (fun Xs b x => atSet Xs b x) par prop M rt_grad0
      key x b ells deltas resampling mv backward : Ex _)) := by
  refine gaussPath_shift h ?_
  have ha0 : Measurable (alsA0 (n := n + 2) M.r0_grad deltas) := by have := hM.r0_grad; unfold alsA0; fun_prop
  have ha : ∀ t, Measurable fun p : Vec d × Vec d => alsA M.rt_grad M.rt_params deltas t p.1 p.2 := fun t => by
    have := hM.rt_grad t
    unfold alsA
    fun_prop
  have hc : ∀ t, Measurable fun p : Vec d × Vec d => alsC rt_grad0 M.rt_params deltas t p.1 p.2 := fun t => by
    have := hg0 (M.rt_params t)
    unfold alsC
    fun_prop
  have hRt : ∀ t, CondResampling (atpsR (n := n) key resampling t) := fun t => by
    refine Fin.cases ?_ (fun t => ?_) t
    · exact hR _
    · exact hR _
  exact aux_mixture2 hM.gamma0 hM.gamma ha0 ha hc (auxStd_pos h.pos)
    (S := fun u => atpsS svd M rt_grad0 key ells deltas resampling u)
    (fun u => atp2Sys_OK hM.gamma0 hM.gamma ha0 ha hc (hM.dt _) h.det hRt u)
    (atp2Sys_meas hM.gamma0 hM.gamma ha0 ha hc (hM.dt _) hRt) (fun _ _ _ => rfl) (fun _ _ _ _ _ => rfl)
    (hmv (auxMoveKey key (n + 2) backward)) backward fun x b f _ =>
      atps_kernelWith_eq h hp par key x b backward hpar f

/-- `chol_inv` the inverse of `chol`: the density is right. -/
theorem exactProposal_right {n : ℕ} {M : GaussModel MP RP n d} {ells : Fin (n + 1) → ℝ} (h : ProposalOK svd M ells) :
    RightProposal svd M ells (exactProposal svd M ells) where
  K_1 _ := rfl
  K_2 _ := rfl
  chol _ := rfl
  density t := by
    show ((make_proposal svd M ells t).chol⁻¹)ᵀ * (make_proposal svd M ells t).chol⁻¹ =
      ((make_proposal svd M ells t).chol * (make_proposal svd M ells t).cholᵀ)⁻¹
    rw [Matrix.mul_inv_rev, Matrix.transpose_nonsing_inv]

/-- The kernel of the code. -/
theorem atps_kernelWith_code {m : Type → Type} [RandM m] [LawfulMonad m] (svd : Mat d d → SvdOut d)
    (M : GaussModel MP RP (n + 2) d) (rt_grad0 : Vec d → Vec d → RP → Vec d) (key : Key)
    (x : Fin (n + 3) → Vec d) (b : Fin (n + 3) → Fin (N + 1)) (ells deltas : Fin (n + 3) → ℝ)
    (resampling : Resampling m N) (mv : AncestorMove m N) (backward : Bool) :
    atps_kernelWith (fun Xs _ _ => Xs) (fun v a => take v a) (make_proposal svd M ells) M rt_grad0 key x b ells deltas
      resampling mv backward = atps_kernel svd M rt_grad0 key x b ells deltas resampling mv backward := by
  have hs : ∀ u c, scanM (m := m) (atpsBodyWith (fun Xs _ _ => Xs) M rt_grad0 resampling) c
        (fun t => (atpsInputs key (atpsMtParams M (make_proposal svd M ells) u) (atpsParams M deltas ells u) b t,
          tailA (tailA x) t)) =
      scanM (atpsBody M rt_grad0 resampling) c
        (atpsInputs key (atpsMtParams M (make_proposal svd M ells) u) (atpsParams M deltas ells u) b) := by
    intro u c
    refine (scanM_simulate (m := m) (atpsBody M rt_grad0 resampling) (atpsBodyWith (fun Xs _ _ => Xs) M rt_grad0 resampling)
      (fun c => c) _ _ (fun t c => ?_) c).trans (bind_pure _)
    exact (bind_pure (atpsBody M rt_grad0 resampling c _)).symm
  unfold atps_kernelWith atps_kernel atpsForwardWith atpsForward
  simp only [hs]

end Verif
