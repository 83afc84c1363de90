import Verif.Lemmas.Runs
import Verif.Props.Gradient
import Verif.Props.Keys
import Verif.Model.AtpCsmcS
import Verif.Spec.Svd
import Verif.Model.TpCsmc
import Verif.Model.TAtpCsmcF

/-!
# Runs of Particle-aMALA+ and Particle-aGRAD+: C26, C29 and the parts of C12, C14 and C52 about them
-/

namespace Verif.Props
open Verif Verif.Model Verif.Spec Verif.Poss

variable {N n d : ℕ} {G MP RP : Type}
  {Gamma0 : Vec d → ℝ} {Gamma0_grad : Vec d → Vec d} {Gammat : Vec d → Vec d → G → ℝ}
  {Gammat_grad0 Gammat_grad1 : Vec d → Vec d → G → Vec d}

/-! ## C26: the parents handed to the backward pass -/

/-- C26, partial (`al_csmc_s`): what `xs_m_1_out` holds on every run.  All its entries but the first are the parents of
the particles.  Missing: the first entry, which holds the grandparents `xs[0][A_0[A_1]]` of the particles of time two
instead of the parents `xs[0][A_0]` of the particles of time one; see `C26_al_csmc_s_false`. -/
theorem C26_al_csmc_s_partial (key : Key) (bstar : Fin (n + 3) → Fin (N + 1)) (Gparams : Fin (n + 2) → G)
    (ells deltas : Fin (n + 3) → ℝ) (resampling : Resampling Poss N) (aux_vars : Fin (n + 3) → Vec d)
    (xs : Fin (n + 3) → Fin (N + 1) → Vec d) :
    Always (alsForward key bstar Gamma0 Gamma0_grad Gammat Gammat_grad0 Gammat_grad1 Gparams ells deltas resampling
      aux_vars xs) (fun F => F.xs = xs ∧
        (∀ (t : Fin (n + 1)) i, F.xs_m_1 t.succ i = F.xs t.succ.castSucc (F.As t.succ i)) ∧
        ∀ i, F.xs_m_1 0 i = F.xs 0 (F.As 0 (F.As 1 i))) := by
  refine always_bind' fun A0 => ?_
  refine always_bind (always_scanM_link (fun c => c.x1) (fun i _ => i.x_t)
    (fun (x : Fin (N + 1) → Vec d) (o : (Fin (N + 1) → ℝ) × (Fin (N + 1) → Fin (N + 1)) × (Fin (N + 1) → Vec d)) =>
      o.2.2 = take x o.2.1) (fun c i => ?_) _ _) fun r hr => ?_
  · exact always_bind' fun A => always_pure ⟨rfl, rfl⟩
  · refine always_pure ⟨rfl, fun t i => ?_, fun i => rfl⟩
    have h := congrFun (hr t) i
    refine h.trans ?_
    show insert0 (xs 1) _ t.castSucc _ = xs t.succ.castSucc _
    revert h
    refine Fin.cases (fun _ => rfl) (fun t _ => rfl) t

/-- C26 is false of `al_csmc_s`: with multinomial resampling, whatever the model and the particles, as soon as some
particle of time zero differs from the reference particle the first entry of `xs_m_1_out` may hold a particle that is
not the parent. -/
theorem C26_al_csmc_s_false (hN : 1 ≤ N) (key : Key) (bstar : Fin (n + 3) → Fin (N + 1)) (Gparams : Fin (n + 2) → G)
    (ells deltas : Fin (n + 3) → ℝ) (aux_vars : Fin (n + 3) → Vec d)
    (xs : Fin (n + 3) → Fin (N + 1) → Vec d) (k : Fin (N + 1)) (hk : xs 0 k ≠ xs 0 (bstar 0)) :
    ¬ Always (alsForward key bstar Gamma0 Gamma0_grad Gammat Gammat_grad0 Gammat_grad1 Gparams ells deltas
      (fun key w i j c => multinomial key w i j c) aux_vars xs) (fun F => ∀ i, F.xs_m_1 0 i = F.xs 0 (F.As 0 i)) := by
  intro h
  have h1 := Always.of_bind h (multinomial_run _ _ (fun i => normalize_pos _ i) (bstar 0) (bstar 1)
    (atSet (fun _ => k) (bstar 1) (bstar 0)) (by simp [atSet]))
  obtain ⟨R, L, hR, h0⟩ := scanM_run_first (body := alsBody Gammat Gammat_grad0 Gammat_grad1
    fun key w i j c => multinomial key w i j c) (fun c i => (multinomial_canRun _ _ _ _).bind fun A => canRun_pure _)
    ⟨normalizeW _, xs 1, take (xs 0) (atSet (fun _ => k) (bstar 1) (bstar 0))⟩
    (alsInputs key (alsParams deltas ells aux_vars Gparams) xs bstar)
    (run_bind (multinomial_run _ _ (fun i => normalize_pos _ i) _ _ (fun _ => bstar 1) rfl) ⟨rfl, rfl⟩)
  have h4 := Always.pure (Always.of_bind h1 hR)
  obtain ⟨i, hi⟩ : ∃ i : Fin (N + 1), i ≠ bstar 1 := by
    obtain ⟨m, rfl⟩ : ∃ m, N = m + 1 := ⟨N - 1, by omega⟩
    exact exists_ne _
  have h5 := h4 i
  have e0 : (R.2 0).2.1 i = bstar 1 := by rw [h0]
  have e1 : xs 0 (atSet (fun _ => k) (bstar 1) (bstar 0) ((R.2 0).2.1 i)) =
    xs 0 (atSet (fun _ => k) (bstar 1) (bstar 0) i) := h5
  rw [e0] at e1
  simp [atSet, hi] at e1
  exact hk e1.symm

/-- C26, partial (`atp_csmc_s`): what `xs_m_1_out` holds on every run; as for `al_csmc_s`, all entries but the first
are right. -/
theorem C26_atp_csmc_s_partial (svd : Mat d d → SvdOut d) (M : GaussModel MP RP (n + 2) d)
    (rt_grad0 : Vec d → Vec d → RP → Vec d) (key : Key) (bstar : Fin (n + 3) → Fin (N + 1))
    (ells deltas : Fin (n + 3) → ℝ) (resampling : Resampling Poss N) (aux_vars : Fin (n + 3) → Vec d) :
    Always (atpsForward svd M rt_grad0 key bstar ells deltas resampling aux_vars) (fun F =>
        (∀ (t : Fin (n + 1)) i, F.xs_m_1 t.succ i = F.xs t.succ.castSucc (F.As t.succ i)) ∧
        ∀ i, F.xs_m_1 0 i = F.xs 0 (F.As 0 (F.As 1 i))) := by
  refine always_bind' fun x0 => always_bind' fun A0 => always_bind' fun x1 => ?_
  refine always_bind (always_scanM_link (fun c => c.x1) (fun _ o => o.2.2.2)
    (fun (x : Fin (N + 1) → Vec d) (o : (Fin (N + 1) → ℝ) × (Fin (N + 1) → Fin (N + 1)) × (Fin (N + 1) → Vec d) ×
      (Fin (N + 1) → Vec d)) => o.2.2.1 = take x o.2.1) (fun c i => ?_) _ _) fun r hr => ?_
  · exact always_bind' fun A => always_bind' fun x => always_pure ⟨rfl, rfl⟩
  · exact always_pure ⟨fun t i => congrFun (hr t) i, fun i => rfl⟩

/-- The reference indices are kept by the resampling steps of `atp_csmc_s`. -/
theorem atps_ancestors (svd : Mat d d → SvdOut d) (M : GaussModel MP RP (n + 2) d)
    (rt_grad0 : Vec d → Vec d → RP → Vec d) (key : Key) (bstar : Fin (n + 3) → Fin (N + 1))
    (ells deltas : Fin (n + 3) → ℝ) (resampling : Resampling Poss N) (hR : Pins resampling)
    (aux_vars : Fin (n + 3) → Vec d) :
    Always (atpsForward svd M rt_grad0 key bstar ells deltas resampling aux_vars) (fun F =>
      ∀ t : Fin (n + 2), F.As t (bstar t.succ) = bstar t.castSucc) := by
  refine always_bind' fun x0 => always_bind (hR _ _ _ _) fun A0 hA0 => always_bind' fun x1 => ?_
  refine always_bind (always_scanM_forall _ _ (fun t (o : (Fin (N + 1) → ℝ) × (Fin (N + 1) → Fin (N + 1)) ×
      (Fin (N + 1) → Vec d) × (Fin (N + 1) → Vec d)) => o.2.1 (bstar t.succ.succ) = bstar t.succ.castSucc)
      fun t c => ?_) fun r hr => always_pure fun t => ?_
  · exact always_bind (hR _ _ _ _) fun A hA => always_bind' fun x => always_pure hA
  · refine Fin.cases hA0 (fun t => hr t) t

theorem atpM0_run (key : Key) (u mu0 : Vec d) (K_1 K_2 chol : Mat d d) (eps : Fin (N + 1) → Vec d) :
    (atpM0_rvs key (N + 1) u mu0 K_1 K_2 chol : Poss _) (fun i => mu0 + K_1.mulVec (K_2.mulVec (u - mu0)) +
      chol.mulVec (eps i)) [key] := ⟨eps, [key], [], rfl, ⟨rfl, rfl⟩, rfl⟩

theorem atpMt_canRun (mu : Vec d → MP → Vec d) (key : Key) (x : Fin (N + 1) → Vec d) (p : AtpMParams MP d) :
    CanRun (atpMt_rvs mu key x p : Poss _) := ⟨_, [key], fun _ _ => 0, [key], [], rfl, ⟨rfl, rfl⟩, rfl⟩

theorem exists_mulVec_ne (C : Mat d d) (hC : C ≠ 0) (x m : Vec d) : ∃ v : Vec d, m + C.mulVec v ≠ x := by
  by_contra h
  push Not at h
  apply hC
  ext i j
  have h1 := h (Pi.single j 1)
  have h0 := h 0
  rw [Matrix.mulVec_zero] at h0
  rw [← h0] at h1
  have h2 := congrFun (add_left_cancel h1) i
  simpa using h2

/-- The factor of the covariance of the proposals does not vanish: its entries are floored. -/
theorem proposal_chol_ne (ell : ℝ) {Q : Mat d d} {s : SvdOut d} (h : IsSvd Q s.U s.Gamma s.U_t) (hd : 0 < d) :
    (get_proposal_params ell s).chol ≠ 0 := by
  intro hc
  have hU : s.U = 0 := by
    ext i j
    have h1 : s.U i j * _ = 0 := congrFun (congrFun hc i) j
    refine (mul_eq_zero.mp h1).resolve_right (Real.sqrt_pos.mpr (lt_of_lt_of_le ?_ (le_max_right _ _))).ne'
    unfold stableZero
    norm_num
  have h2 := congrFun (congrFun h.U_orth ⟨0, hd⟩) ⟨0, hd⟩
  rw [hU] at h2
  simp at h2

/-- C26 is false of `atp_csmc_s`, whatever the model, with multinomial resampling. -/
theorem C26_atp_csmc_s_false (hN : 1 ≤ N) (svd : Mat d d → SvdOut d) (M : GaussModel MP RP (n + 2) d)
    (hd : 0 < d) (hsvd : IsSvd M.P0 (svd M.P0).U (svd M.P0).Gamma (svd M.P0).U_t)
    (rt_grad0 : Vec d → Vec d → RP → Vec d) (key : Key) (bstar : Fin (n + 3) → Fin (N + 1))
    (ells deltas : Fin (n + 3) → ℝ) (aux_vars : Fin (n + 3) → Vec d) :
    ¬ Always (atpsForward svd M rt_grad0 key bstar ells deltas (fun key w i j c => multinomial key w i j c) aux_vars)
      (fun F => ∀ i, F.xs_m_1 0 i = F.xs 0 (F.As 0 i)) := by
  intro h
  obtain ⟨m, rfl⟩ : ∃ m, N = m + 1 := ⟨N - 1, by omega⟩
  obtain ⟨v, hv⟩ := exists_mulVec_ne _ (proposal_chol_ne (ells 0) hsvd hd) 0 0
  obtain ⟨k, hk⟩ := exists_ne (bstar 0)
  set prop := make_proposal svd M ells with hprop
  have hv' : (prop 0).chol.mulVec v ≠ 0 := by rw [zero_add] at hv; exact hv
  have h1 := Always.of_bind h (atpM0_run _ (aux_vars 0) M.mu0 (prop 0).K_1 (prop 0).K_2 (prop 0).chol
    (fun i => if i = bstar 0 then 0 else v))
  have h2 := Always.of_bind h1 (multinomial_run _ _ (fun i => normalize_pos _ i) (bstar 0) (bstar 1)
    (atSet (fun _ => k) (bstar 1) (bstar 0)) (by simp [atSet]))
  obtain ⟨x1, h3⟩ := Always.canRun_of h2 (atpMt_canRun _ _ _ _)
  obtain ⟨xt, Lx, hxt⟩ := atpMt_canRun (N := m + 1) M.mu ((splitKey (tailA (keysResampling key (n + 2)) (0 : Fin (n + 1)))
    2) 1) (take x1 fun _ => bstar 1) (tailA (atpsMtParams M prop aux_vars) (0 : Fin (n + 1)))
  obtain ⟨R, L, hR, h0⟩ := scanM_run_first (body := atpsBody M rt_grad0
    fun key w i j c => multinomial key w i j c) (fun c i => (multinomial_canRun _ _ _ _).bind fun A =>
      (atpMt_canRun _ _ _ _).bind fun x => canRun_pure _)
    ⟨normalizeW _, x1, take _ (atSet (fun _ => k) (bstar 1) (bstar 0))⟩
    (atpsInputs key (atpsMtParams M prop aux_vars) (atpsParams M deltas ells aux_vars) bstar)
    (run_bind (multinomial_run _ _ (fun i => normalize_pos _ i) _ _ (fun _ => bstar 1) rfl) (run_bind hxt ⟨rfl, rfl⟩))
  have h4 := Always.pure (Always.of_bind h3 hR)
  obtain ⟨i, hi⟩ := exists_ne (bstar 1)
  have h5 := h4 i
  have e0 : (R.2 0).2.1 i = bstar 1 := by rw [h0]
  have e1 : M.mu0 + (prop 0).K_1.mulVec ((prop 0).K_2.mulVec (aux_vars 0 - M.mu0)) + (prop 0).chol.mulVec
      (if atSet (fun _ => k) (bstar 1) (bstar 0) ((R.2 0).2.1 i) = bstar 0 then 0 else v) =
    M.mu0 + (prop 0).K_1.mulVec ((prop 0).K_2.mulVec (aux_vars 0 - M.mu0)) + (prop 0).chol.mulVec
      (if atSet (fun _ => k) (bstar 1) (bstar 0) i = bstar 0 then 0 else v) := h5
  have e2 := add_left_cancel e1
  rw [e0] at e2
  simp only [atSet, Function.update_self, Function.update_of_ne hi, hk, if_true, if_false, Matrix.mulVec_zero] at e2
  exact hv' e2.symm

/-! ## C29: the reference trajectory -/

theorem canRun_backward_sampling {P0 P P1 : Type} (key : Key) (Gt : Vec d → Vec d → Vec d → P → P → ℝ)
    (Gp : Fin (n + 2) → P) (G1 : Vec d → Vec d → P0 → P1 → ℝ) (Gp1 : P0 × P1) (bT b0 : Fin (N + 1))
    (xs : Fin (n + 3) → Fin (N + 1) → Vec d) (xs_m_1 : Fin (n + 2) → Fin (N + 1) → Vec d)
    (log_ws : Fin (n + 3) → Fin (N + 1) → ℝ) :
    ∃ r L, (als_backward_sampling_pass key Gt Gp G1 Gp1 bT xs xs_m_1 log_ws (fun key w k => barker_move key w k) :
      Poss _) r L ∧ r.2 0 = b0 ∧ r.1 0 = xs 0 b0 := by
  obtain ⟨R, LR, hR⟩ := canRun_scanRevM (body := alsBsBody (N := N) Gt) (fun c i => CanRun.bind
    ⟨0, [i.key], Or.inl (normalize_pos _ 0), rfl⟩ fun _ => canRun_pure _)
    (last2A xs 0, lastA xs 0) (fun t =>
    { key := tailA (initA (initA (splitKey key (n + 3)))) t
      xs_t_m_1 := initA (initA xs_m_1) t
      xs_t := tailA (initA (initA xs)) t
      log_w_t := tailA (initA (initA log_ws)) t
      params_t := initA (initA Gp) t
      params_t_p_1 := tailA (initA Gp) t
      params_t_p_2 := tailA (tailA Gp) t })
  refine ⟨_, _, run_bind (a := ((0 : Fin (N + 1)), _)) (run_bind (a := (0 : Fin (N + 1)))
    ⟨Or.inl (normalize_pos _ _), rfl⟩ ⟨rfl, rfl⟩) (run_bind (a := (0 : Fin (N + 1)))
    ⟨Or.inl (normalize_pos _ _), rfl⟩ (run_bind hR (run_bind (a := b0) ⟨Or.inl (normalize_pos _ _), rfl⟩ ⟨rfl, rfl⟩))),
    rfl, rfl⟩

/-- C29 is false of `atp_csmc_s`: whatever the model, inputs and number of particles, there is a run in which the new
trajectory has the index `b_star[0]` at time zero without having the state `x_star[0]`. -/
theorem C29_false (svd : Mat d d → SvdOut d) (M : GaussModel MP RP (n + 2) d)
    (hd : 0 < d) (hsvd : IsSvd M.P0 (svd M.P0).U (svd M.P0).Gamma (svd M.P0).U_t)
    (rt_grad0 : Vec d → Vec d → RP → Vec d) (key : Key) (xstar : Fin (n + 3) → Vec d)
    (bstar : Fin (n + 3) → Fin (N + 1)) (ells deltas : Fin (n + 3) → ℝ) (backward : Bool) :
    ¬ Always (atps_kernel svd M rt_grad0 key xstar bstar ells deltas (fun key w i j c => multinomial key w i j c)
      (fun key w k => barker_move key w k) backward) (fun r => r.2 0 = bstar 0 → r.1 0 = xstar 0) := by
  intro h
  obtain ⟨e, h⟩ := Always.canRun_of h ⟨fun _ _ => 0, _, rfl⟩
  set aux_vars : Fin (n + 3) → Vec d := fun t j => xstar t j + 0.5 * deltas t *
    fullGrad M.r0_grad rt_grad0 M.rt_grad M.rt_params xstar t j + auxStd ells t * e t j with haux
  set prop := make_proposal svd M ells with hprop
  obtain ⟨v, hv⟩ := exists_mulVec_ne _ (proposal_chol_ne (ells 0) hsvd hd) (xstar 0)
    (M.mu0 + (prop 0).K_1.mulVec ((prop 0).K_2.mulVec (aux_vars 0 - M.mu0)))
  obtain ⟨F, LF, hF, hx0⟩ : ∃ F LF, (atpsForward svd M rt_grad0 key bstar ells deltas
      (fun key w i j c => multinomial key w i j c) aux_vars : Poss _) F LF ∧ F.xs 0 (bstar 0) ≠ xstar 0 := by
    by_contra hc
    push Not at hc
    have h1 := Always.of_bind (Q := fun F : AlsFwd N n d => F.xs 0 (bstar 0) = xstar 0) hc
      (atpM0_run _ (aux_vars 0) M.mu0 (prop 0).K_1 (prop 0).K_2 (prop 0).chol (fun _ => v))
    obtain ⟨A0, h2⟩ := Always.canRun_of h1 (multinomial_canRun _ _ _ _)
    obtain ⟨x1, h3⟩ := Always.canRun_of h2 (atpMt_canRun _ _ _ _)
    obtain ⟨R, h4⟩ := Always.canRun_of h3 (canRun_scanM (fun c i => (multinomial_canRun _ _ _ _).bind fun A =>
      (atpMt_canRun _ _ _ _).bind fun x => canRun_pure _) _ _)
    have h5 := Always.pure h4
    exact hv h5
  have hA := atps_ancestors svd M rt_grad0 key bstar ells deltas _ (fun key w i j => C01_multinomial_pin key w i j)
    aux_vars F LF hF
  have h := Always.of_bind h hF
  cases backward with
  | true =>
    obtain ⟨r, L, hr, h1, h2⟩ := canRun_backward_sampling (splitKey key (n + 5) 2) (atpsGammatTilde M rt_grad0)
      (atpsParams M deltas ells aux_vars) (atpsGamma1Tilde M rt_grad0) (atpsParams1 M deltas ells aux_vars)
      (lastA bstar) (bstar 0) F.xs F.xs_m_1 F.log_ws
    exact hx0 (h2 ▸ h r L hr h1)
  | false =>
    obtain ⟨r, L, hr, hl⟩ : ∃ r L, (backward_scanning_pass (splitKey key (n + 5) 2) F.As (lastA bstar) F.xs
        (lastA F.log_ws) (fun key w k => barker_move key w k) : Poss _) r L ∧ lastA r.2 = lastA bstar :=
      ⟨_, _, run_bind (a := (lastA bstar, _)) (run_bind (a := lastA bstar)
        ⟨Or.inl (normalize_pos _ _), rfl⟩ ⟨rfl, rfl⟩) ⟨rfl, rfl⟩, by simp [rev, lastA]⟩
    obtain ⟨g1, g2⟩ := C13_scanning_genealogy _ _ _ _ _ _ _ _ hr
    have h2 : ∀ t, r.2 t = bstar t := fun t => by
      refine Fin.reverseInduction (motive := fun t => r.2 t = bstar t) hl (fun s hs => ?_) t
      rw [← hA s, ← hs]
      exact g2 s
    have h0 := h _ _ hr (h2 0)
    rw [g1 0, h2 0] at h0
    exact hx0 h0

/-- A covariance with the decomposition used by the concrete instances below. -/
theorem isSvd_diag {Γ : Fin d → ℝ} (h : ∀ j, 0 ≤ Γ j) : IsSvd (Matrix.diagonal Γ) 1 Γ 1 :=
  ⟨by simp, by simp, h, by simp⟩

/-- The hypotheses of the negations of C26 and C29 are met by a concrete model with two particles in dimension two. -/
example (xstar : Fin 3 → Vec 2) (backward : Bool) := C29_false (N := 1) (fun _ => ⟨1, ![2, 1], 1⟩)
  { mu0 := 0, P0 := Matrix.diagonal ![2, 1], r0 := fun _ => 0, r0_grad := fun _ => 0, mu := fun x (_ : Unit) => x
    mu_params := fun _ => (), Qs := fun _ => 1, rt := fun _ x (_ : Unit) => -x 0 ^ 2
    rt_grad := fun _ x _ j => if j = 0 then -2 * x 0 else 0, rt_params := fun _ => () }
  (by norm_num) (isSvd_diag (by intro j; fin_cases j <;> simp)) (fun _ _ _ => 0) [] xstar (fun _ => 0) (fun _ => 1)
  (fun _ => 1) backward

example (aux_vars : Fin 3 → Vec 2) := C26_atp_csmc_s_false (N := 1) le_rfl (fun _ => ⟨1, ![2, 1], 1⟩)
  { mu0 := 0, P0 := Matrix.diagonal ![2, 1], r0 := fun _ => 0, r0_grad := fun _ => 0, mu := fun x (_ : Unit) => x
    mu_params := fun _ => (), Qs := fun _ => 1, rt := fun _ x (_ : Unit) => -x 0 ^ 2
    rt_grad := fun _ x _ j => if j = 0 then -2 * x 0 else 0, rt_params := fun _ => () }
  (by norm_num) (isSvd_diag (by intro j; fin_cases j <;> simp)) (fun _ _ _ => 0) [] (fun _ => 0) (fun _ => 1)
  (fun _ => 1) aux_vars

example := C26_al_csmc_s_false (N := 1) (n := 0) (d := 1) (Gamma0 := fun _ => 0) (Gamma0_grad := fun _ => 0)
  (Gammat := fun _ x (_ : Unit) => -x 0 ^ 2) (Gammat_grad0 := fun _ _ _ => 0) (Gammat_grad1 := fun _ x _ _ => -2 * x 0)
  le_rfl [] (fun _ => 0) (fun _ => ()) (fun _ => 1) (fun _ => 1) (fun _ => 0) (fun _ i _ => i.1) 1
  (fun h => by have := congrFun h 0; simp at this)

/-! ## C12, C13, C14 for `al_csmc_s` -/

/-- C12 (`al_csmc_s`): the ancestor of particle `b_star[t+1]` is `b_star[t]`. -/
theorem C12_als_ancestors (key : Key) (bstar : Fin (n + 3) → Fin (N + 1)) (Gparams : Fin (n + 2) → G)
    (ells deltas : Fin (n + 3) → ℝ) (resampling : Resampling Poss N) (hR : Pins resampling)
    (aux_vars : Fin (n + 3) → Vec d) (xs : Fin (n + 3) → Fin (N + 1) → Vec d) :
    Always (alsForward key bstar Gamma0 Gamma0_grad Gammat Gammat_grad0 Gammat_grad1 Gparams ells deltas resampling
      aux_vars xs) (fun F => F.xs = xs ∧ ∀ t : Fin (n + 2), F.As t (bstar t.succ) = bstar t.castSucc) := by
  refine always_bind (hR _ _ _ _) fun A0 hA0 => ?_
  refine always_bind (always_scanM_forall _ _ (fun t (o : (Fin (N + 1) → ℝ) × (Fin (N + 1) → Fin (N + 1)) ×
      (Fin (N + 1) → Vec d)) => o.2.1 (bstar t.succ.succ) = bstar t.succ.castSucc)
      fun t c => ?_) fun r hr => always_pure ⟨rfl, fun t => ?_⟩
  · exact always_bind (hR _ _ _ _) fun A hA => always_pure hA
  · exact Fin.cases hA0 (fun t => hr t) t

/-- C13 (`al_csmc_s`, `atp_csmc_s`): the backward sampling pass returns the particles at the returned indices. -/
theorem C13_als_sampling_assembled {P0 P P1 : Type} (key : Key) (Gt : Vec d → Vec d → Vec d → P → P → ℝ)
    (Gp : Fin (n + 2) → P) (G1 : Vec d → Vec d → P0 → P1 → ℝ) (Gp1 : P0 × P1) (bT : Fin (N + 1))
    (xs : Fin (n + 3) → Fin (N + 1) → Vec d) (xs_m_1 : Fin (n + 2) → Fin (N + 1) → Vec d)
    (log_ws : Fin (n + 3) → Fin (N + 1) → ℝ) (mv : AncestorMove Poss N) :
    Always (als_backward_sampling_pass key Gt Gp G1 Gp1 bT xs xs_m_1 log_ws mv) (fun r => ∀ t, r.1 t = xs t (r.2 t)) := by
  refine always_bind' fun q => always_bind' fun B1 => ?_
  have hs : ∀ (c : Vec d × Vec d) (inp : Fin n → AlsBsInp P N d), (∀ t, (inp t).xs_t = xs t.succ.castSucc.castSucc) →
      Always (scanRevM (alsBsBody Gt) c inp) (fun r => ∀ t : Fin n, (r.2 t).1 = xs t.succ.castSucc.castSucc (r.2 t).2) := by
    intro c inp hi
    refine always_bind (always_scanM_forall _ _ (fun t (o : Vec d × Fin (N + 1)) =>
      o.1 = (inp (Fin.rev t)).xs_t o.2) fun t c => always_bind' fun B => always_pure rfl) fun r hr => ?_
    refine always_pure fun t => ?_
    have := hr t.rev
    rw [Fin.rev_rev, hi] at this
    exact this
  refine always_bind (hs _ _ fun t => rfl) fun r hr =>
    always_bind' fun B0 => always_pure fun t => ?_
  · refine Fin.cases rfl (fun t => ?_) t
    simp only [insert0_succ]
    refine Fin.lastCases ?_ (fun t => ?_) t
    · simp only [snocA_last]; rfl
    · simp only [snocA_castSucc]
      refine Fin.lastCases ?_ (fun t => ?_) t
      · simp only [snocA_last]; rfl
      · simp only [snocA_castSucc]
        exact hr t

/-- C14 for `al_csmc_s.kernel`, in spite of C26. -/
theorem C14_als_flags_sound (key : Key) (xstar : Fin (n + 3) → Vec d) (bstar : Fin (n + 3) → Fin (N + 1))
    (Gamma0 : Vec d → ℝ) (Gamma0_grad : Vec d → Vec d) (Gammat : Vec d → Vec d → G → ℝ)
    (Gammat_grad0 Gammat_grad1 : Vec d → Vec d → G → Vec d) (Gparams : Fin (n + 2) → G)
    (ells deltas : Fin (n + 3) → ℝ) (resampling : Resampling Poss N) (hR : Pins resampling)
    (mv : AncestorMove Poss N) (backward : Bool) :
    Always (als_kernel key xstar bstar Gamma0 Gamma0_grad Gammat Gammat_grad0 Gammat_grad1 Gparams ells deltas
      resampling mv backward) (FlagsSound xstar bstar backward) := by
  refine always_bind' fun eps_aux => always_bind' fun eps_xs => ?_
  refine always_bind (C12_als_ancestors key bstar Gparams ells deltas resampling hR _ _) fun F hF => ?_
  obtain ⟨hx, hA⟩ := hF
  have hx' : ∀ t, F.xs t (bstar t) = xstar t := fun t => by rw [hx]; exact C12_aux_particles _ _ _ _ _ _
  cases backward with
  | true =>
    refine always_bind (C13_als_sampling_assembled _ _ _ _ _ _ _ _ _ _) fun q hq => always_pure ⟨fun t ht => ?_, by simp⟩
    have h1 : q.2 t = bstar t := ht
    show q.1 t = xstar t
    rw [hq t, h1, hx' t]
  | false =>
    refine always_bind (C13_scanning_genealogy _ _ _ _ _ _) fun q hq => always_pure ?_
    have h1 : ∀ t, q.2 t = bstar t → q.1 t = xstar t := fun t ht => by rw [hq.1 t, ht, hx' t]
    refine ⟨h1, fun _ hl => ?_⟩
    have h2 : q.2 = bstar := by
      funext t
      refine Fin.reverseInduction (motive := fun t => q.2 t = bstar t) hl (fun s hs => ?_) t
      rw [hq.2 s, hs, hA s]
    exact ⟨h2, funext fun t => h1 t (congrFun h2 t)⟩

example (x : Fin 5 → Vec 2) (b : Fin 5 → Fin 26) := C14_als_flags_sound [] x b (fun x => -x 0 ^ 2)
  (fun x j => if j = 0 then -2 * x 0 else 0) (fun y x (_ : Unit) => -(x 1 - y 0) ^ 2)
  (fun y x _ j => if j = 0 then 2 * (x 1 - y 0) else 0) (fun y x _ j => if j = 1 then -2 * (x 1 - y 0) else 0)
  (fun _ => ()) (fun _ => 1) (fun _ => 1) _ pins_killing (fun key w k => barker_move key w k) true

/-! ## C14 for the kernels that run `csmc.kernel` -/

/-- C14 for `tp_csmc`. -/
theorem C14_tp_flags_sound (svd : Mat d d → SvdOut d) (M : GaussModel MP RP n d) (key : Key)
    (xstar : Fin (n + 1) → Vec d) (bstar : Fin (n + 1) → Fin (N + 1)) (ells deltas : Fin (n + 1) → ℝ)
    (resampling : Resampling Poss N) (hR : Pins resampling) (mv : AncestorMove Poss N) (backward : Bool) :
    Always (tp_csmc_kernel svd M key xstar bstar ells deltas resampling mv backward)
      (FlagsSound xstar bstar backward) :=
  always_bind' fun _ => C14_flags_sound _ xstar bstar _ _ _ resampling hR mv backward

/-- C14 for `atp_csmc_f`. -/
theorem C14_atp_flags_sound (svd : Mat d d → SvdOut d) (M : GaussModel MP RP n d) (key : Key)
    (xstar : Fin (n + 1) → Vec d) (bstar : Fin (n + 1) → Fin (N + 1)) (ells deltas : Fin (n + 1) → ℝ)
    (resampling : Resampling Poss N) (hR : Pins resampling) (mv : AncestorMove Poss N) (backward : Bool) :
    Always (atp_kernel svd M key xstar bstar ells deltas resampling mv backward)
      (FlagsSound xstar bstar backward) :=
  always_bind' fun _ => C14_flags_sound _ xstar bstar _ _ _ resampling hR mv backward

/-- C14 for `t_atp_csmc_f`. -/
theorem C14_t_atp_flags_sound (M : LinModel RP n d) (key : Key)
    (xstar : Fin (n + 1) → Vec d) (bstar : Fin (n + 1) → Fin (N + 1)) (ells deltas : Fin (n + 1) → ℝ)
    (resampling : Resampling Poss N) (hR : Pins resampling) (mv : AncestorMove Poss N) (backward : Bool) :
    Always (t_atp_kernel M key xstar bstar ells deltas resampling mv backward)
      (FlagsSound xstar bstar backward) :=
  always_bind' fun _ => C14_flags_sound _ xstar bstar _ _ _ resampling hR mv backward

/-! ## C52 -/

/-- **C52** (`tp_csmc`). -/
theorem C52_tp_csmc (svd : Mat d d → SvdOut d) (M : GaussModel MP RP n d) (key : Key)
    (xstar : Fin (n + 1) → Vec d) (bstar : Fin (n + 1) → Fin (N + 1)) (ells deltas : Fin (n + 1) → ℝ)
    {resampling : Resampling Poss N} {move : AncestorMove Poss N} (hr : FreshResampling resampling)
    (hm : FreshMove move) (backward : Bool) :
    FreshKeys key (tp_csmc_kernel svd M key xstar bstar ells deltas resampling move backward) := by
  rw [within_iff]
  refine Within.of_splitSet (I := {1} ∪ {0}) ?_
  refine (within_child (num := 2) (i := 1) (within_normal2 _ _ _)).bind_split (fun _ => ?_) (by simp)
  exact within_child (num := 2) (i := 0) (within_iff.mp (C52_csmc _ _ _ _ _ _
    (fun key => within_iff.mpr (within_normal2 _ _ _).bind_pure)
    (fun key x p => within_iff.mpr (within_normal2 _ _ _).bind_pure) hr hm _ _))

/-- **C52** (`atp_csmc_f`). -/
theorem C52_atp (svd : Mat d d → SvdOut d) (M : GaussModel MP RP n d) (key : Key)
    (xstar : Fin (n + 1) → Vec d) (bstar : Fin (n + 1) → Fin (N + 1)) (ells deltas : Fin (n + 1) → ℝ)
    {resampling : Resampling Poss N} {move : AncestorMove Poss N} (hr : FreshResampling resampling)
    (hm : FreshMove move) (backward : Bool) :
    FreshKeys key (atp_kernel svd M key xstar bstar ells deltas resampling move backward) := by
  rw [within_iff]
  refine Within.of_splitSet (I := {2} ∪ {0}) ?_
  refine (within_child (num := 3) (i := 2) (within_normal2 _ _ _)).bind_split (fun _ => ?_) (by simp)
  exact within_child (num := 3) (i := 0) (within_iff.mp (C52_csmc _ _ _ _ _ _
    (fun key => within_iff.mpr (within_normal2 _ _ _).bind_pure)
    (fun key x p => within_iff.mpr (within_normal2 _ _ _).bind_pure) hr hm _ _))

/-- **C52** (`t_atp_csmc_f`). -/
theorem C52_t_atp (M : LinModel RP n d) (key : Key)
    (xstar : Fin (n + 1) → Vec d) (bstar : Fin (n + 1) → Fin (N + 1)) (ells deltas : Fin (n + 1) → ℝ)
    {resampling : Resampling Poss N} {move : AncestorMove Poss N} (hr : FreshResampling resampling)
    (hm : FreshMove move) (backward : Bool) :
    FreshKeys key (t_atp_kernel M key xstar bstar ells deltas resampling move backward) := by
  rw [within_iff]
  refine Within.of_splitSet (I := {2} ∪ {0}) ?_
  refine (within_child (num := 3) (i := 2) (within_normal2 _ _ _)).bind_split (fun _ => ?_) (by simp)
  exact within_child (num := 3) (i := 0) (within_iff.mp (C52_csmc _ _ _ _ _ _
    (fun key => within_iff.mpr (within_normal2 _ _ _).bind_pure)
    (fun key x p => within_iff.mpr (within_normal2 _ _ _).bind_pure) hr hm _ _))

theorem als_backward_sampling_within {P0 P P1 : Type} (key : Key) (Gt : Vec d → Vec d → Vec d → P → P → ℝ)
    (Gp : Fin (n + 2) → P) (G1 : Vec d → Vec d → P0 → P1 → ℝ) (Gp1 : P0 × P1) (bT : Fin (N + 1))
    (xs : Fin (n + 3) → Fin (N + 1) → Vec d) (xs_m_1 : Fin (n + 2) → Fin (N + 1) → Vec d)
    (log_ws : Fin (n + 3) → Fin (N + 1) → ℝ) {mv : AncestorMove Poss N} (hm : FreshMove mv) :
    Within (als_backward_sampling_pass key Gt Gp G1 Gp1 bT xs xs_m_1 log_ws mv) {key} := by
  refine Within.of_splitSet (I := {n + 2} ∪ ({n + 1} ∪ ((Set.range fun t : Fin n => t.rev.1 + 1) ∪ {0}))) ?_
  refine Within.bind_split (within_child (num := n + 3) (i := Fin.last (n + 2)) (within_iff.mp (hm _ _ _)))
    (fun r => Within.bind_split (within_child (num := n + 3) (i := (Fin.last (n + 1)).castSucc) (within_choice _ _))
      (fun B => Within.bind_split ?_ (fun r => ?_) ?_) ?_) ?_
  · refine (within_scanM_split _ _ key (fun t : Fin n => t.rev.1 + 1) (fun t t' h => ?_) fun t c =>
      (within_choice _ _).bind_pure).bind_pure
    exact Fin.rev_injective (Fin.ext (by simpa using h))
  · exact (within_child (num := n + 3) (i := 0) (within_choice _ _)).bind_pure
  · rintro _ ⟨t, rfl⟩ h
    simp at h
  · rintro i hi (⟨t, ht⟩ | h)
    · have h1 : i = n + 1 := hi
      have h2 : t.rev.1 + 1 = i := ht
      have := t.rev.2
      omega
    · rw [Set.mem_singleton_iff.mp hi] at h; simp at h
  · rintro i hi (h | ⟨t, ht⟩ | h)
    · rw [Set.mem_singleton_iff.mp hi] at h; simp at h
    · have h1 : i = n + 2 := hi
      have h2 : t.rev.1 + 1 = i := ht
      have := t.rev.2
      omega
    · rw [Set.mem_singleton_iff.mp hi] at h; simp at h

/-- **C52** (`al_csmc_s.kernel`). -/
theorem C52_als (key : Key) (xstar : Fin (n + 3) → Vec d) (bstar : Fin (n + 3) → Fin (N + 1))
    (Gamma0 : Vec d → ℝ) (Gamma0_grad : Vec d → Vec d) (Gammat : Vec d → Vec d → G → ℝ)
    (Gammat_grad0 Gammat_grad1 : Vec d → Vec d → G → Vec d) (Gparams : Fin (n + 2) → G)
    (ells deltas : Fin (n + 3) → ℝ) {resampling : Resampling Poss N} {move : AncestorMove Poss N}
    (hr : FreshResampling resampling) (hm : FreshMove move) (backward : Bool) :
    FreshKeys key (als_kernel key xstar bstar Gamma0 Gamma0_grad Gammat Gammat_grad0 Gammat_grad1 Gparams ells deltas
      resampling move backward) := by
  rw [within_iff]
  refine aux_within (n := n + 2) (within_normal2 _ _ _) (fun _ => within_normal3 _ _ _ _) (fun _ _ => ?_)
    (fun _ _ _ => ?_)
  · refine Within.mono (S := splitSet key ({3} ∪ Set.range fun t : Fin (n + 1) => t.1 + 4)) ?_ ?_
    · refine Within.bind_split (Within.to_splitSet (i := 3) (within_iff.mp (hr _ _ _ _ _))) (fun A => ?_) ?_
      · refine Within.bind_pure ?_
        exact within_scanM_split _ _ key (fun t : Fin (n + 1) => t.1 + 4) (fun t t' h => Fin.ext (by simpa using h))
          fun t c => (within_iff.mp (hr _ _ _ _ _)).bind_pure
      · rintro i hi ⟨t, ht⟩
        rw [Set.mem_singleton_iff.mp hi] at ht
        simp at ht
    · rintro s ⟨i, hi | ⟨t, rfl⟩, rfl⟩
      · exact ⟨_, ⟨i, ⟨0, (Set.mem_singleton_iff.mp hi).symm⟩, rfl⟩, List.suffix_rfl⟩
      · exact ⟨_, ⟨_, ⟨t.succ, rfl⟩, rfl⟩, List.suffix_rfl⟩
  · cases backward
    · exact (backward_scanning_within _ _ _ _ _ hm).bind_pure
    · exact (als_backward_sampling_within _ _ _ _ _ _ _ _ _ hm).bind_pure

/-- **C52** (`atp_csmc_s`). -/
theorem C52_atps (svd : Mat d d → SvdOut d) (M : GaussModel MP RP (n + 2) d)
    (rt_grad0 : Vec d → Vec d → RP → Vec d) (key : Key)
    (xstar : Fin (n + 3) → Vec d) (bstar : Fin (n + 3) → Fin (N + 1)) (ells deltas : Fin (n + 3) → ℝ)
    {resampling : Resampling Poss N} {move : AncestorMove Poss N}
    (hr : FreshResampling resampling) (hm : FreshMove move) (backward : Bool) :
    FreshKeys key (atps_kernel svd M rt_grad0 key xstar bstar ells deltas resampling move backward) := by
  rw [within_iff]
  have e2 : ((2 : Fin (n + 5)) : ℕ) = 2 := by
    show 2 % (n + 5) = 2
    exact Nat.mod_eq_of_lt (by omega)
  have hfwd : ∀ aux, Within (atpsForward svd M rt_grad0 key bstar ells deltas resampling aux)
      (splitSet (key.child 0) {0} ∪ (splitSet key {3} ∪ (splitSet (key.child 0) {1} ∪
        splitSet key (Set.range fun t : Fin (n + 1) => t.1 + 4)))) := by
    intro aux
    have h0 : ∀ i j : ℕ, i ≠ 0 → KeyDisj ((key.child 0).child j) (key.child i) := fun i j h =>
      KeyDisj.mono (keyDisj_child key (Ne.symm h)) (List.suffix_cons _ _) List.suffix_rfl
    refine Within.bind (within_child (num := 2) (i := 0) (within_normal2 _ _ _).bind_pure) (fun x0 => Within.bind
      (Within.to_splitSet (i := 3) (within_iff.mp (hr _ _ _ _ _))) (fun A => Within.bind
      (within_child (num := 2) (i := 1) (within_normal2 _ _ _).bind_pure) (fun x1 => Within.bind_pure
      (within_scanM_split _ _ key _ (fun t t' h => Fin.ext (by simpa using h)) fun t c => ?_)) ?_) ?_) ?_
    · refine Within.of_splitSet (I := {0} ∪ {1}) ?_
      refine (within_child (num := 2) (i := 0) (within_iff.mp (hr _ _ _ _ _))).bind_split (fun A => ?_) (by simp)
      exact (within_child (num := 2) (i := 1) (within_normal2 _ _ _).bind_pure).bind_pure
    · rintro _ ⟨i, hi, rfl⟩ _ ⟨_, ⟨t, rfl⟩, rfl⟩
      exact h0 _ _ (by simp)
    · rintro _ ⟨i, hi, rfl⟩ _ (⟨j, hj, rfl⟩ | ⟨_, ⟨t, rfl⟩, rfl⟩)
      · rw [Set.mem_singleton_iff.mp hi]
        exact (h0 3 j (by norm_num)).symm
      · rw [Set.mem_singleton_iff.mp hi]
        exact keyDisj_child key (by simp)
    · rintro _ ⟨i, hi, rfl⟩ _ (⟨j, hj, rfl⟩ | ⟨j, hj, rfl⟩ | ⟨_, ⟨t, rfl⟩, rfl⟩)
      · rw [Set.mem_singleton_iff.mp hj]
        exact h0 3 _ (by norm_num)
      · rw [Set.mem_singleton_iff.mp hi, Set.mem_singleton_iff.mp hj]
        exact keyDisj_child _ (by simp)
      · exact h0 _ _ (by simp)
  have hfwd' : ∀ aux, Within (atpsForward svd M rt_grad0 key bstar ells deltas resampling aux)
      (splitSet key {i | i = 0 ∨ 3 ≤ i}) := fun aux => (hfwd aux).mono (by
    rintro _ (⟨i, hi, rfl⟩ | ⟨i, hi, rfl⟩ | ⟨i, hi, rfl⟩ | ⟨_, ⟨t, rfl⟩, rfl⟩)
    · exact ⟨_, ⟨0, Or.inl rfl, rfl⟩, List.suffix_cons _ _⟩
    · exact ⟨_, ⟨i, Or.inr (Set.mem_singleton_iff.mp hi).ge, rfl⟩, List.suffix_rfl⟩
    · exact ⟨_, ⟨0, Or.inl rfl, rfl⟩, List.suffix_cons _ _⟩
    · exact ⟨_, ⟨_, Or.inr (by simp), rfl⟩, List.suffix_rfl⟩)
  refine Within.of_splitSet (I := {1} ∪ ({i | i = 0 ∨ 3 ≤ i} ∪ {2})) ?_
  refine Within.bind_split (within_child (num := n + 5) (i := 1) (within_normal2 _ _ _)) (fun e => Within.bind_split
    (hfwd' _) (fun F => ?_) ?_) ?_
  · cases backward
    · have := (backward_scanning_within (splitKey key (n + 5) 2) F.As (lastA bstar) F.xs (lastA F.log_ws) hm).to_splitSet
      rwa [e2] at this
    · have h : ∀ aux, Within _ (splitSet key {((2 : Fin (n + 5)) : ℕ)}) := fun aux =>
        (als_backward_sampling_within (splitKey key (n + 5) 2) (atpsGammatTilde M rt_grad0)
        (atpsParams M deltas ells aux) (atpsGamma1Tilde M rt_grad0) (atpsParams1 M deltas ells aux) (lastA bstar) F.xs
        F.xs_m_1 F.log_ws hm).to_splitSet
      rw [e2] at h
      exact h _
  · rintro i hi h
    rw [Set.mem_singleton_iff.mp h] at hi
    rcases hi with h | h <;> omega
  · rintro i hi (h | h) <;> rw [Set.mem_singleton_iff.mp hi] at h
    · rcases h with h | h <;> simp at h
    · simp at h

example (x : Fin 5 → Vec 2) (b : Fin 5 → Fin 26) := C52_als [] x b (fun x => -x 0 ^ 2)
  (fun x j => if j = 0 then -2 * x 0 else 0) (fun y x (_ : Unit) => -(x 1 - y 0) ^ 2)
  (fun y x _ j => if j = 0 then 2 * (x 1 - y 0) else 0) (fun y x _ j => if j = 1 then -2 * (x 1 - y 0) else 0)
  (fun _ => ()) (fun _ => 1) (fun _ => 1) killing_fresh force_fresh true

end Verif.Props
