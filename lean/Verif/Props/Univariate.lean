import Verif.Lemmas.SecondOrderPass
import Verif.Lemmas.AuxRules
import Verif.Model.AtpCsmcS

/-!
# C28: smoothing gradients of univariate potentials
-/

namespace Verif.Props
open Verif Verif.Model

variable {N n d : ℕ} {G MP RP : Type}
  {Gamma0 : Vec d → ℝ} {Gamma0_grad : Vec d → Vec d} {Gammat : Vec d → Vec d → G → ℝ}
  {Gammat_grad0 Gammat_grad1 : Vec d → Vec d → G → Vec d}

theorem alsCorrection_eq (u x g : Vec d) (delta ell : ℝ) :
    alsCorrection u (alsMean x delta g) ell = -sumSq (fun j => u j - x j - 0.5 * delta * g j) / ell := by
  unfold alsCorrection alsMean
  congr 3
  funext j
  ring

/-! ## The increments -/

/-- C28 (`al_csmc_s`): at time zero the increments of `al_csmc_s` and `al_csmc_f` are the same; at the later times they are
the same when the gradient of the potential in its first argument vanishes (at the points concerned). -/
theorem C28_al_csmc_s (x_0 x_1 x_2 u_0 : Vec d) (delta_0 ell_0 : ℝ) (p0 : AlsParams0 d) (p1 p2 : AlParams G d)
    (h1 : Gammat_grad0 x_0 x_1 p1.original = 0) (h2 : Gammat_grad0 x_1 x_2 p2.original = 0) :
    alsGamma0Tilde Gamma0 Gamma0_grad x_0 delta_0 ell_0 u_0 = alGamma0Tilde Gamma0 Gamma0_grad x_0 delta_0 ell_0 u_0 ∧
    alsGamma1Tilde Gamma0_grad Gammat Gammat_grad0 Gammat_grad1 x_0 x_1 p0 p1 =
      alGammatTilde Gammat Gammat_grad1 x_0 x_1 p1 ∧
    alsGammatTilde Gammat Gammat_grad0 Gammat_grad1 x_0 x_1 x_2 p1 p2 = alGammatTilde Gammat Gammat_grad1 x_1 x_2 p2 := by
  refine ⟨?_, ?_, ?_⟩
  · simp only [alsGamma0Tilde, alGamma0Tilde, alsCorrection_eq]
  · simp only [alsGamma1Tilde, alGammatTilde, h1, zero_add, alsCorrection_eq]
    ring
  · simp only [alsGammatTilde, alGammatTilde, h2, zero_add, alsCorrection_eq]
    ring

/-- C28 (`atp_csmc_s`): the same for the increments of `atp_csmc_s` and `atp_csmc_f`. -/
theorem C28_atp_csmc_s (M : GaussModel MP RP (n + 1) d) (rt_grad0 : Vec d → Vec d → RP → Vec d)
    (x_0 x_1 x_2 u_0 : Vec d) (delta_0 ell_0 : ℝ) (p0 : AlsParams0 d) (p1 : AtpsParams1 MP RP d)
    (q1 q2 : AtpGParams MP RP d) (h1 : rt_grad0 x_0 x_1 p1.rt = 0) (h2 : rt_grad0 x_1 x_2 q2.rt = 0) :
    atpsGamma0Tilde M x_0 delta_0 ell_0 u_0 =
      atpGamma_0 M.r0 M.r0_grad x_0 u_0 M.mu0 (invChol M.P0) delta_0 ell_0 ∧
    atpsGamma1Tilde M rt_grad0 x_0 x_1 p0 p1 = atpGamma_t M.mu M.rt M.rt_grad x_0 x_1
      { u := p1.u, delta := p1.delta, ell := p1.ell, inv_chol_Q := invChol (M.Qs 0), mu := p1.mu, rt := p1.rt } ∧
    atpsGammatTilde M rt_grad0 x_0 x_1 x_2 q1 q2 = atpGamma_t M.mu M.rt M.rt_grad x_1 x_2 q2 := by
  refine ⟨?_, ?_, ?_⟩
  · simp only [atpsGamma0Tilde, atpGamma_0, alsCorrection_eq]
    ring
  · simp only [atpsGamma1Tilde, atpGamma_t, h1, zero_add, alsCorrection_eq]
    ring
  · simp only [atpsGammatTilde, atpGamma_t, h2, zero_add, alsCorrection_eq]
    ring

/-- Potentials of the second argument meeting the hypotheses of C28. -/
example (x y z u : Vec 2) (o : ℝ) := C28_al_csmc_s (Gamma0 := fun x => -(x 0 ^ 2)) (Gamma0_grad := fun x j => if j = 0 then -2 * x 0 else 0)
  (Gammat := fun _ x o => -(x 0 - o) ^ 2) (Gammat_grad0 := fun _ _ (_ : ℝ) => 0)
  (Gammat_grad1 := fun _ x o j => if j = 0 then -2 * (x 0 - o) else 0) x y z u 1 2 ⟨1, 2, u⟩ ⟨1, 2, u, o⟩ ⟨3, 1, u, o⟩ rfl rfl

/-! ## The programs -/

section program
variable {m : Type → Type} [RandM m] [LawfulMonad m]

/-- The forward scan of `al_csmc_s` with univariate potentials, in terms of that of `al_csmc_f`. -/
theorem als_scan_eq (h : ∀ y x g, Gammat_grad0 y x g = 0) (resampling : Resampling m N) (c : AlsCarry N d)
    (inp : Fin n → AlsInp G N d) :
    (scanM (alsBody Gammat Gammat_grad0 Gammat_grad1 resampling) c inp >>= fun r => pure r.2) =
      scanM (alBody Gammat Gammat_grad1 resampling) (c.w, c.x1)
        (fun t => ⟨(inp t).params_t, (inp t).x_t, (inp t).bPrev, (inp t).bCur, (inp t).key⟩) >>= fun r =>
      pure (fun t => ((r.2 t).1, (r.2 t).2, take (insert0 c.x1 (fun t => (inp t).x_t) t.castSucc) (r.2 t).2)) := by
  have hG : ∀ x0 x1 x2 p1 p2, alsGtTilde Gammat Gammat_grad0 Gammat_grad1 x0 x1 x2 p1 p2 =
      alGtTilde (d := d) Gammat Gammat_grad1 x1 x2 p2 := fun x0 x1 x2 p1 p2 => by
    unfold alsGtTilde alGtTilde
    rw [(C28_al_csmc_s (Gamma0 := fun _ => 0) (Gamma0_grad := fun _ => 0) (Gammat := Gammat)
      (Gammat_grad1 := Gammat_grad1) x0 x1 x2 0 0 0 ⟨0, 0, 0⟩ p1 p2 (h _ _ _) (h _ _ _)).2.2]
  induction n generalizing c with
  | zero =>
    simp only [scanM_zero, pure_bind]
    congr 1
    funext t
    exact t.elim0
  | succ n ih =>
    rw [scanM_succ, scanM_succ]
    simp only [alsBody, alBody, bind_assoc, pure_bind, hG]
    congr 1
    funext A
    have h1 := fun c' o => congrArg (fun P : m _ => P >>= fun o' => pure (insert0 o o')) (ih c' (tailA inp))
    simp only [bind_assoc, pure_bind] at h1
    refine (h1 _ _).trans ?_
    refine congrArg (Bind.bind _) (funext fun r => congrArg pure (funext fun t => ?_))
    refine Fin.cases rfl (fun t => ?_) t
    have h2 : ∀ s : Fin (n + 1), insert0 (inp 0).x_t (fun t => (tailA inp t).x_t) s = (inp s).x_t :=
      fun s => Fin.cases rfl (fun s => rfl) s
    exact congrArg (fun x => ((r.2 t).1, (r.2 t).2, take x (r.2 t).2)) (h2 t.castSucc)

/-- What `al_csmc_s` keeps of the forward scan of `al_csmc_f`. -/
noncomputable def alsOf (lw0 : Fin (N + 1) → ℝ) (lw1 : (Fin (N + 1) → Fin (N + 1)) → Fin (N + 1) → ℝ)
    (xs : Fin (n + 3) → Fin (N + 1) → Vec d) (o : Fin (n + 2) → (Fin (N + 1) → ℝ) × (Fin (N + 1) → Fin (N + 1))) :
    AlsFwd N n d where
  xs := xs
  log_ws := insert0 lw0 (insert0 (lw1 (o 0).2) (fun t => (o t.succ).1))
  As := fun t => (o t).2
  xs_m_1 := insert0 (take (take (xs 0) (o 0).2) (o 1).2) (fun t => take (xs t.succ.castSucc) (o t.succ).2)

theorem alsForward_eq (h : ∀ y x g, Gammat_grad0 y x g = 0) (key : Key) (bstar : Fin (n + 3) → Fin (N + 1))
    (Gparams : Fin (n + 2) → G) (ells deltas : Fin (n + 3) → ℝ) (resampling : Resampling m N)
    (aux_vars : Fin (n + 3) → Vec d) (xs : Fin (n + 3) → Fin (N + 1) → Vec d) :
    alsForward key bstar Gamma0 Gamma0_grad Gammat Gammat_grad0 Gammat_grad1 Gparams ells deltas resampling aux_vars xs =
      (let log_w0 : Fin (N + 1) → ℝ := fun i => alG0Tilde Gamma0 Gamma0_grad (xs 0 i) (deltas 0) (ells 0) (aux_vars 0)
       let log_w0 : Fin (N + 1) → ℝ := fun i => log_w0 i - maxA log_w0
       scanM (alBody Gammat Gammat_grad1 resampling) (normalizeW log_w0, xs 0)
        (auxInputs key (alsParams deltas ells aux_vars Gparams) xs bstar) >>= fun r => pure (alsOf log_w0
          (fun A i => alGtTilde Gammat Gammat_grad1 (take (xs 0) A i) (xs 1 i) (alsParams deltas ells aux_vars Gparams 0))
          xs r.2)) := by
  have hG0 : ∀ x δ l u, alsG0Tilde (d := d) Gamma0 Gamma0_grad x δ l u = alG0Tilde Gamma0 Gamma0_grad x δ l u :=
    fun x δ l u => by
      simp only [alsG0Tilde, alG0Tilde, alsGamma0Tilde, alGamma0Tilde, alsCorrection_eq]
  have hG1 : ∀ x0 x1 p0 p1, alsG1Tilde Gamma0_grad Gammat Gammat_grad0 Gammat_grad1 x0 x1 p0 p1 =
      alGtTilde (d := d) Gammat Gammat_grad1 x0 x1 p1 := fun x0 x1 p0 p1 => by
    unfold alsG1Tilde alGtTilde
    rw [(C28_al_csmc_s (Gamma0 := fun _ => 0) (Gammat := Gammat)
      (Gammat_grad1 := Gammat_grad1) x0 x1 x1 0 0 0 p0 p1 p1 (h _ _ _) (h _ _ _)).2.1]
  simp only [alsForward, hG0, hG1]
  rw [scanM_succ]
  simp only [alBody, bind_assoc, pure_bind]
  refine congrArg (Bind.bind _) (funext fun A => ?_)
  have h1 := fun c (f : _ → AlsFwd N n d) => congrArg (fun P : m _ => P >>= fun o' => pure (f o')) (als_scan_eq (Gammat := Gammat)
    (Gammat_grad1 := Gammat_grad1) h resampling c (alsInputs key (alsParams deltas ells aux_vars Gparams) xs bstar))
  simp only [bind_assoc, pure_bind] at h1
  refine (h1 ⟨_, _, _⟩ (fun o => AlsFwd.mk xs (insert0 _ (insert0 _ fun t => (o t).1)) (insert0 A fun t => (o t).2.1)
    (insert0 (take (take (xs 0) A) (insert0 A (fun t => (o t).2.1) 1)) fun t => (o t).2.2))).trans ?_
  have e1 : (normalizeW fun i => alGtTilde Gammat Gammat_grad1 (take (xs 0) A i) (xs 1 i)
      (alsParams1 deltas ells aux_vars Gparams).2) = normalizeW fun i => alGtTilde Gammat Gammat_grad1 (take (xs 0) A i)
        (xs 1 i) (alsParams1 deltas ells aux_vars Gparams).2 - maxA fun i => alGtTilde Gammat Gammat_grad1
        (take (xs 0) A i) (xs 1 i) (alsParams1 deltas ells aux_vars Gparams).2 :=
    (normalize_congr_const ⟨_, fun i => sub_eq_add_neg _ _⟩).symm
  rw [e1]
  refine congrArg (Bind.bind _) (funext fun r => congrArg pure ?_)
  unfold alsOf
  congr 1
  · funext t
    exact Fin.cases rfl (fun t => rfl) t
  · refine congrArg (insert0 _) (funext fun t => ?_)
    have h2 : ∀ s : Fin (n + 2), insert0 (xs 1) (fun t : Fin (n + 1) => xs t.succ.succ) s = xs s.succ :=
      fun s => Fin.cases rfl (fun s => rfl) s
    exact congrArg (fun x => take x (r.2 t).2) (h2 t.castSucc)

/-- C28: with univariate potentials and backward scanning, `al_csmc_s` and `al_csmc_f` are the same program on
trajectories and indices: they use the same keys for the same draws. -/
theorem C28_al_program_scanning (h : ∀ y x g, Gammat_grad0 y x g = 0) (key : Key) (xstar : Fin (n + 3) → Vec d)
    (bstar : Fin (n + 3) → Fin (N + 1)) (Gparams : Fin (n + 2) → G) (ells deltas : Fin (n + 3) → ℝ)
    (resampling : Resampling m N) (mv : AncestorMove m N) :
    (als_kernel key xstar bstar Gamma0 Gamma0_grad Gammat Gammat_grad0 Gammat_grad1 Gparams ells deltas resampling mv
        false >>= fun r => pure (r.xs, r.Bs)) =
      al_kernel key xstar bstar Gamma0 Gamma0_grad Gammat Gammat_grad1 Gparams ells deltas resampling mv false >>=
        fun r => pure (r.xs, r.Bs) := by
  have hg : fullGrad Gamma0_grad Gammat_grad0 Gammat_grad1 Gparams xstar = insert0 (Gamma0_grad (xstar 0))
      (fun t => Gammat_grad1 (initA xstar t) (tailA xstar t) (Gparams t)) := by
    funext t
    simp only [fullGrad, h]
    refine Fin.lastCases ?_ (fun t => ?_) t
    · simp
    · simp
  simp only [als_kernel, al_kernel, hg, alsForward_eq h, bind_assoc, pure_bind, Bool.false_eq_true, if_false]
  refine congrArg (Bind.bind _) (funext fun e => congrArg (Bind.bind _) (funext fun e' => ?_))
  refine congrArg (Bind.bind _) (funext fun r => ?_)
  rfl

end program

/-- The backward scan ends at the last state it saved. -/
theorem bs_scan_last {X P : Type} (Gam : X → X → P → ℝ) (c : X) (inp : Fin n → Key × (Fin (N + 1) → X) ×
    (Fin (N + 1) → ℝ) × P) :
    (scanM (bsBody Gam) c inp : Ex _) = scanM (bsBody Gam) c inp >>= fun r =>
      pure (lastA (insert0 c fun t => (r.2 t).1), r.2) := by
  induction n generalizing c with
  | zero =>
    simp only [scanM_zero, pure_bind]
    rfl
  | succ n ih =>
    rw [scanM_snoc]
    simp only [bsBody, bind_assoc, pure_bind]
    refine congrArg (Bind.bind (m := Ex) _) (funext fun r => congrArg (Bind.bind (m := Ex) _) (funext fun B => ?_))
    refine congrArg (pure (f := Ex)) (congrArg (fun x => (x, _)) ?_)
    show _ = (snocA r.2 (_, B) (Fin.last n)).1
    rw [snocA_last]

/-- The backward sampling pass of `al_csmc_s` with increments that do not depend on the parent. -/
theorem als_backward_eq {P : Type} (key : Key) (Gam : Vec d → Vec d → P → ℝ) (p : Fin (n + 2) → P)
    {P0 : Type} (p0 : P0) (b : Fin (N + 1))
    (xs : Fin (n + 3) → Fin (N + 1) → Vec d) (xs_m_1 : Fin (n + 2) → Fin (N + 1) → Vec d)
    (log_ws log_ws' : Fin (n + 3) → Fin (N + 1) → ℝ) (hl : ∀ t, ∃ c, ∀ i, log_ws t i = log_ws' t i + c)
    (mv : AncestorMove Ex N) :
    als_backward_sampling_pass key (fun _ x x' _ p => Gam x x' p) p (fun x x' (_ : P0) p => Gam x x' p) (p0, p 0) b xs xs_m_1
        log_ws mv = backward_sampling_pass key Gam p b xs log_ws' mv true := by
  unfold als_backward_sampling_pass backward_sampling_pass
  have e0 : normalizeW (lastA log_ws) = normalizeW (lastA log_ws') := normalize_congr_const (hl (Fin.last (n + 2)))
  simp only [e0, Bool.not_true, Bool.false_eq_true, if_false]
  refine congrArg (Bind.bind (m := Ex) _) (funext fun q => ?_)
  rw [scanM_succ]
  simp only [bsBody, bind_assoc, pure_bind]
  refine congrArg₂ (Bind.bind (m := Ex)) (congrArg (fun w => (choice [] w : Ex _)) ?_) (funext fun B1 => ?_)
  · obtain ⟨c, hc⟩ := hl (Fin.last (n + 1)).castSucc
    refine normalize_congr_const ⟨c + maxA fun i => Gam (last2A xs i) (lastA xs q.1) (lastA p), fun i => ?_⟩
    have e1 : ∀ {α : Type} (a : Fin (n + 3) → α), revInit a 0 = last2A a := fun a => by simp [revInit, last2A, lastA, initA]
    have e2 : rev p 0 = lastA p := by simp [rev, lastA]
    rw [e1, e1, e2]
    have := hc i
    show Gam (last2A xs i) (lastA xs q.1) (lastA p) + log_ws _ i = _ - _ + log_ws' _ i + _
    rw [this]
    ring
  · set inps : Fin (n + 2) → Key × (Fin (N + 1) → Vec d) × (Fin (N + 1) → ℝ) × P :=
      fun t => (initA (splitKey key (n + 2 + 1)) t, revInit xs t, revInit log_ws' t, rev p t) with hinps
    set inps' : Fin n → AlsBsInp P N d := fun t =>
      { key := tailA (initA (initA (splitKey key (n + 3)))) t, xs_t_m_1 := initA (initA xs_m_1) t
        xs_t := tailA (initA (initA xs)) t, log_w_t := tailA (initA (initA log_ws)) t
        params_t := initA (initA p) t, params_t_p_1 := tailA (initA p) t, params_t_p_2 := tailA (tailA p) t } with hinps'
    have hx : revInit xs 0 B1 = last2A xs B1 := by simp [revInit, last2A, lastA, initA]
    have hsim : (scanM (bsBody Gam) (last2A xs B1) (initA (tailA inps)) : Ex _) =
        scanM (alsBsBody fun _ x x' _ p => Gam x x' p) (last2A xs B1, lastA xs q.1) (rev inps') >>= fun r =>
          pure (r.1.1, r.2) := by
      refine scanM_simulate (m := Ex) (alsBsBody fun _ x x' _ p => Gam x x' p) (bsBody Gam) Prod.fst (rev inps')
        (initA (tailA inps)) (fun t c => ?_) (last2A xs B1, lastA xs q.1)
      simp only [bsBody, alsBsBody, bind_assoc, pure_bind]
      have ei : (t.castSucc.succ.rev.castSucc : Fin (n + 3)) = t.rev.succ.castSucc.castSucc := by
        ext; simp; omega
      have ej : (t.castSucc.succ.rev : Fin (n + 2)) = t.rev.castSucc.succ := by
        ext; simp; omega
      have hxt : (initA (tailA inps) t).2.1 = (rev inps' t).xs_t := congrArg xs ei
      rw [hxt]
      refine congrArg₂ (Bind.bind (m := Ex)) (congrArg (fun w => (choice [] w : Ex _)) ?_) rfl
      obtain ⟨k, hk⟩ := hl t.rev.succ.castSucc.castSucc
      symm
      refine normalize_congr_const ⟨k + Gam c.1 c.2 (rev inps' t).params_t_p_2 + maxA fun i => Gam ((rev inps' t).xs_t i) c.1
        (initA (tailA inps) t).2.2.2, fun i => ?_⟩
      have h1 : (rev inps' t).log_w_t i = (initA (tailA inps) t).2.2.1 i + k :=
        (hk i).trans (congrArg (fun s => log_ws' s i + k) ei.symm)
      have h2 : (rev inps' t).params_t_p_1 = (initA (tailA inps) t).2.2.2 := congrArg p ej.symm
      rw [h1, h2]
      ring
    rw [scanM_snoc, hx]
    have hlast := bs_scan_last Gam (last2A xs B1) (initA (tailA inps))
    rw [hsim] at hlast
    rw [hsim, hlast]
    simp only [scanRevM, bind_assoc, pure_bind]
    refine congrArg (Bind.bind (m := Ex) _) (funext fun r => ?_)
    simp only [bsBody, bind_assoc, pure_bind]
    have hout : (snocA (snocA (fun t => (rev r.2 t).1) (last2A xs B1)) (lastA xs q.1) : Fin (n + 2) → Vec d) 0 =
        lastA (insert0 (last2A xs B1) fun t => (r.2 t).1) := by
      have h1 : (snocA (fun t => (rev r.2 t).1) (last2A xs B1) : Fin (n + 1) → Vec d) =
        rev (insert0 (last2A xs B1) fun t => (r.2 t).1) := (rev_insert0 _ (fun t => (r.2 t).1)).symm
      have h2 : (0 : Fin (n + 2)) = (0 : Fin (n + 1)).castSucc := rfl
      rw [h1, h2, snocA_castSucc]
      simp [rev, lastA]
    have hl0 : ∀ {α : Type} (a : Fin (n + 3) → α), revInit a (Fin.last (n + 1)) = a 0 := fun a => by simp [revInit, rev, initA]
    have hx0 : (lastA (tailA inps)).2.1 = xs 0 := hl0 xs
    have hlw0 : (lastA (tailA inps)).2.2.1 = log_ws' 0 := hl0 log_ws'
    have hp0 : (lastA (tailA inps)).2.2.2 = p 0 := by
      show rev p (Fin.last (n + 1)) = p 0
      simp [rev]
    rw [hx0, hlw0, hp0, hout]
    refine congrArg₂ (Bind.bind (m := Ex)) (congrArg (fun w => (choice [] w : Ex _)) ?_) (funext fun B0 => ?_)
    · obtain ⟨k, hk⟩ := hl 0
      refine normalize_congr_const ⟨k + Gam (lastA (insert0 (last2A xs B1) fun t => (r.2 t).1))
        ((snocA (snocA (fun t => (rev r.2 t).1) (last2A xs B1)) (lastA xs q.1) : Fin (n + 2) → Vec d) 1) (p 1) +
        maxA fun i => Gam (xs 0 i) (lastA (insert0 (last2A xs B1) fun t => (r.2 t).1)) (p 0), fun i => ?_⟩
      rw [hk i]
      ring
    · have h3 : ∀ {α β : Type} (f : α → β) (a : α) (b : Fin n → α) (a' : α), (fun t => f (insert0 a (snocA b a') t)) =
          insert0 (f a) (snocA (fun t => f (b t)) (f a')) := fun f a b a' => by
        funext t
        refine Fin.cases rfl (fun t => ?_) t
        simp only [insert0_succ]
        refine Fin.lastCases ?_ (fun t => ?_) t
        · simp only [snocA_last]
        · simp only [snocA_castSucc]
      rw [h3 Prod.fst, h3 Prod.snd]
      simp only [rev_insert0, rev_snocA, insert0_snocA]
      rfl

/-- C28: with univariate potentials, `al_csmc_s` and `al_csmc_f` draw the new trajectory and indices from the same law,
for both backward passes (with backward sampling the keys are used in another order). -/
theorem C28_al_law (h : ∀ y x g, Gammat_grad0 y x g = 0) (key : Key) (xstar : Fin (n + 3) → Vec d)
    (bstar : Fin (n + 3) → Fin (N + 1)) (Gparams : Fin (n + 2) → G) (ells deltas : Fin (n + 3) → ℝ)
    (resampling : Resampling Ex N) (mv : AncestorMove Ex N) (backward : Bool) :
    (als_kernel key xstar bstar Gamma0 Gamma0_grad Gammat Gammat_grad0 Gammat_grad1 Gparams ells deltas resampling mv
        backward >>= fun r => pure (r.xs, r.Bs)) =
      al_kernel key xstar bstar Gamma0 Gamma0_grad Gammat Gammat_grad1 Gparams ells deltas resampling mv backward >>=
        fun r => pure (r.xs, r.Bs) := by
  cases backward with
  | false => exact C28_al_program_scanning h key xstar bstar Gparams ells deltas resampling mv
  | true =>
    have hg : fullGrad Gamma0_grad Gammat_grad0 Gammat_grad1 Gparams xstar = insert0 (Gamma0_grad (xstar 0))
        (fun t => Gammat_grad1 (initA xstar t) (tailA xstar t) (Gparams t)) := by
      funext t
      simp only [fullGrad, h]
      refine Fin.lastCases ?_ (fun t => ?_) t
      · simp
      · simp
    have hG : alsGammatTilde Gammat Gammat_grad0 Gammat_grad1 = fun _ x x' _ p => alGammatTilde (d := d) Gammat
        Gammat_grad1 x x' p := by
      funext x0 x1 x2 p1 p2
      exact (C28_al_csmc_s (Gamma0 := fun _ => 0) (Gamma0_grad := fun _ => 0) (Gammat := Gammat)
        (Gammat_grad1 := Gammat_grad1) x0 x1 x2 0 0 0 ⟨0, 0, 0⟩ p1 p2 (h _ _ _) (h _ _ _)).2.2
    have hG1 : alsGamma1Tilde Gamma0_grad Gammat Gammat_grad0 Gammat_grad1 = fun x x' (_ : AlsParams0 d) p =>
        alGammatTilde (d := d) Gammat Gammat_grad1 x x' p := by
      funext x0 x1 p0 p1
      exact (C28_al_csmc_s (Gamma0 := fun _ => 0) (Gammat := Gammat)
        (Gammat_grad1 := Gammat_grad1) x0 x1 x1 0 0 0 p0 p1 p1 (h _ _ _) (h _ _ _)).2.1
    simp only [als_kernel, al_kernel, hg, hG, hG1, alsForward_eq h, bind_assoc, pure_bind, if_true]
    refine congrArg (Bind.bind (m := Ex) _) (funext fun e => congrArg (Bind.bind (m := Ex) _) (funext fun e' => ?_))
    rw [scanM_succ]
    simp only [alBody, bind_assoc, pure_bind]
    refine congrArg (Bind.bind (m := Ex) _) (funext fun A => congrArg (Bind.bind (m := Ex) _) (funext fun r => ?_))
    refine congrArg₂ (Bind.bind (m := Ex)) ?_ rfl
    refine als_backward_eq (n := n) (splitKey key (n + 5) 2) (alGammatTilde Gammat Gammat_grad1) (alsParams deltas ells _ Gparams)
      _ (lastA bstar) _ _ _ _ (fun t => ?_) mv
    refine Fin.cases ⟨0, fun i => (add_zero _).symm⟩ (fun t => ?_) t
    refine Fin.cases ⟨_, fun i => (sub_add_cancel _ _).symm⟩ (fun t => ⟨0, fun i => (add_zero _).symm⟩) t

/-- Univariate potentials in dimension two meeting the hypotheses of C28 for the programs. -/
example (xstar : Fin 9 → Vec 2) (y : Fin 8 → ℝ) := C28_al_law (N := 25) (n := 6) (Gamma0 := fun x => -(x 0 ^ 2))
  (Gamma0_grad := fun x j => if j = 0 then -2 * x 0 else 0) (Gammat := fun _ x o => -(x 0 - o) ^ 2)
  (Gammat_grad0 := fun _ _ (_ : ℝ) => 0) (Gammat_grad1 := fun _ x o j => if j = 0 then -2 * (x 0 - o) else 0)
  (fun _ _ _ => rfl) [] xstar (fun _ => 0) y (fun _ => 1) (fun _ => 2) (fun key w i j c => killing key w i j c)
  (fun key w k => force_move key w k) true

end Verif.Props
