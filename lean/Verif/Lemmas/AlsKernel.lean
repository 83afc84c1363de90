import Verif.Lemmas.AlsCsmc

/-!
# `al_csmc_s.kernel` as a mixture of kernels of particle systems
-/

open scoped ENNReal
open MeasureTheory ProbabilityTheory

namespace Verif
open Verif.Spec Verif.Model

variable {N n d : ℕ} {G : Type}

/-- The backward sampling pass only reads the values of the parents through the increments. -/
theorem als_bs_congr {P0 P P1 : Type} (key : Key) (Gamma_tilde_t : Vec d → Vec d → Vec d → P → P → ℝ)
    (Gamma_params_t : Fin (n + 2) → P) (Gamma_tilde_1 : Vec d → Vec d → P0 → P1 → ℝ) (Gamma_params_1 : P0 × P1)
    (b : Fin (N + 1)) (xs : Fin (n + 3) → Fin (N + 1) → Vec d) (log_ws : Fin (n + 3) → Fin (N + 1) → ℝ)
    (mv : AncestorMove Ex N) (p p' : Fin (n + 2) → Fin (N + 1) → Vec d)
    (h : ∀ (t : Fin (n + 1)) i x x', Gamma_tilde_t (p t.castSucc i) x x' (Gamma_params_t t.castSucc)
      (Gamma_params_t t.succ) = Gamma_tilde_t (p' t.castSucc i) x x' (Gamma_params_t t.castSucc)
      (Gamma_params_t t.succ)) :
    als_backward_sampling_pass key Gamma_tilde_t Gamma_params_t Gamma_tilde_1 Gamma_params_1 b xs p log_ws mv =
      als_backward_sampling_pass key Gamma_tilde_t Gamma_params_t Gamma_tilde_1 Gamma_params_1 b xs p' log_ws mv := by
  have h1 : ∀ i x x', Gamma_tilde_t (last2A p i) x x' (last2A Gamma_params_t) (lastA Gamma_params_t) =
      Gamma_tilde_t (last2A p' i) x x' (last2A Gamma_params_t) (lastA Gamma_params_t) := h (Fin.last n)
  let mk : (Fin (n + 2) → Fin (N + 1) → Vec d) → Fin n → AlsBsInp P N d := fun p t =>
    { key := tailA (initA (initA (splitKey key (n + 3)))) t
      xs_t_m_1 := initA (initA p) t
      xs_t := tailA (initA (initA xs)) t
      log_w_t := tailA (initA (initA log_ws)) t
      params_t := initA (initA Gamma_params_t) t
      params_t_p_1 := tailA (initA Gamma_params_t) t
      params_t_p_2 := tailA (tailA Gamma_params_t) t }
  have h2 : ∀ c, (scanRevM (alsBsBody Gamma_tilde_t) c (mk p) : Ex _) =
      scanRevM (alsBsBody Gamma_tilde_t) c (mk p') := by
    intro c
    unfold scanRevM
    have := scanM_simulate (m := Ex) (alsBsBody Gamma_tilde_t) (alsBsBody Gamma_tilde_t) (fun c => c) (rev (mk p'))
      (rev (mk p)) (fun t c => by
        refine Eq.trans ?_ (bind_pure _).symm
        have h3 : ∀ i x x', Gamma_tilde_t ((rev (mk p) t).xs_t_m_1 i) x x' (rev (mk p) t).params_t
            (rev (mk p) t).params_t_p_1 = Gamma_tilde_t ((rev (mk p') t).xs_t_m_1 i) x x' (rev (mk p) t).params_t
            (rev (mk p) t).params_t_p_1 := h (Fin.rev t).castSucc
        unfold alsBsBody
        simp only [h3]
        rfl) c
    rw [this]
    congr 1
  unfold als_backward_sampling_pass
  simp only [h1]
  congr 1
  funext r
  congr 1
  funext B
  show ((scanRevM (alsBsBody Gamma_tilde_t) _ (mk p) : Ex _) >>= _) = _
  rw [h2]

/-- Backward scanning over the second components. -/
theorem als_bscan_eq (key : Key) (h : Hist (Vec d × Vec d) N n) (b : Fin (N + 1)) (lw : Fin (N + 1) → ℝ)
    (mv : AncestorMove Ex N) :
    (backward_scanning_pass key h.1 b (fun t i => (h.2 t i).2) lw mv : Ex _) = (do
      let k ← moveIndex mv key (normalizeW lw) b
      pure (fun t => (h.tracex k t).2, h.trace k)) := by
  let h' : Hist (Vec d) N n := (h.1, fun t i => (h.2 t i).2)
  have h5 := fun k => bscan_eq h' k
  simp only at h5
  have e1 : ∀ k, h'.trace k = h.trace k := fun k => Hist.Pairs.trace_eq h k
  have e2 : ∀ k, h'.tracex k = fun t => (h.tracex k t).2 := fun k => by
    funext t
    show (h.2 t (h'.trace k t)).2 = (h.2 t (h.trace k t)).2
    rw [e1]
  have h6 : ∀ k, (pure (fun t => (h.tracex k t).2, h.trace k) : Ex _) = pure _ := fun k => by
    rw [← e1, ← e2, ← (h5 k).1, ← (h5 k).2]
  simp only [h6]
  rfl

/-- The three drifts of the code. -/
noncomputable def alsA0 (Gamma0_grad : Vec d → Vec d) (deltas : Fin (n + 1) → ℝ) : Vec d → Vec d := fun x j =>
  0.5 * deltas 0 * Gamma0_grad x j

@[inherit_doc alsA0]
noncomputable def alsA (Gammat_grad1 : Vec d → Vec d → G → Vec d) (Gparams : Fin n → G) (deltas : Fin (n + 1) → ℝ) :
    Fin n → Vec d → Vec d → Vec d := fun t y x j => 0.5 * deltas t.succ * Gammat_grad1 y x (Gparams t) j

@[inherit_doc alsA0]
noncomputable def alsC (Gammat_grad0 : Vec d → Vec d → G → Vec d) (Gparams : Fin n → G) (deltas : Fin (n + 1) → ℝ) :
    Fin n → Vec d → Vec d → Vec d := fun t y x j => 0.5 * deltas t.castSucc * Gammat_grad0 y x (Gparams t) j

/-- The auxiliary variables of the code are centred at `s2Center`. -/
theorem alsAux_center (Gamma0_grad : Vec d → Vec d) (Gammat_grad0 Gammat_grad1 : Vec d → Vec d → G → Vec d)
    (Gparams : Fin n → G) (deltas : Fin (n + 1) → ℝ) (x : Fin (n + 1) → Vec d) (t : Fin (n + 1)) (j : Fin d) :
    x t j + 0.5 * deltas t * fullGrad Gamma0_grad Gammat_grad0 Gammat_grad1 Gparams x t j =
      s2Center (alsA0 Gamma0_grad deltas) (alsA Gammat_grad1 Gparams deltas) (alsC Gammat_grad0 Gparams deltas) x t j := by
  have h1 : ∀ t, s2Own (alsA0 Gamma0_grad deltas) (alsA Gammat_grad1 Gparams deltas) t (lift2 0 x t) j =
      0.5 * deltas t *
        insert0 (Gamma0_grad (x 0)) (fun t => Gammat_grad1 (initA x t) (tailA x t) (Gparams t)) t j := by
    intro t
    refine Fin.cases rfl (fun t => rfl) t
  have h2 : ∀ t, snocA (fun t : Fin n => alsC Gammat_grad0 Gparams deltas t (x t.castSucc) (x t.succ)) 0 t j =
      0.5 * deltas t * snocA (fun t => Gammat_grad0 (initA x t) (tailA x t) (Gparams t)) 0 t j := by
    intro t
    refine Fin.lastCases ?_ (fun t => ?_) t
    · rw [snocA_last, snocA_last]; simp
    · rw [snocA_castSucc, snocA_castSucc]; rfl
  simp only [s2Center, fullGrad, Pi.add_apply, h1, h2]
  ring

section
variable {ells : Fin (n + 1) → ℝ}

theorem alsCorrection_eq (hells : ∀ t, 0 < ells t) (t : Fin (n + 1)) (u m : Vec d) :
    alsCorrection u m (ells t) = isoLogpdf (auxStd ells t) m u + isoC d (auxStd ells t) := by
  unfold alsCorrection isoLogpdf
  rw [auxStd_sq hells]
  ring

end

variable {Gamma0 : Vec d → ℝ} {Gamma0_grad : Vec d → Vec d} {Gammat : Vec d → Vec d → G → ℝ}
    {Gammat_grad0 Gammat_grad1 : Vec d → Vec d → G → Vec d}

/-- `Gamma_1_tilde` is the first increment of the target given the auxiliary variables, up to a constant. -/
theorem alsGamma1_eq {ells : Fin (n + 2) → ℝ} (hells : ∀ t, 0 < ells t) (deltas : Fin (n + 2) → ℝ)
    (Gparams : Fin (n + 1) → G) (u : Fin (n + 2) → Vec d) (y : Vec d × Vec d) (x : Vec d) :
    alsGamma1Tilde Gamma0_grad Gammat Gammat_grad0 Gammat_grad1 y.2 x (alsParams1 deltas ells u Gparams).1
      (alsParams1 deltas ells u Gparams).2 =
    s2G (fun t y x => Gammat y x (Gparams t)) (alsA0 Gamma0_grad deltas) (alsA Gammat_grad1 Gparams deltas)
      (alsC Gammat_grad0 Gparams deltas) (auxStd ells) u 0 y x + isoC d (auxStd ells 1) := by
  have m1 : alsMean y.2 (deltas 0) (Gammat_grad0 y.2 x (Gparams 0) + Gamma0_grad y.2) =
      y.2 + s2Own (alsA0 Gamma0_grad deltas) (alsA Gammat_grad1 Gparams deltas) (Fin.castSucc 0) y +
        alsC Gammat_grad0 Gparams deltas 0 y.2 x := by
    funext j
    show y.2 j + 0.5 * deltas 0 * (Gammat_grad0 y.2 x (Gparams 0) j + Gamma0_grad y.2 j) =
      y.2 j + 0.5 * deltas 0 * Gamma0_grad y.2 j + 0.5 * deltas 0 * Gammat_grad0 y.2 x (Gparams 0) j
    ring
  have m2 : alsMean x (deltas 1) (Gammat_grad1 y.2 x (Gparams 0)) =
      x + alsA Gammat_grad1 Gparams deltas 0 y.2 x := rfl
  have m3 : alsMean y.2 (deltas 0) (Gamma0_grad y.2) =
      y.2 + s2Own (alsA0 Gamma0_grad deltas) (alsA Gammat_grad1 Gparams deltas) (Fin.castSucc 0) y := rfl
  simp only [alsGamma1Tilde, alsParams1, m1, m2, m3, alsCorrection_eq hells, s2G]
  have z0 : (Fin.castSucc 0 : Fin (n + 2)) = 0 := rfl
  have z1 : (Fin.succ 0 : Fin (n + 2)) = 1 := rfl
  rw [z0, z1]
  ring

/-- `Gamma_t_tilde` is an increment of the target given the auxiliary variables, up to a constant. -/
theorem alsGammat_eq {ells : Fin (n + 2) → ℝ} (hells : ∀ t, 0 < ells t) (deltas : Fin (n + 2) → ℝ)
    (Gparams : Fin (n + 1) → G) (u : Fin (n + 2) → Vec d) (t : Fin n) (y : Vec d × Vec d) (x : Vec d) :
    alsGammatTilde Gammat Gammat_grad0 Gammat_grad1 y.1 y.2 x (alsParams deltas ells u Gparams t.castSucc)
      (alsParams deltas ells u Gparams t.succ) =
    s2G (fun t y x => Gammat y x (Gparams t)) (alsA0 Gamma0_grad deltas) (alsA Gammat_grad1 Gparams deltas)
      (alsC Gammat_grad0 Gparams deltas) (auxStd ells) u t.succ y x + isoC d (auxStd ells t.succ.succ) := by
  have m1 : alsMean y.2 (deltas t.succ.castSucc) (Gammat_grad0 y.2 x (Gparams t.succ) +
      Gammat_grad1 y.1 y.2 (Gparams t.castSucc)) =
      y.2 + s2Own (alsA0 Gamma0_grad deltas) (alsA Gammat_grad1 Gparams deltas) t.succ.castSucc y +
        alsC Gammat_grad0 Gparams deltas t.succ y.2 x := by
    funext j
    show y.2 j + 0.5 * deltas t.succ.castSucc * (Gammat_grad0 y.2 x (Gparams t.succ) j +
        Gammat_grad1 y.1 y.2 (Gparams t.castSucc) j) =
      y.2 j + 0.5 * deltas t.succ.castSucc * Gammat_grad1 y.1 y.2 (Gparams t.castSucc) j +
        0.5 * deltas t.succ.castSucc * Gammat_grad0 y.2 x (Gparams t.succ) j
    ring
  have m2 : alsMean x (deltas t.succ.succ) (Gammat_grad1 y.2 x (Gparams t.succ)) =
      x + alsA Gammat_grad1 Gparams deltas t.succ y.2 x := rfl
  have m3 : alsMean y.2 (deltas t.succ.castSucc) (Gammat_grad1 y.1 y.2 (Gparams t.castSucc)) =
      y.2 + s2Own (alsA0 Gamma0_grad deltas) (alsA Gammat_grad1 Gparams deltas) t.succ.castSucc y := rfl
  have z : t.castSucc.succ = t.succ.castSucc := rfl
  simp only [alsGammatTilde, alsParams, tailA_apply, z, m1, m2, m3, alsCorrection_eq hells, s2G]
  ring

/-- `G_0_tilde` is the initial log-weight. -/
theorem alsG0_eq {ells : Fin (n + 1) → ℝ} (hells : ∀ t, 0 < ells t) (deltas : Fin (n + 1) → ℝ)
    (u : Fin (n + 1) → Vec d) (x : Vec d) :
    alsG0Tilde Gamma0 Gamma0_grad x (deltas 0) (ells 0) (u 0) =
      augG0 Gamma0 (alsA0 Gamma0_grad deltas) (auxStd ells) u x - isoLogpdf (auxStd ells 0) (u 0) x := by
  have m1 : alsMean x (deltas 0) (Gamma0_grad x) = x + alsA0 Gamma0_grad deltas x := rfl
  have m2 : -sumSq (fun j => x j - u 0 j) / ells 0 = alsCorrection x (u 0) (ells 0) := rfl
  simp only [alsG0Tilde, alsGamma0Tilde, m1, m2, alsCorrection_eq hells, augG0]
  ring

theorem alsG1_eq {ells : Fin (n + 2) → ℝ} (hells : ∀ t, 0 < ells t) (deltas : Fin (n + 2) → ℝ)
    (Gparams : Fin (n + 1) → G) (u : Fin (n + 2) → Vec d) (y : Vec d × Vec d) (x : Vec d) :
    alsG1Tilde Gamma0_grad Gammat Gammat_grad0 Gammat_grad1 y.2 x (alsParams1 deltas ells u Gparams).1
      (alsParams1 deltas ells u Gparams).2 =
    s2G (fun t y x => Gammat y x (Gparams t)) (alsA0 Gamma0_grad deltas) (alsA Gammat_grad1 Gparams deltas)
      (alsC Gammat_grad0 Gparams deltas) (auxStd ells) u 0 y x - isoLogpdf (auxStd ells 1) (u 1) x := by
  have m2 : -sumSq (fun j => x j - u 1 j) / ells 1 = alsCorrection x (u 1) (ells 1) := rfl
  simp only [alsG1Tilde]
  rw [alsGamma1_eq hells]
  simp only [alsParams1, m2, alsCorrection_eq hells]
  ring

theorem alsGt_eq {ells : Fin (n + 2) → ℝ} (hells : ∀ t, 0 < ells t) (deltas : Fin (n + 2) → ℝ)
    (Gparams : Fin (n + 1) → G) (u : Fin (n + 2) → Vec d) (t : Fin n) (y : Vec d × Vec d) (x : Vec d) :
    alsGtTilde Gammat Gammat_grad0 Gammat_grad1 y.1 y.2 x (alsParams deltas ells u Gparams t.castSucc)
      (alsParams deltas ells u Gparams t.succ) =
    s2G (fun t y x => Gammat y x (Gparams t)) (alsA0 Gamma0_grad deltas) (alsA Gammat_grad1 Gparams deltas)
      (alsC Gammat_grad0 Gparams deltas) (auxStd ells) u t.succ y x -
        isoLogpdf (auxStd ells t.succ.succ) (u t.succ.succ) x := by
  have m2 : -sumSq (fun j => x j - u t.succ.succ j) / ells t.succ.succ =
      alsCorrection x (u t.succ.succ) (ells t.succ.succ) := rfl
  simp only [alsGtTilde]
  rw [alsGammat_eq (Gamma0_grad := Gamma0_grad) hells]
  simp only [alsParams, tailA_apply, m2, alsCorrection_eq hells]
  ring

/-- What the forward pass of the code saves, given the history of the run. -/
noncomputable def alsSaved (S : Sys (Vec d × Vec d) N (n + 2)) (xs : Fin (n + 3) → PA (Vec d) N)
    (h : Hist (Vec d × Vec d) N (n + 2)) : AlsFwd N n d where
  xs := xs
  log_ws := insert0 (fun i => S.LW0 (fun i => (0, xs 0 i)) i - maxA (S.LW0 (fun i => (0, xs 0 i))))
    (fun t => insert0 (fun v => v) (fun _ v i => v i - maxA v) t
      (S.LW t (take (h.2 t.castSucc) (h.1 t)) (h.2 t.succ)))
  As := h.1
  xs_m_1 := insert0 (take (take (xs 0) (h.1 0)) (h.1 1)) (fun t i => (h.2 t.succ.succ i).1)

theorem alsSaved_sameWeights (S : Sys (Vec d × Vec d) N (n + 2)) (xs : Fin (n + 3) → PA (Vec d) N)
    (h : Hist (Vec d × Vec d) N (n + 2)) (hh : h.Pairs 0 xs) : SameWeights (alsSaved S xs h).log_ws (S.lws h) := by
  intro t
  refine Fin.cases ?_ (fun t => ?_) t
  · refine ⟨-maxA (S.LW0 (fun i => (0, xs 0 i))), fun i => ?_⟩
    rw [S.lws_zero]
    have : h.2 0 = fun i => (0, xs 0 i) := funext hh.zero
    rw [this]
    rfl
  · refine Fin.cases ?_ (fun t => ?_) t
    · refine ⟨0, fun i => ?_⟩
      rw [S.lws_succ, add_zero]
      rfl
    · refine ⟨-maxA (S.LW t.succ (take (h.2 t.succ.castSucc) (h.1 t.succ)) (h.2 t.succ.succ)), fun i => ?_⟩
      rw [S.lws_succ]
      rfl

/-- The forward pass of the code, over given particles `xs`. -/
theorem als_forward_eq (key : Key) (b : Fin (n + 3) → Fin (N + 1)) (Gparams : Fin (n + 2) → G)
    {ells : Fin (n + 3) → ℝ} (hells : ∀ t, 0 < ells t) (deltas : Fin (n + 3) → ℝ) (resampling : Resampling Ex N)
    (u : Fin (n + 3) → Vec d) (eps : Fin (n + 3) → Fin (N + 1) → Vec d) (x : Fin (n + 3) → Vec d)
    (S : Sys (Vec d × Vec d) N (n + 2))
    (hS : S = (alsSys Gamma0 (fun t y x => Gammat y x (Gparams t)) (alsA0 Gamma0_grad deltas)
      (alsA Gammat_grad1 Gparams deltas) (alsC Gammat_grad0 Gparams deltas) (auxStd ells)
      (auxR key resampling) u).at1 (alsNoise N (auxStd ells) u) eps) :
    (alsForward key b Gamma0 Gamma0_grad Gammat Gammat_grad0 Gammat_grad1 Gparams ells deltas resampling u
      (auxParticles u (auxStd ells) eps b x) : Ex _) =
      S.fwd b (lift2 0 x) >>= fun h => pure (alsSaved S (auxParticles u (auxStd ells) eps b x) h) := by
  set xs := auxParticles u (auxStd ells) eps b x with hxs
  have hQ0 : S.Q0 (b 0) (lift2 0 x 0) = pure (fun i => (0, xs 0 i)) := by subst hS; rfl
  have hQ : ∀ t Y, S.Q t Y (b t.succ) (lift2 0 x t.succ) = pure (fun i => ((Y i).2, xs t.succ i)) := by
    subst hS; intro t Y; rfl
  have hLW0 : (fun i => alsG0Tilde Gamma0 Gamma0_grad (xs 0 i) (deltas 0) (ells 0) (u 0)) =
      S.LW0 (fun i => (0, xs 0 i)) := by
    subst hS; funext i; exact alsG0_eq hells deltas u (xs 0 i)
  have hLW1 : ∀ Y : PA (Vec d × Vec d) N, (fun i => alsG1Tilde Gamma0_grad Gammat Gammat_grad0 Gammat_grad1 (Y i).2
      (xs 1 i) (alsParams1 deltas ells u Gparams).1 (alsParams1 deltas ells u Gparams).2) =
      S.LW 0 Y (fun i => ((Y i).2, xs 1 i)) := by
    subst hS; intro Y; funext i; exact alsG1_eq hells deltas Gparams u (Y i) (xs 1 i)
  have hLWt : ∀ (t : Fin (n + 1)) (Y : PA (Vec d × Vec d) N), (fun i => alsGtTilde Gammat Gammat_grad0 Gammat_grad1
      (Y i).1 (Y i).2 (xs t.succ.succ i) (alsParams deltas ells u Gparams t.castSucc)
      (alsParams deltas ells u Gparams t.succ)) = S.LW t.succ Y (fun i => ((Y i).2, xs t.succ.succ i)) := by
    subst hS; intro t Y; funext i; exact alsGt_eq hells deltas Gparams u t (Y i) (xs t.succ.succ i)
  have hR : ∀ t w i j, S.R t w i j = resampling (keysResampling key (n + 2) t) w i j true := by
    subst hS; intro t w i j; rfl
  clear_value xs
  clear hS
  -- the body of the system
  let mkO : Fin (n + 2) → PA (Vec d × Vec d) N → Anc N → PA (Vec d × Vec d) N →
      (Fin (N + 1) → ℝ) × Anc N × PA (Vec d) N := fun t y a Xs =>
    (insert0 (fun v => v) (fun _ v i => v i - maxA v) t (S.LW t (take y a) Xs), a, fun i => (Xs i).1)
  let body : (Fin (N + 1) → ℝ) × PA (Vec d × Vec d) N → Fin (n + 2) →
      Ex (((Fin (N + 1) → ℝ) × PA (Vec d × Vec d) N) × ((Fin (N + 1) → ℝ) × Anc N × PA (Vec d) N)) := fun c t => do
    let a ← S.R t c.1 (b t.castSucc) (b t.succ)
    let Xs ← S.Q t (take c.2 a) (b t.succ) (lift2 0 x t.succ)
    pure ((normalizeW (S.LW t (take c.2 a) Xs), Xs), mkO t c.2 a Xs)
  have h1 := scan_eq_fwd S b (lift2 0 x) body (fun t => t) mkO (fun t w y => rfl) (fun x0 r =>
    (pure { xs := xs
            log_ws := insert0 (fun i => S.LW0 x0 i - maxA (S.LW0 x0)) (fun t => (r.2 t).1)
            As := fun t => (r.2 t).2.1
            xs_m_1 := insert0 (take (take (xs 0) (r.2 0).2.1) (r.2 1).2.1)
              (fun t => (r.2 t.succ).2.2) } : Ex (AlsFwd N n d)))
  rw [hQ0, pure_bind, scanM_succ] at h1
  have h2 : ∀ f, (S.fwd b (lift2 0 x) >>= fun h => (pure (alsSaved S xs h) : Ex _)) f =
      (S.fwd b (lift2 0 x) >>= fun h => (pure
          { xs := xs
            log_ws := insert0 (fun i => S.LW0 (h.2 0) i - maxA (S.LW0 (h.2 0)))
              (fun t => (mkO t (h.2 t.castSucc) (h.1 t) (h.2 t.succ)).1)
            As := fun t => h.1 t
            xs_m_1 := insert0 (take (take (xs 0) (h.1 0)) (h.1 1))
              (fun t i => (h.2 t.succ.succ i).1) } : Ex (AlsFwd N n d))) f := by
    intro f
    show S.fwd b (lift2 0 x) _ = S.fwd b (lift2 0 x) _
    refine S.fwd_det2 b (lift2 0 x) 0 xs hQ0 hQ fun h hh => ?_
    have : h.2 0 = fun i => (0, xs 0 i) := funext hh.zero
    simp only [Ex.pure_def, this]
    rfl
  have h3 : (S.fwd b (lift2 0 x) >>= fun h => (pure (alsSaved S xs h) : Ex _)) = _ := funext h2
  rw [h3]
  refine Eq.trans ?_ h1
  -- the code
  have hb : ∀ (w : Fin (N + 1) → ℝ), body (w, fun i => (0, xs 0 i)) 0 = (do
      let a ← resampling (keysResampling key (n + 2) 0) w (b 0) (b 1) true
      (pure ((normalizeW (fun i => alsG1Tilde Gamma0_grad Gammat Gammat_grad0 Gammat_grad1 (take (xs 0) a i)
        (xs 1 i) (alsParams1 deltas ells u Gparams).1 (alsParams1 deltas ells u Gparams).2),
          fun i => (take (xs 0) a i, xs 1 i)),
        (fun i => alsG1Tilde Gamma0_grad Gammat Gammat_grad0 Gammat_grad1 (take (xs 0) a i)
        (xs 1 i) (alsParams1 deltas ells u Gparams).1 (alsParams1 deltas ells u Gparams).2, a, take (xs 0) a)) : Ex _)) := by
    intro w
    show (S.R 0 w (b 0) (b 1) >>= fun a => S.Q 0 (take (fun i => (0, xs 0 i)) a) (b (Fin.succ 0))
      (lift2 0 x (Fin.succ 0)) >>= fun Xs => _) = _
    rw [hR]
    congr 1
    funext a
    rw [hQ, pure_bind]
    have e := hLW1 (take (fun i => (0, xs 0 i)) a)
    show (pure ((normalizeW (S.LW 0 (take (fun i => (0, xs 0 i)) a) fun i =>
      ((take (fun i => ((0 : Vec d), xs 0 i)) a i).2, xs 1 i)), _), (S.LW 0 (take (fun i => (0, xs 0 i)) a) fun i =>
      ((take (fun i => ((0 : Vec d), xs 0 i)) a i).2, xs 1 i)), _, _) : Ex _) = _
    rw [← e]
    rfl
  have hscan : ∀ c : AlsCarry N d, scanM body (c.w, fun i => (c.x2 i, c.x1 i)) (tailA fun t : Fin (n + 2) => t) =
      scanM (alsBody Gammat Gammat_grad0 Gammat_grad1 resampling) c
        (alsInputs key (alsParams deltas ells u Gparams) xs b) >>= fun r =>
          pure ((r.1.w, fun i => (r.1.x2 i, r.1.x1 i)), r.2) := by
    intro c
    refine scanM_simulate (m := Ex) (alsBody Gammat Gammat_grad0 Gammat_grad1 resampling) body
      (fun c => (c.w, fun i => (c.x2 i, c.x1 i))) _ _ (fun t c => ?_) c
    show (S.R t.succ c.w (b t.succ.castSucc) (b t.succ.succ) >>= fun a =>
      S.Q t.succ (take (fun i => (c.x2 i, c.x1 i)) a) (b t.succ.succ)
      (lift2 0 x t.succ.succ) >>= fun Xs => _) = (resampling (keysResampling key (n + 2) t.succ) c.w (b t.succ.castSucc)
        (b t.succ.succ) true >>= fun a => (pure _ : Ex _)) >>= fun r => _
    rw [hR, bind_assoc]
    congr 1
    funext a
    rw [hQ, pure_bind, pure_bind]
    have e := hLWt t (take (fun i => (c.x2 i, c.x1 i)) a)
    have e2 := normalize_congr_const (N := N) (l := fun i => S.LW t.succ (take (fun i => (c.x2 i, c.x1 i)) a)
      (fun i => ((take (fun i => (c.x2 i, c.x1 i)) a i).2, xs t.succ.succ i)) i - maxA (S.LW t.succ
        (take (fun i => (c.x2 i, c.x1 i)) a)
      (fun i => ((take (fun i => (c.x2 i, c.x1 i)) a i).2, xs t.succ.succ i)))) ⟨_, fun i => sub_eq_add_neg _ _⟩
    show (pure ((normalizeW (S.LW t.succ (take (fun i => (c.x2 i, c.x1 i)) a)
      (fun i => ((take (fun i => (c.x2 i, c.x1 i)) a i).2, xs t.succ.succ i))), _),
      (fun i => S.LW t.succ (take (fun i => (c.x2 i, c.x1 i)) a)
      (fun i => ((take (fun i => (c.x2 i, c.x1 i)) a i).2, xs t.succ.succ i)) i - maxA (S.LW t.succ
        (take (fun i => (c.x2 i, c.x1 i)) a)
      (fun i => ((take (fun i => (c.x2 i, c.x1 i)) a i).2, xs t.succ.succ i)))), _, _) : Ex _) = _
    rw [← e2, ← e]
    rfl
  have e0 : normalizeW (S.LW0 (fun i => (0, xs 0 i))) = normalizeW (fun i => S.LW0 (fun i => (0, xs 0 i)) i -
      maxA (S.LW0 (fun i => (0, xs 0 i)))) :=
    (normalize_congr_const ⟨_, fun i => sub_eq_add_neg _ _⟩).symm
  rw [e0, hb]
  simp only [bind_assoc, pure_bind]
  unfold alsForward
  have hLW0' : ∀ i, alsG0Tilde Gamma0 Gamma0_grad (xs 0 i) (deltas 0) (ells 0) (u 0) =
      S.LW0 (fun i => (0, xs 0 i)) i := fun i => congrFun hLW0 i
  simp only [hLW0']
  refine congrArg (Bind.bind (m := Ex) (resampling (keysResampling key (n + 2) 0) (normalizeW fun i =>
    S.LW0 (fun i => (0, xs 0 i)) i - maxA (S.LW0 (fun i => (0, xs 0 i)))) (b 0) (b 1) true)) (funext fun a => ?_)
  have hs := hscan ⟨normalizeW (fun i => alsG1Tilde Gamma0_grad Gammat Gammat_grad0 Gammat_grad1 (take (xs 0) a i)
        (xs 1 i) (alsParams1 deltas ells u Gparams).1 (alsParams1 deltas ells u Gparams).2), xs 1, take (xs 0) a⟩
  simp only at hs
  rw [hs]
  simp only [bind_assoc, pure_bind]
  refine congrArg (Bind.bind (m := Ex) _) (funext fun r => ?_)
  have k1 : ∀ (p : ((Fin (N + 1) → ℝ) × Anc N × PA (Vec d) N)) (q : Fin (n + 1) → ((Fin (N + 1) → ℝ) × Anc N ×
      PA (Vec d) N)), (fun t => (insert0 p q t).1) = insert0 p.1 (fun t => (q t).1) := fun p q => by
    funext t; refine Fin.cases rfl (fun t => rfl) t
  have k2 : ∀ (p : ((Fin (N + 1) → ℝ) × Anc N × PA (Vec d) N)) (q : Fin (n + 1) → ((Fin (N + 1) → ℝ) × Anc N ×
      PA (Vec d) N)), (fun t => (insert0 p q t).2.1) = insert0 p.2.1 (fun t => (q t).2.1) := fun p q => by
    funext t; refine Fin.cases rfl (fun t => rfl) t
  rw [k1, k2]
  rfl

end Verif

namespace Verif
open Verif.Spec Verif.Model

variable {N n d : ℕ} {G : Type}
  {Gamma0 : Vec d → ℝ} {Gamma0_grad : Vec d → Vec d} {Gammat : Vec d → Vec d → G → ℝ}
  {Gammat_grad0 Gammat_grad1 : Vec d → Vec d → G → Vec d}

/-- The rest of `al_csmc_s.kernel` after the forward pass. -/
noncomputable def alsPass (key : Key) (bstar : Fin (n + 3) → Fin (N + 1))
    (Gamma0_grad : Vec d → Vec d) (Gammat : Vec d → Vec d → G → ℝ)
    (Gammat_grad0 Gammat_grad1 : Vec d → Vec d → G → Vec d) (Gparams : Fin (n + 2) → G)
    (ells deltas : Fin (n + 3) → ℝ) (aux_vars : Fin (n + 3) → Vec d) (ancestor_move : AncestorMove Ex N)
    (backward : Bool) (F : AlsFwd N n d) : Ex ((Fin (n + 3) → Vec d) × (Fin (n + 3) → Fin (N + 1))) :=
  if backward then
      als_backward_sampling_pass (splitKey key (n + 5) 2) (alsGammatTilde Gammat Gammat_grad0 Gammat_grad1)
        (alsParams deltas ells aux_vars Gparams) (alsGamma1Tilde Gamma0_grad Gammat Gammat_grad0 Gammat_grad1)
        (alsParams1 deltas ells aux_vars Gparams) (lastA bstar) F.xs F.xs_m_1 F.log_ws ancestor_move
    else
      backward_scanning_pass (splitKey key (n + 5) 2) F.As (lastA bstar) F.xs (lastA F.log_ws) ancestor_move

/-- `al_csmc_s.kernel` with the array of parents replaced after the forward pass. -/
noncomputable def als_kernelF (φ : AlsFwd N n d → AlsFwd N n d)
    (key : Key) (xstar : Fin (n + 3) → Vec d) (bstar : Fin (n + 3) → Fin (N + 1))
    (Gamma0 : Vec d → ℝ) (Gamma0_grad : Vec d → Vec d) (Gammat : Vec d → Vec d → G → ℝ)
    (Gammat_grad0 Gammat_grad1 : Vec d → Vec d → G → Vec d) (Gparams : Fin (n + 2) → G)
    (ells deltas : Fin (n + 3) → ℝ) (resampling : Resampling Ex N) (ancestor_move : AncestorMove Ex N)
    (backward : Bool) : Ex ((Fin (n + 3) → Vec d) × (Fin (n + 3) → Fin (N + 1))) := do
  let eps_aux ← normal2 (splitKey key (n + 5) 1) (n + 3) d
  let aux_vars : Fin (n + 3) → Vec d := fun t j =>
    xstar t j + 0.5 * deltas t * fullGrad Gamma0_grad Gammat_grad0 Gammat_grad1 Gparams xstar t j +
      auxStd ells t * eps_aux t j
  let eps_proposals ← normal3 (splitKey key (n + 5) 0) (n + 3) (N + 1) d
  let F ← alsForward key bstar Gamma0 Gamma0_grad Gammat Gammat_grad0 Gammat_grad1 Gparams ells deltas resampling
    aux_vars (auxParticles aux_vars (auxStd ells) eps_proposals bstar xstar)
  alsPass key bstar Gamma0_grad Gammat Gammat_grad0 Gammat_grad1 Gparams ells deltas aux_vars ancestor_move backward
    (φ F)

/-- The kernel of the code. -/
theorem als_kernel_eq_F (key : Key) (x : Fin (n + 3) → Vec d) (b : Fin (n + 3) → Fin (N + 1))
    (Gparams : Fin (n + 2) → G) (ells deltas : Fin (n + 3) → ℝ) (resampling : Resampling Ex N)
    (mv : AncestorMove Ex N) (backward : Bool) :
    ((als_kernel key x b Gamma0 Gamma0_grad Gammat Gammat_grad0 Gammat_grad1 Gparams ells deltas resampling mv
      backward : Ex _) >>= fun r => pure (r.xs, r.Bs)) =
    als_kernelF id key x b Gamma0 Gamma0_grad Gammat Gammat_grad0 Gammat_grad1 Gparams ells deltas resampling mv
      backward := by
  cases backward <;> rfl

/-- What the repair of the array of parents must satisfy for the backward sampling pass to be right. -/
def ParentsOK (Gammat : Vec d → Vec d → G → ℝ) (Gammat_grad0 Gammat_grad1 : Vec d → Vec d → G → Vec d)
    (Gparams : Fin (n + 2) → G) (ells deltas : Fin (n + 3) → ℝ) (φ : AlsFwd N n d → AlsFwd N n d) : Prop :=
  ∀ u (S : Sys (Vec d × Vec d) N (n + 2)) xs (h : Hist (Vec d × Vec d) N (n + 2)), h.Pairs 0 xs →
    ∀ (t : Fin (n + 1)) i x x',
      alsGammatTilde Gammat Gammat_grad0 Gammat_grad1 ((φ (alsSaved S xs h)).xs_m_1 t.castSucc i) x x'
        (alsParams deltas ells u Gparams t.castSucc) (alsParams deltas ells u Gparams t.succ) =
      alsGammatTilde Gammat Gammat_grad0 Gammat_grad1 (h.2 t.castSucc.succ i).1 x x'
        (alsParams deltas ells u Gparams t.castSucc) (alsParams deltas ells u Gparams t.succ)

theorem alsPass_eq (key : Key) (b : Fin (n + 3) → Fin (N + 1)) (Gparams : Fin (n + 2) → G)
    (ells deltas : Fin (n + 3) → ℝ) (u : Fin (n + 3) → Vec d) (mv : AncestorMove Ex N)
    (backward : Bool) (φ : AlsFwd N n d → AlsFwd N n d)
    (hφ : ∀ F, (φ F).xs = F.xs ∧ (φ F).As = F.As ∧ (φ F).log_ws = F.log_ws)
    (hp : backward = true → ParentsOK Gammat Gammat_grad0 Gammat_grad1 Gparams ells deltas φ)
    (S : Sys (Vec d × Vec d) N (n + 2)) (xs : Fin (n + 3) → PA (Vec d) N)
    (h : Hist (Vec d × Vec d) N (n + 2)) (hh : h.Pairs 0 xs) :
    alsPass key b Gamma0_grad Gammat Gammat_grad0 Gammat_grad1 Gparams ells deltas u mv backward
      (φ (alsSaved S xs h)) = (do
      let k ← moveIndex mv (auxMoveKey key (n + 2) backward) (S.wLast h) (lastA b)
      if backward then S.bs2 (alsΓ (alsGammatTilde Gammat Gammat_grad0 Gammat_grad1)
        (alsParams deltas ells u Gparams) (alsGamma1Tilde Gamma0_grad Gammat Gammat_grad0 Gammat_grad1)
        (alsParams1 deltas ells u Gparams)) (fun _ => 0) h k else pure (fun t => (h.tracex k t).2, h.trace k)) := by
  have hl := alsSaved_sameWeights S xs h hh
  have hw : normalizeW (lastA (alsSaved S xs h).log_ws) = S.wLast h := by
    rw [Sys.wLast, ← S.lws_last h]
    exact normalize_congr_const (hl (Fin.last (n + 2)))
  have hxs : xs = fun t i => (h.2 t i).2 := by
    funext t i
    rw [hh.snd]
  have e1 : (φ (alsSaved S xs h)).xs = fun t i => (h.2 t i).2 := by rw [(hφ _).1]; exact hxs
  have e2 : (φ (alsSaved S xs h)).As = h.1 := (hφ _).2.1
  unfold alsPass
  rw [e1, e2, (hφ _).2.2]
  cases backward with
  | true =>
    simp only [if_true]
    refine Eq.trans ?_ (als_bs_eq (splitKey key (n + 5) 2) (alsGammatTilde Gammat Gammat_grad0 Gammat_grad1)
        (alsParams deltas ells u Gparams) (alsGamma1Tilde Gamma0_grad Gammat Gammat_grad0 Gammat_grad1)
        (alsParams1 deltas ells u Gparams) (lastA b) _ mv S h hl)
    refine als_bs_congr _ _ _ _ _ _ _ _ _ _ _ fun t i x x' => ?_
    exact hp rfl u S xs h hh t i x x'
  | false =>
    simp only [Bool.false_eq_true, if_false]
    rw [als_bscan_eq, hw]
    rfl

/-- `al_csmc_s.kernel` is a mixture, over the auxiliary variables, of the kernels given them. -/
theorem als_kernel_eq (key : Key) (x : Fin (n + 3) → Vec d) (b : Fin (n + 3) → Fin (N + 1))
    (Gparams : Fin (n + 2) → G) {ells : Fin (n + 3) → ℝ} (deltas : Fin (n + 3) → ℝ)
    {resampling : Resampling Ex N} {mv : AncestorMove Ex N} (backward : Bool)
    (h0 : Measurable Gamma0) (h : ∀ g, Measurable fun p : Vec d × Vec d => Gammat p.1 p.2 g)
    (hg : Measurable Gamma0_grad) (hg0 : ∀ g, Measurable fun p : Vec d × Vec d => Gammat_grad0 p.1 p.2 g)
    (hg1 : ∀ g, Measurable fun p : Vec d × Vec d => Gammat_grad1 p.1 p.2 g)
    (hells : ∀ t, 0 < ells t) (hR : ∀ key, CondResampling (fun w i j => resampling key w i j true))
    (hm : ∀ key, MoveKer (moveIndex mv key)) (φ : AlsFwd N n d → AlsFwd N n d)
    (hφ : ∀ F, (φ F).xs = F.xs ∧ (φ F).As = F.As ∧ (φ F).log_ws = F.log_ws)
    (hp : backward = true → ParentsOK Gammat Gammat_grad0 Gammat_grad1 Gparams ells deltas φ)
    (f : (Fin (n + 3) → Vec d) × (Fin (n + 3) → Fin (N + 1)) → ℝ≥0∞) (hf : Measurable f) :
    als_kernelF φ key x b Gamma0 Gamma0_grad Gammat Gammat_grad0 Gammat_grad1 Gparams ells deltas resampling mv
      backward f =
    ∫⁻ e, (alsSys Gamma0 (fun t y x => Gammat y x (Gparams t)) (alsA0 Gamma0_grad deltas)
      (alsA Gammat_grad1 Gparams deltas) (alsC Gammat_grad0 Gparams deltas) (auxStd ells)
      (auxR key resampling) (fun t j => s2Center (alsA0 Gamma0_grad deltas)
      (alsA Gammat_grad1 Gparams deltas) (alsC Gammat_grad0 Gparams deltas) x t j + auxStd ells t * e t j)).kernel2 0
      (s2G (fun t y x => Gammat y x (Gparams t)) (alsA0 Gamma0_grad deltas)
      (alsA Gammat_grad1 Gparams deltas) (alsC Gammat_grad0 Gparams deltas) (auxStd ells)
      (fun t j => s2Center (alsA0 Gamma0_grad deltas)
      (alsA Gammat_grad1 Gparams deltas) (alsC Gammat_grad0 Gparams deltas) x t j + auxStd ells t * e t j))
      (moveIndex mv (auxMoveKey key (n + 2) backward)) backward x b f
      ∂(Measure.pi fun _ : Fin (n + 3) => gaussM d) := by
  refine lintegral_congr fun eps_aux => ?_
  have hu : (fun t j => x t j + 0.5 * deltas t * fullGrad Gamma0_grad Gammat_grad0 Gammat_grad1 Gparams x t j +
      auxStd ells t * eps_aux t j) = fun t j => s2Center (alsA0 Gamma0_grad deltas)
      (alsA Gammat_grad1 Gparams deltas) (alsC Gammat_grad0 Gparams deltas) x t j + auxStd ells t * eps_aux t j := by
    funext t j
    rw [alsAux_center]
  rw [← hu]
  set u : Fin (n + 3) → Vec d := fun t j => x t j + 0.5 * deltas t *
    fullGrad Gamma0_grad Gammat_grad0 Gammat_grad1 Gparams x t j + auxStd ells t * eps_aux t j with hudef
  have ha0 : Measurable (alsA0 Gamma0_grad deltas) := by unfold alsA0; fun_prop
  have ha : ∀ t, Measurable fun p : Vec d × Vec d => alsA Gammat_grad1 Gparams deltas t p.1 p.2 := fun t => by
    have := hg1 (Gparams t)
    unfold alsA
    fun_prop
  have hc : ∀ t, Measurable fun p : Vec d × Vec d => alsC Gammat_grad0 Gparams deltas t p.1 p.2 := fun t => by
    have := hg0 (Gparams t)
    unfold alsC
    fun_prop
  have hOK := alsSys_OK (N := N) (R := auxR key resampling) (s := auxStd ells) (Γ := fun t y x => Gammat y x (Gparams t)) h0
    (fun t => h (Gparams t)) ha0 ha hc
    (auxStd_pos hells) (fun t => hR _) u
  have hno := (alsSys_hasNoise u).kernel2_eq hOK 0 (Γ := s2G (fun t y x => Gammat y x (Gparams t))
    (alsA0 Gamma0_grad deltas) (alsA Gammat_grad1 Gparams deltas) (alsC Gammat_grad0 Gparams deltas) (auxStd ells) u)
    (fun t => measurable_s2G (fun t => h (Gparams t)) ha0 ha hc _ t measurable_const (by fun_prop) (by fun_prop))
    (hm (auxMoveKey key (n + 2) backward)) backward x b f hf
  refine Eq.trans ?_ hno.symm
  refine lintegral_congr fun eps_xs => ?_
  set S := (alsSys (N := N) Gamma0 (fun t y x => Gammat y x (Gparams t)) (alsA0 Gamma0_grad deltas)
      (alsA Gammat_grad1 Gparams deltas) (alsC Gammat_grad0 Gparams deltas) (auxStd ells)
      (auxR key resampling) u).at1 (alsNoise N (auxStd ells) u) eps_xs with hS
  set xs := auxParticles u (auxStd ells) eps_xs b x with hxs
  have hfw := als_forward_eq key b Gparams hells deltas resampling u eps_xs x S hS
  have hQ0 : S.Q0 (b 0) (lift2 0 x 0) = pure (fun i => (0, xs 0 i)) := rfl
  have hQ : ∀ t Y, S.Q t Y (b t.succ) (lift2 0 x t.succ) = pure (fun i => ((Y i).2, xs t.succ i)) := fun t Y => rfl
  have hΓ : ∀ t, ∃ c, ∀ y x, alsΓ (alsGammatTilde Gammat Gammat_grad0 Gammat_grad1)
        (alsParams deltas ells u Gparams) (alsGamma1Tilde Gamma0_grad Gammat Gammat_grad0 Gammat_grad1)
        (alsParams1 deltas ells u Gparams) t y x = s2G (fun t y x => Gammat y x (Gparams t))
    (alsA0 Gamma0_grad deltas) (alsA Gammat_grad1 Gparams deltas) (alsC Gammat_grad0 Gparams deltas) (auxStd ells) u
      t y x + c := by
    intro t
    refine Fin.cases ⟨_, fun y x => alsGamma1_eq hells deltas Gparams u y x⟩
      (fun t => ⟨_, fun y x => alsGammat_eq hells deltas Gparams u t y x⟩) t
  show ((alsForward key b Gamma0 Gamma0_grad Gammat Gammat_grad0 Gammat_grad1 Gparams ells deltas resampling
    u xs : Ex _) >>= fun F => alsPass key b Gamma0_grad Gammat Gammat_grad0 Gammat_grad1 Gparams ells deltas u mv
      backward (φ F)) f = _
  rw [hfw]
  show S.fwd b (lift2 0 x) (fun h => _) = S.fwd b (lift2 0 x) (fun h => _)
  refine S.fwd_det2 b (lift2 0 x) 0 xs hQ0 hQ fun h hh => ?_
  have hpass := alsPass_eq (Gamma0_grad := Gamma0_grad) (Gammat := Gammat) (Gammat_grad0 := Gammat_grad0)
    (Gammat_grad1 := Gammat_grad1) key b Gparams ells deltas u mv backward φ hφ hp S xs h hh
  refine (congrFun hpass f).trans ?_
  refine congrFun (congrArg (Bind.bind (m := Ex) _) (funext fun k => ?_)) f
  rw [S.bs2_congr_const hΓ ⟨0, fun _ => (add_zero _).symm⟩ h k]

end Verif
