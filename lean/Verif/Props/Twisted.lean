import Verif.Lemmas.Reversal
import Verif.Lemmas.Schemes

/-!
# Properties of `t_atp_csmc_f.py`: reversed dynamics, proposals, invariance
-/

open scoped ENNReal
open MeasureTheory

namespace Verif.Props
open Verif Verif.Spec Verif.Model Matrix

variable {N n d : ℕ} {RP : Type}

/-! ## C36: `_get_reversed_dynamics` -/

/-- C36, the part that holds: the reversed dynamics are right when, at every step, `Fᵀ m - Fᵀ b = F m + b`,
`Fᵀ P F = F P Fᵀ` and `F P = P Fᵀ`, `m` and `P` being the mean and covariance of `x_t`. Missing: all other models, for
which the claim is false (`C36_false`, `C36_false_shift`). -/
theorem C36_reversed_dynamics_partial {m0 : Vec d} {P0 : Mat d d} {Fs Qs : Fin n → Mat d d} {bs : Fin n → Vec d}
    (hP : P0.PosDef) (hQ : ∀ t, (Qs t).PosDef) (h : ∀ t : Fin n, RevOK (Fs t) (bs t) (margLaw m0 P0 Fs Qs bs t.castSucc)) :
    IsReversal m0 P0 Fs Qs bs (get_reversed_dynamics m0 P0 Fs Qs bs) := by
  rw [get_reversed_dynamics_eq hP hQ h]
  exact exactRev_reversal hP hQ

/-- C36: for trajectories of two states the conditions are also necessary. -/
theorem C36_one_step_iff {m0 : Vec d} {P0 : Mat d d} {Fs Qs : Fin 1 → Mat d d} {bs : Fin 1 → Vec d}
    (hP : P0.PosDef) (hQ : ∀ t, (Qs t).PosDef) :
    IsReversal m0 P0 Fs Qs bs (get_reversed_dynamics m0 P0 Fs Qs bs) ↔ RevOK (Fs 0) (bs 0) (m0, P0) := by
  refine ⟨reversal_one_step hP hQ, fun h => C36_reversed_dynamics_partial hP hQ fun t => ?_⟩
  have : t = 0 := Subsingleton.elim _ _
  subst this
  exact h

/-- C36 fails for a one-dimensional random walk with drift. -/
theorem C36_false_drift : ¬ IsReversal (d := 1) (n := 1) 0 1 (fun _ => 1) (fun _ => 1) (fun _ => 1)
    (get_reversed_dynamics 0 1 (fun _ => 1) (fun _ => 1) (fun _ => 1)) := fun h => by
  have := congrFun ((C36_one_step_iff PosDef.one fun _ => PosDef.one).1 h).mean 0
  simp at this
  norm_num at this

/-- C36 fails for some model. -/
theorem C36_false_shift : ∃ (m0 : Vec 1) (P0 : Mat 1 1) (Fs Qs : Fin 1 → Mat 1 1) (bs : Fin 1 → Vec 1),
    P0.PosDef ∧ (∀ t, (Qs t).PosDef) ∧ ¬ IsReversal m0 P0 Fs Qs bs (get_reversed_dynamics m0 P0 Fs Qs bs) := by
  exact ⟨0, 1, fun _ => 1, fun _ => 1, fun _ => 1, PosDef.one, fun _ => PosDef.one, C36_false_drift⟩

/-- C36 fails without drift, for dynamics that are not symmetric. -/
theorem C36_false : ∃ (P0 : Mat 2 2) (Fs Qs : Fin 1 → Mat 2 2),
    P0.PosDef ∧ (∀ t, (Qs t).PosDef) ∧ ¬ IsReversal 0 P0 Fs Qs (fun _ => 0) (get_reversed_dynamics 0 P0 Fs Qs fun _ => 0) := by
  refine ⟨1, fun _ => !![0, 1; 0, 0], fun _ => 1, PosDef.one, fun _ => PosDef.one, fun h => ?_⟩
  have := ((C36_one_step_iff PosDef.one fun _ => PosDef.one).1 h).cov
  have := congrFun (congrFun this 0) 0
  simp [Matrix.mul_apply, Fin.sum_univ_two] at this

/-- C36: every linear Gaussian model with positive definite covariances has reversed dynamics, and only one. -/
theorem C36_reversal_exists_unique {m0 : Vec d} {P0 : Mat d d} {Fs Qs : Fin n → Mat d d} {bs : Fin n → Vec d}
    (hP : P0.PosDef) (hQ : ∀ t, (Qs t).PosDef) : ∃! r, IsReversal m0 P0 Fs Qs bs r := by
  refine ⟨_, exactRev_reversal hP hQ, fun r h => ?_⟩
  have he := exactRev_reversal (m0 := m0) (Fs := Fs) (bs := bs) hP hQ
  exact revPathLog_ext h.final_posDef h.posDef he.final_posDef he.posDef
    (fun x => (h.density x).symm.trans (he.density x))

/-- Without drift and with a zero initial mean all means vanish. -/
theorem margLaw_mean_zero (P0 : Mat d d) (Fs Qs : Fin n → Mat d d) (t : Fin (n + 1)) :
    (margLaw 0 P0 Fs Qs (fun _ => 0) t).1 = 0 := by
  induction n generalizing P0 with
  | zero => rfl
  | succ n ih =>
    refine Fin.cases rfl (fun t => ?_) t
    rw [margLaw_succ, mulVec_zero, zero_add]
    exact ih _ _ _ t

/-- C36 for scalar dynamics (`F = φ I`) without drift and with a zero initial mean, the models of the experiments. -/
theorem C36_scalar_partial {P0 : Mat d d} {Qs : Fin n → Mat d d} (phi : Fin n → ℝ) (hP : P0.PosDef)
    (hQ : ∀ t, (Qs t).PosDef) :
    IsReversal 0 P0 (fun t => phi t • 1) Qs (fun _ => 0) (get_reversed_dynamics 0 P0 (fun t => phi t • 1) Qs fun _ => 0) := by
  refine C36_reversed_dynamics_partial hP hQ fun t => ⟨?_, ?_, ?_⟩
  · rw [margLaw_mean_zero]
    simp
  · simp
  · simp

theorem margLaw_diagonal {v0 : Vec d} {f q : Fin n → Vec d} (m0 : Vec d) (bs : Fin n → Vec d) (t : Fin (n + 1)) :
    ∃ v, (margLaw m0 (diagonal v0) (fun t => diagonal (f t)) (fun t => diagonal (q t)) bs t).2 = diagonal v := by
  induction n generalizing m0 v0 with
  | zero => exact ⟨v0, rfl⟩
  | succ n ih =>
    refine Fin.cases ⟨v0, rfl⟩ (fun t => ?_) t
    rw [margLaw_succ]
    simp only [diagonal_transpose, diagonal_mul_diagonal, diagonal_add]
    exact ih (f := tailA f) (q := tailA q) _ _ t

/-- C36 for diagonal models without drift and with a zero initial mean. -/
theorem C36_diagonal_partial {v0 : Vec d} {f q : Fin n → Vec d} (hv : ∀ i, 0 < v0 i) (hq : ∀ t i, 0 < q t i) :
    IsReversal 0 (diagonal v0) (fun t => diagonal (f t)) (fun t => diagonal (q t)) (fun _ => 0)
      (get_reversed_dynamics 0 (diagonal v0) (fun t => diagonal (f t)) (fun t => diagonal (q t)) fun _ => 0) := by
  refine C36_reversed_dynamics_partial (PosDef.diagonal hv) (fun t => PosDef.diagonal (hq t)) fun t => ?_
  obtain ⟨v, hv⟩ := margLaw_diagonal (v0 := v0) (f := f) (q := q) 0 (fun _ => 0) t.castSucc
  refine ⟨?_, ?_, ?_⟩
  · rw [margLaw_mean_zero]
    simp
  · rw [hv]
    simp only [diagonal_transpose]
  · rw [hv]
    simp only [diagonal_transpose, diagonal_mul_diagonal, diagonal_eq_diagonal_iff]
    intro i
    ring

example : IsReversal (n := 7) 0 (diagonal ![1, 2]) (fun t => diagonal ![1 / (t + 1), 3]) (fun _ => diagonal ![4, 5]) (fun _ => 0)
    (get_reversed_dynamics 0 (diagonal ![1, 2]) (fun t => diagonal ![1 / (t + 1), 3]) (fun _ => diagonal ![4, 5]) fun _ => 0) :=
  C36_diagonal_partial (by intro i; fin_cases i <;> norm_num) (by intro t i; fin_cases i <;> norm_num)

/-! ## C37: `make_proposal` is Gaussian conditioning -/

/-- C37: `make_proposal` returns the parameters of the law of `x_{t+1}` given `x_t`. -/
theorem C37_make_proposal {P Q : Mat d d} (hP : P.PosDef) (hQ : Q.PosDef) (F : Mat d d) (m b : Vec d) :
    ∃ E : Mat d d, E.PosDef ∧ (t_make_proposal m P F b Q).2.2 = cholesky E ∧
      (t_make_proposal m P F b Q).2.2 * (t_make_proposal m P F b Q).2.2ᵀ = E ∧
      ∀ x x' : Vec d, normalLogpdf m P x' + normalLogpdf (F *ᵥ x' + b) Q x =
        normalLogpdf (F *ᵥ m + b) (F * P * Fᵀ + Q) x +
        normalLogpdf ((t_make_proposal m P F b Q).1 *ᵥ x + (t_make_proposal m P F b Q).2.1) E x' := by
  have hE := kCov_posDef hP hQ F
  rw [t_make_proposal_eq hP hQ]
  refine ⟨kCov P F Q, hE, rfl, (cholesky_spec hE).2, fun x x' => ?_⟩
  simp only [kMean_affine]
  rw [update_bayes hP hQ, add_comm Q]

example (F : Mat 2 2) (m b : Vec 2) := C37_make_proposal PosDef.one (posDef_smul_one (r := 3) (by norm_num)) F m b

/-! ## C57: invariance -/

/-- C57: whatever reversed dynamics are used, the kernel leaves the process they describe, reweighted by the potentials,
invariant. -/
theorem C57_invariant_rev {M : LinModel RP n d} {r : RevDyn n d} {ells : Fin (n + 1) → ℝ} (hM : LinMeas M)
    (hT : r.PT.PosDef) (hQ : ∀ t, (r.Qs t).PosDef) (hells : ∀ t, 0 < ells t)
    (key : Key) (deltas : Fin (n + 1) → ℝ) {resampling : Resampling Ex N} {mv : AncestorMove Ex N}
    (hR : ∀ key, CondResampling (fun w i j => resampling key w i j true))
    (hmv : ∀ key, MoveInvariant (moveIndex mv key)) (backward : Bool) :
    LeavesInvariant volume (revPath r M) (fun x b => do
      let r ← t_atp_kernel_rev r M key x b ells deltas resampling mv backward
      pure (r.xs, r.Bs)) :=
  t_invariant hM hT hQ hells key deltas hR hmv backward

theorem linPath_rev {M : LinModel RP n d} {r : RevDyn n d} (hr : IsReversal M.mu0 M.P0 M.Fs M.Qs M.bs r)
    (x : Fin (n + 1) → Vec d) : linPath M x = revPath r M x := by
  rw [revPath, ← hr.density]
  simp only [linPath, gaussPathLog, pathLogDensity, Finset.sum_add_distrib]
  ring

/-- C57: `t_atp_csmc_f.kernel` leaves its target invariant when its reversed dynamics are right. Missing: the models
for which `_get_reversed_dynamics` is wrong (C36). -/
theorem C57_invariant_partial {M : LinModel RP n d} {ells : Fin (n + 1) → ℝ} (hM : LinMeas M)
    (hr : IsReversal M.mu0 M.P0 M.Fs M.Qs M.bs (get_reversed_dynamics M.mu0 M.P0 M.Fs M.Qs M.bs))
    (hells : ∀ t, 0 < ells t) (key : Key) (deltas : Fin (n + 1) → ℝ)
    {resampling : Resampling Ex N} {mv : AncestorMove Ex N}
    (hR : ∀ key, CondResampling (fun w i j => resampling key w i j true))
    (hmv : ∀ key, MoveInvariant (moveIndex mv key)) (backward : Bool) :
    LeavesInvariant volume (linPath M) (fun x b => do
      let r ← t_atp_kernel M key x b ells deltas resampling mv backward
      pure (r.xs, r.Bs)) := by
  rw [show linPath M = revPath _ M from funext (linPath_rev hr)]
  exact C57_invariant_rev hM hr.final_posDef hr.posDef hells key deltas hR hmv backward

/-- C57 for the models of the experiments (`F = φ I`, no drift, zero initial mean), with killing resampling and the
Barker move. -/
theorem C57_invariant_scalar_killing_barker {M : LinModel RP n d} {ells : Fin (n + 1) → ℝ} (hM : LinMeas M)
    (hP : M.P0.PosDef) (hQ : ∀ t, (M.Qs t).PosDef) (phi : Fin n → ℝ) (hF : ∀ t, M.Fs t = phi t • 1) (hb : ∀ t, M.bs t = 0)
    (hmu : M.mu0 = 0) (hells : ∀ t, 0 < ells t) (key : Key) (deltas : Fin (n + 1) → ℝ) (backward : Bool) :
    LeavesInvariant (N := N) volume (linPath M) (fun x b => do
      let r ← t_atp_kernel M key x b ells deltas (fun key w i j c => killing key w i j c)
        (fun key w k => barker_move key w k) backward
      pure (r.xs, r.Bs)) := by
  refine C57_invariant_partial hM ?_ hells key deltas (fun key => killing_condResampling key)
    (fun key => barker_moveInvariant key) backward
  rw [hmu, funext hF, show M.bs = fun _ => 0 from funext hb]
  exact C36_scalar_partial phi hP hQ

/-- C57 for the models of the experiments, with multinomial resampling and the Barker move. -/
theorem C57_invariant_scalar_multinomial_barker {M : LinModel RP n d} {ells : Fin (n + 1) → ℝ} (hM : LinMeas M)
    (hP : M.P0.PosDef) (hQ : ∀ t, (M.Qs t).PosDef) (phi : Fin n → ℝ) (hF : ∀ t, M.Fs t = phi t • 1) (hb : ∀ t, M.bs t = 0)
    (hmu : M.mu0 = 0) (hells : ∀ t, 0 < ells t) (key : Key) (deltas : Fin (n + 1) → ℝ) (backward : Bool) :
    LeavesInvariant (N := N) volume (linPath M) (fun x b => do
      let r ← t_atp_kernel M key x b ells deltas (fun key w i j c => multinomial key w i j c)
        (fun key w k => barker_move key w k) backward
      pure (r.xs, r.Bs)) := by
  refine C57_invariant_partial hM ?_ hells key deltas (fun key => multinomial_condResampling key)
    (fun key => barker_moveInvariant key) backward
  rw [hmu, funext hF, show M.bs = fun _ => 0 from funext hb]
  exact C36_scalar_partial phi hP hQ

/-- A stochastic-volatility-like model. -/
noncomputable def exLin (y : Fin 9 → ℝ) : LinModel ℝ 9 2 where
  mu0 := 0
  P0 := (2 : ℝ) • 1
  r0 x := -(x 0) ^ 2
  r0_grad x := ![-2 * x 0, 0]
  Fs _ := (0.9 : ℝ) • 1
  bs _ := 0
  Qs _ := (3 : ℝ) • 1
  rt _ x o := -(x 0 - o) ^ 2
  rt_grad _ x o := ![-2 * (x 0 - o), 0]
  rt_params := y

theorem exLin_meas (y : Fin 9 → ℝ) : LinMeas (exLin y) where
  r0 := by unfold exLin; fun_prop
  r0_grad := measurable_pi_lambda _ fun j => by (fin_cases j <;> simp [exLin]); fun_prop
  rt t := by unfold exLin; fun_prop
  rt_grad t := measurable_pi_lambda _ fun j => by (fin_cases j <;> simp [exLin]); fun_prop

example (y : Fin 9 → ℝ) : LeavesInvariant (N := 25) volume (linPath (exLin y)) (fun x b => do
      let r ← t_atp_kernel (exLin y) [] x b (fun _ => 2) (fun _ => 1) (fun key w i j c => killing key w i j c)
        (fun key w k => barker_move key w k) true
      pure (r.xs, r.Bs)) :=
  C57_invariant_scalar_killing_barker (exLin_meas y) (posDef_smul_one (by norm_num)) (fun _ => posDef_smul_one (by norm_num))
    (fun _ => 0.9) (fun _ => rfl) (fun _ => rfl) rfl (fun _ => by norm_num) [] _ true

end Verif.Props
