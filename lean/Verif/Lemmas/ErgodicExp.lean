import Verif.Lemmas.DoeblinCsmc
import Verif.Lemmas.MinorizeCsmc
import Verif.Lemmas.MinorizeSchemes
import Verif.Spec.ErgodicRuns

/-!
# The conditional SMC kernels of the experiments reach every trajectory
-/

open scoped ENNReal
open MeasureTheory ProbabilityTheory Finset

namespace Verif
open Verif.Spec Verif.Model Verif.Props Matrix

variable {N n d : ℕ}

theorem Spec.Spreads.zero {backward : Bool} (R : (Fin (N + 1) → ℝ) → Fin (N + 1) → Fin (N + 1) → Ex (Fin (N + 1) → Fin (N + 1))) :
    Spreads 0 backward R := fun w _ _ i j l _ => by simp

theorem sel_spreads {resampling : String} {R : Resampling Ex N} (hR : sel_resampling resampling = .ok R) (backward : Bool) (key : Key) :
    Spreads (spreadOf N resampling backward) backward (fun w i j => R key w i j true) := by
  unfold sel_resampling at hR
  split_ifs at hR with h1 h2 <;> cases hR
  · subst h1
    cases backward with
    | true => exact Spec.Spreads.zero _
    | false => exact killing_spreads key
  · subst h2
    exact multinomial_spreads key backward

theorem sel_movesAway {last_step : String} {mv : AncestorMove Ex N} (hm : sel_last_step last_step = .ok mv) (key : Key) :
    MovesAway (awayOf N last_step) (moveIndex mv key) := by
  unfold sel_last_step at hm
  split_ifs at hm with h1 h2 <;> cases hm
  · subst h1
    exact force_movesAway key
  · subst h2
    exact barker_movesAway key

/-! ## Bounds on the likelihoods -/

theorem lg_log_potential_le (x y : Vec d) : lg_log_potential x y ≤ lgMaxLog d := by
  unfold lg_log_potential sumNorm lgMaxLog
  have h : ∀ j, norm_logpdf (y j) (x j) 1 true ≤ -(Real.log (2 * Real.pi) / 2) := fun j => by
    have := sq_nonneg (y j - x j)
    simp only [norm_logpdf, if_true]
    norm_num
    linarith
  refine (sum_le_sum fun j _ => h j).trans (le_of_eq ?_)
  rw [sum_const, card_univ, Fintype.card_fin, nsmul_eq_mul]
  ring

theorem sv_log_potential_le (x : Vec d) {y : Vec d} (hy : ∀ j, y j ≠ 0) : sv_log_potential x y ≤ svMaxLog y := by
  unfold sv_log_potential svMaxLog
  refine sum_le_sum fun j _ => ?_
  have hy2 : 0 < y j ^ 2 := by have := hy j; positivity
  have hpi : (0 : ℝ) < 2 * Real.pi := by positivity
  have e : Real.exp (0.5 * x j) ^ 2 = Real.exp (x j) := by
    rw [← Real.exp_nat_mul]
    congr 1
    push_cast
    ring
  simp only [norm_logpdf, if_true, e, sub_zero]
  rw [Real.log_mul hpi.ne' (Real.exp_pos _).ne', Real.log_exp, Real.log_mul hpi.ne' hy2.ne']
  have h1 := Real.add_one_le_exp (Real.log (y j ^ 2) - x j)
  rw [Real.exp_sub, Real.exp_log hy2] at h1
  linarith

theorem lgFK_bounded (ys : Traj (n + 1) d) {sigma : ℝ} (hs : 0 < sigma) :
    BoundedFK (N := N) volume (lgFK ys sigma) (tailA ys) (tailA ys) fun _ => lgMaxLog d where
  init := ⟨normalLogpdf 0 (sigma ^ 2 • 1), 0, fun Xs i => by
      rw [add_zero]; exact sumNorm_eq hs _ _, fun key => by
    have h := samplesFrom_iso (k := N + 1) (d := d) hs (fun _ => 0) key
    simp only [zero_add] at h
    exact h, fun x => by
      show lg_log_potential x (ys 0) + sumNorm x 0 sigma - _ ≤ _
      rw [sumNorm_eq hs, add_sub_cancel_right]
      exact lg_log_potential_le _ _⟩
  step t := ⟨fun x => normalLogpdf x (sigma ^ 2 • 1), 0,
    fun Ys Xs i => by rw [add_zero]; exact sumNorm_eq hs _ _,
    fun key Ys => samplesFrom_iso hs Ys key, fun y x => by
      show lg_log_potential x (tailA ys t) + sumNorm x y sigma - _ ≤ _
      rw [sumNorm_eq hs, add_sub_cancel_right]
      exact lg_log_potential_le _ _⟩

/-- Normalising constants that `svFK` leaves out. -/
noncomputable def svConst (D : SvDyn d) : Fin (n + 1) → ℝ :=
  insert0 (d / 2 * Real.log (2 * Real.pi) + Real.log D.P0.det / 2) fun _ : Fin n => d / 2 * Real.log (2 * Real.pi) + Real.log D.Q.det / 2

theorem svFK_bounded {ys : Traj (n + 1) d} (hy : ∀ t j, ys t j ≠ 0) {D : SvDyn d} (hP : D.P0.PosDef) (hQ : D.Q.PosDef) :
    BoundedFK (N := N) volume (svFK ys D) (tailA ys) (tailA ys) fun t => svMaxLog (ys t) + svConst D t where
  init := ⟨normalLogpdf D.m0 D.P0, d / 2 * Real.log (2 * Real.pi) + Real.log D.P0.det / 2, fun Xs i => by
      rw [add_comm]; exact mvn_logpdf_invChol hP _ _, fun key => by
    have h := samplesFrom_normal (k := N + 1) (cholesky_det_pos hP).ne' (fun _ => D.m0) key
    rwa [(cholesky_spec hP).2] at h, fun x => by
      have h1 := mvn_logpdf_invChol hP x D.m0
      show sv_log_potential x (ys 0) + mvn_logpdf x D.m0 0 (some (invChol D.P0)) false - _ ≤ svMaxLog (ys 0) +
        (d / 2 * Real.log (2 * Real.pi) + Real.log D.P0.det / 2)
      rw [h1]
      linarith [sv_log_potential_le x (hy 0)]⟩
  step t := ⟨fun x => normalLogpdf (D.F *ᵥ x + D.b) D.Q, d / 2 * Real.log (2 * Real.pi) + Real.log D.Q.det / 2,
    fun Ys Xs i => by rw [add_comm]; exact mvn_logpdf_invChol hQ _ _,
    fun key Ys => by
      have h := samplesFrom_normal (k := N + 1) (cholesky_det_pos hQ).ne' (fun i => D.F *ᵥ Ys i + D.b) key
      rw [(cholesky_spec hQ).2] at h
      simp only [add_right_comm _ D.b] at h
      exact h, fun y x => by
      have h1 := mvn_logpdf_invChol hQ x (D.F *ᵥ y + D.b)
      show sv_log_potential x (ys t.succ) + mvn_logpdf x (D.F *ᵥ y + D.b) 0 (some (invChol D.Q)) false - _ ≤ svMaxLog (ys t.succ) +
        (d / 2 * Real.log (2 * Real.pi) + Real.log D.Q.det / 2)
      rw [h1]
      linarith [sv_log_potential_le x (hy t.succ)]⟩

theorem svFK_path {D : SvDyn d} (hP : D.P0.PosDef) (hQ : D.Q.PosDef) (ys x : Traj (n + 1) d) :
    pathLogDensity (svFK (m := Ex) (N := N) ys D).Gamma0 (fun t y x => (svFK (m := Ex) (N := N) ys D).Gammat y x (tailA ys t)) x =
      svTarget D.m0 D.P0 D.F D.Q D.b ys x + ∑ t : Fin (n + 1), svConst D t := by
  rw [Fin.sum_univ_succ]
  show pathLogDensity (svGamma_0 ys D) (fun t y x => svGamma_t D y x (tailA ys t)) x =
      svTarget D.m0 D.P0 D.F D.Q D.b ys x + ((d / 2 * Real.log (2 * Real.pi) + Real.log D.P0.det / 2) +
        ∑ _t : Fin n, (d / 2 * Real.log (2 * Real.pi) + Real.log D.Q.det / 2))
  rw [svTarget, ← sv_log_likelihood_eq, sv_log_likelihood, gaussPathLog,
    ← pathLogDensity_add_obs _ _ (fun t x => sv_log_potential x (ys t)),
    ← pathLogDensity_add_const _ _ (d / 2 * Real.log (2 * Real.pi) + Real.log D.P0.det / 2)
      (fun _ => d / 2 * Real.log (2 * Real.pi) + Real.log D.Q.det / 2)]
  unfold svGamma_0 svGamma_t
  simp only [mvn_logpdf_invChol hP, mvn_logpdf_invChol hQ, add_comm (sv_log_potential _ _), add_assoc]
  rfl

theorem svFK_scale (D : SvDyn d) (ys : Traj (n + 1) d) (I : ℝ≥0∞) :
    (∏ t : Fin (n + 1), ENNReal.ofReal (Real.exp (-(svMaxLog (ys t) + svConst D t)) / (N + 1))) *
      (ENNReal.ofReal (Real.exp (∑ t : Fin (n + 1), svConst D t)) * I) =
    (∏ t, ENNReal.ofReal (Real.exp (-svMaxLog (ys t)) / (N + 1))) * I := by
  rw [← mul_assoc]
  congr 1
  have hN : (0 : ℝ) < N + 1 := by positivity
  rw [Real.exp_sum, ENNReal.ofReal_prod_of_nonneg fun t _ => (Real.exp_pos _).le, ← prod_mul_distrib]
  refine prod_congr rfl fun t _ => ?_
  rw [← ENNReal.ofReal_mul (by positivity)]
  congr 1
  rw [neg_add, Real.exp_add, Real.exp_neg (svConst D t)]
  field_simp

end Verif
