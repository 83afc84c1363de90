import Verif.Lemmas.Gradients
import Verif.Props.Langevin
import Verif.Model.SvRuns
import Verif.Model.ExpRuns

/-!
# C91: the gradients of the experiments, and the proposals they give

The kernels of the experiments hand `jax.grad` of their increments to the package.  Here are these gradients in closed form,
and, with C90, the law of the proposals of the Langevin kernels.
-/

open scoped ENNReal
open MeasureTheory Matrix

namespace Verif.Props
open Verif Verif.Model Verif.Spec

variable {N n d : ℕ}

/-! ## Linear Gaussian model -/

section lgssm
variable (ys : Traj (n + 1) d) (sigma : ℝ)

/-- **C91** (linear Gaussian model): gradients of the increments of `MALA_CSMC`. -/
theorem C91_lg_gradients (x' x y : Vec d) :
    jaxGrad (lgGamma_0 ys sigma) x = (ys 0 - x) - (1 / sigma ^ 2) • x ∧
    jaxGrad (fun x => lgGamma_t sigma x' x y) x = (y - x) - (1 / sigma ^ 2) • (x - x') ∧
    jaxGrad (fun x' => lgGamma_t sigma x' x y) x' = (1 / sigma ^ 2) • (x - x') := by
  refine ⟨?_, ?_, ?_⟩
  · refine (jaxGrad_add (grad_lg_potential x (ys 0)).2 (grad_sumNorm x 0).2).trans ?_
    rw [(grad_lg_potential x (ys 0)).1, (grad_sumNorm x 0).1, sub_zero, ← sub_eq_add_neg]
  · refine (jaxGrad_add (grad_lg_potential x y).2 (grad_sumNorm x x').2).trans ?_
    rw [(grad_lg_potential x y).1, (grad_sumNorm x x').1, ← sub_eq_add_neg]
  · refine (jaxGrad_add (f := fun _ => lg_log_potential x y) (differentiableAt_const _) (grad_sumNorm_loc x x').2).trans ?_
    rw [jaxGrad_const, (grad_sumNorm_loc x x').1, zero_add]

/-- C91 (linear Gaussian model): gradients of the potentials of `TP_CSMC`, all styles; zero with `stop_gradient`. -/
theorem C91_lg_potential_gradients (x' x y : Vec d) :
    (lgGauss ys sigma false).r0_grad x = ys 0 - x ∧ (lgGauss ys sigma false).rt_grad x' x y = y - x ∧
    (lgLin ys sigma false).r0_grad x = ys 0 - x ∧ (lgLin ys sigma false).rt_grad x' x y = y - x ∧
    (lgGauss ys sigma true).r0_grad x = 0 ∧ (lgGauss ys sigma true).rt_grad x' x y = 0 ∧
    (lgLin ys sigma true).r0_grad x = 0 ∧ (lgLin ys sigma true).rt_grad x' x y = 0 :=
  ⟨(grad_lg_potential x (ys 0)).1, (grad_lg_potential x y).1, (grad_lg_potential x (ys 0)).1, (grad_lg_potential x y).1,
    rfl, rfl, rfl, rfl⟩

/-- C91 (linear Gaussian model): gradient of the log-likelihood of a trajectory, used by `TP`. -/
theorem C91_lg_likelihood_gradient (xs : Traj (n + 1) d) (t : Fin (n + 1)) :
    jaxGrad2 (fun xs => lg_log_likelihood xs ys) xs t = ys t - xs t := by
  have h := fun i => jaxGrad2_at (x := xs) (a := i) (grad_lg_potential (xs i) (ys i)).2
  refine (congrFun (jaxGrad2_sum (f := fun i xs => lg_log_potential (xs i) (ys i)) fun i => (h i).2) t).trans ?_
  simp only [(h _).1, (grad_lg_potential _ _).1, Finset.sum_apply]
  rw [Finset.sum_eq_single t (fun i _ hi => Pi.single_eq_of_ne hi.symm _) (by simp), Pi.single_eq_same]

/-- C91 (linear Gaussian model): gradient of the log-density of a trajectory, used by `MALA`. -/
theorem C91_lg_pdf_gradient (xs : Traj (n + 1) d) (t : Fin (n + 1)) :
    jaxGrad2 (fun xs => lg_log_pdf xs ys sigma) xs t = (ys t - xs t) -
      (1 / sigma ^ 2) • (xs t - Fin.cases 0 (fun k => xs k.castSucc) t) +
      Fin.lastCases 0 (fun k => (1 / sigma ^ 2) • (xs k.succ - xs k.castSucc)) t := by
  have e : (fun xs : Traj (n + 1) d => lg_log_pdf xs ys sigma) = fun xs => (sumNorm (xs 0) 0 sigma +
      ∑ k : Fin n, sumNorm (xs k.succ) (xs k.castSucc) sigma) + ∑ t, sumNorm (xs t) (ys t) 1 := rfl
  have h0 := jaxGrad2_at (x := xs) (a := (0 : Fin (n + 1))) (grad_sumNorm (sigma := sigma) (xs 0) 0).2
  have hk := fun k : Fin n => jaxGrad2_pair (φ := fun x l => sumNorm x l sigma) (x := xs) (a := k.succ) (b := k.castSucc) (Fin.castSucc_lt_succ).ne'
    (differentiable_sumNorm sigma (xs k.succ, xs k.castSucc))
  have hy := fun i => jaxGrad2_at (x := xs) (a := i) (grad_sumNorm (sigma := 1) (xs i) (ys i)).2
  have hs1 : DifferentiableAt ℝ (fun xs : Traj (n + 1) d => ∑ k : Fin n, sumNorm (xs k.succ) (xs k.castSucc) sigma) xs :=
    DifferentiableAt.fun_sum fun k _ => (hk k).2
  have hs2 : DifferentiableAt ℝ (fun xs : Traj (n + 1) d => ∑ t, sumNorm (xs t) (ys t) 1) xs :=
    DifferentiableAt.fun_sum fun k _ => (hy k).2
  have step : jaxGrad2 (fun xs => lg_log_pdf xs ys sigma) xs =
      (jaxGrad2 (fun xs => sumNorm (xs 0) 0 sigma) xs + jaxGrad2 (fun xs => ∑ k : Fin n, sumNorm (xs k.succ) (xs k.castSucc) sigma) xs) +
        jaxGrad2 (fun xs => ∑ t, sumNorm (xs t) (ys t) 1) xs := by
    rw [e, jaxGrad2_add (h0.2.fun_add hs1) hs2, jaxGrad2_add h0.2 hs1]
  rw [step, jaxGrad2_sum fun k => (hk k).2, jaxGrad2_sum fun k => (hy k).2, h0.1]
  simp only [(hk _).1, (hy _).1, (grad_sumNorm _ _).1, (grad_sumNorm_loc _ _).1]
  have hy' : (∑ i, Pi.single i (-((1 / (1 : ℝ) ^ 2) • (xs i - ys i)) : Vec d) : Traj (n + 1) d) t = ys t - xs t := by
    rw [Finset.sum_apply, Finset.sum_eq_single t (fun i _ hi => Pi.single_eq_of_ne hi.symm _) (by simp), Pi.single_eq_same]
    simp
  have hown : ∀ t, ((Pi.single (0 : Fin (n + 1)) (-((1 / sigma ^ 2) • (xs 0 - 0)) : Vec d) : Traj (n + 1) d) +
      (∑ k : Fin n, Pi.single k.succ (-((1 / sigma ^ 2) • (xs k.succ - xs k.castSucc)) : Vec d) : Traj (n + 1) d)) t =
        -((1 / sigma ^ 2) • (xs t - Fin.cases 0 (fun k => xs k.castSucc) t)) := fun t => by
    induction t using Fin.cases with
    | zero =>
      rw [Pi.add_apply, Pi.single_eq_same, Finset.sum_apply, Finset.sum_eq_zero fun k _ => Pi.single_eq_of_ne (Fin.succ_ne_zero k).symm _]
      simp
    | succ k =>
      rw [Pi.add_apply, Pi.single_eq_of_ne (Fin.succ_ne_zero k), zero_add, Finset.sum_apply,
        Finset.sum_eq_single k (fun i _ hi => Pi.single_eq_of_ne (fun c => hi (Fin.succ_injective _ c.symm)) _) (by simp),
        Pi.single_eq_same]
      rfl
  have hnext : ∀ t, (∑ k : Fin n, Pi.single k.castSucc ((1 / sigma ^ 2) • (xs k.succ - xs k.castSucc) : Vec d) : Traj (n + 1) d) t =
      Fin.lastCases 0 (fun k => (1 / sigma ^ 2) • (xs k.succ - xs k.castSucc)) t := fun t => by
    induction t using Fin.lastCases with
    | last =>
      rw [Fin.lastCases_last, Finset.sum_apply, Finset.sum_eq_zero fun k _ => Pi.single_eq_of_ne (Fin.castSucc_lt_last k).ne' _]
    | cast k =>
      rw [Fin.lastCases_castSucc, Finset.sum_apply,
        Finset.sum_eq_single k (fun i _ hi => Pi.single_eq_of_ne (fun c => hi (Fin.castSucc_injective _ c.symm)) _) (by simp),
        Pi.single_eq_same]
  rw [Finset.sum_add_distrib, Pi.add_apply, hy', ← add_assoc, Pi.add_apply, hown, hnext]
  abel

/-- C91 (linear Gaussian model, `MALA_CSMC`, styles `filtering` and `marginal`): law of the proposals.  The drift at `t` is
`(y_t - x_t) - (x_t - x_{t-1}) / σ²`. -/
theorem C91_lg_mala_proposals (i : Fin (N + 1)) (key : Key) (x : Fin (n + 1) → Vec d) (b : Fin (n + 1) → Fin (N + 1))
    (delta : Fin (n + 1) → ℝ) (hd : ∀ t, 0 ≤ delta t) {f : (Fin (n + 1) → Vec d) → ℝ≥0∞} (hf : Measurable f) :
    (lg_mala_csmc_filtering ys sigma (follow i) (pick i) false key x b delta : Ex _) (fun r => f r.xs) =
      ∫⁻ z, f z ∂slotLaw i x b (fun t => (ys t - x t) - (1 / sigma ^ 2) • (x t - Fin.cases 0 (fun k => x k.castSucc) t)) delta delta ∧
    (lg_mala_csmc_marginal ys sigma (follow i) (pick i) false key x b delta : Ex _) (fun r => f r.xs) =
      ∫⁻ z, f z ∂slotLaw i x b (fun t => (ys t - x t) - (1 / sigma ^ 2) • (x t - Fin.cases 0 (fun k => x k.castSucc) t)) delta delta := by
  have h0 : (ys 0 - x 0) - (1 / sigma ^ 2) • (x 0 - 0) = jaxGrad (lgGamma_0 ys sigma) (x 0) := by
    rw [(C91_lg_gradients ys sigma 0 (x 0) 0).1, sub_zero]
  have ht : ∀ t : Fin n, (ys t.succ - x t.succ) - (1 / sigma ^ 2) • (x t.succ - x t.castSucc) =
      jaxGrad (fun z => lgGamma_t sigma (x t.castSucc) z (tailA ys t)) (x t.succ) := fun t =>
    ((C91_lg_gradients ys sigma (x t.castSucc) (x t.succ) (tailA ys t)).2.1).symm
  exact ⟨C90_al_proposals key i x _ b _ _ _ _ _ _ _ hd h0 ht hf, C90_l_proposals key i x _ b _ _ _ _ _ _ _ hd h0 ht hf⟩

/-- C91 (linear Gaussian model, `RW_CSMC`): law of the proposals. -/
theorem C91_lg_rw_proposals (i : Fin (N + 1)) (key : Key) (x : Fin (n + 1) → Vec d) (b : Fin (n + 1) → Fin (N + 1))
    (delta : Fin (n + 1) → ℝ) (hd : ∀ t, 0 ≤ delta t) {f : (Fin (n + 1) → Vec d) → ℝ≥0∞} (hf : Measurable f) :
    (lg_rw_csmc (fun _ => true) ys sigma (follow i) (pick i) false key x b delta : Ex _) (fun r => f r.xs) =
      ∫⁻ z, f z ∂slotLaw i x b 0 0 delta :=
  C90_rw_proposals key i x b _ _ _ _ hd hf

omit ys in
/-- C91 (linear Gaussian model, `MALA_CSMC`, style `smoothing`): the drift of the proposals is the gradient of the joint
log-density of the trajectory and the observations (closed form in `C91_lg_pdf_gradient`). -/
theorem C91_lg_smoothing_proposals (i : Fin (N + 1)) :
    ∃ K : Traj (n + 3) d → Key → (Fin (n + 3) → Vec d) → (Fin (n + 3) → Fin (N + 1)) → (Fin (n + 3) → ℝ) →
        Ex ((Fin (n + 3) → Vec d) × (Fin (n + 3) → Fin (N + 1))),
      lg_mala_csmc_smoothing sigma (follow i) (pick i) false (n := n + 2) = .ok (fun ys => csmcPair (K ys)) ∧
      ∀ ys key x b delta, (∀ t, 0 ≤ delta t) → ∀ f : (Fin (n + 3) → Vec d) → ℝ≥0∞, Measurable f →
        K ys key x b delta (fun r => f r.1) =
          ∫⁻ z, f z ∂slotLaw i x b (jaxGrad2 (fun xs => lg_log_pdf xs ys sigma) x) delta delta := by
  refine ⟨_, rfl, fun ys key x b delta hd f hf => ?_⟩
  refine C90_als_proposals key i x (jaxGrad2 (fun xs => lg_log_pdf xs ys sigma) x) b _ _ _ _ _ _ _ _ hd ?_ (fun t => ?_) ?_ hf
  · rw [(C91_lg_gradients ys sigma 0 (x 0) 0).1, (C91_lg_gradients ys sigma (x 0) (x 1) (tailA ys 0)).2.2, C91_lg_pdf_gradient,
      ← Fin.castSucc_zero, Fin.lastCases_castSucc, Fin.castSucc_zero]
    simp only [Fin.cases_zero, sub_zero]
    rfl
  · rw [(C91_lg_gradients ys sigma _ _ _).2.1, (C91_lg_gradients ys sigma _ _ _).2.2, C91_lg_pdf_gradient, Fin.lastCases_castSucc,
      ← Fin.succ_castSucc]
    rfl
  · rw [(C91_lg_gradients ys sigma _ _ _).2.1, C91_lg_pdf_gradient, Fin.lastCases_last, add_zero]
    rfl

omit ys in
/-- C91 (linear Gaussian model, `TP_CSMC`, style `smoothing`): the potentials do not depend on the previous state, and the
kernel is told so. -/
theorem C91_lg_tp_smoothing {m : Type → Type} [RandM m] (svd : Mat d d → SvdOut d) (stop_gradient : Bool) (resampling : Resampling m N)
    (mv : AncestorMove m N) (backward : Bool) :
    lg_tp_csmc_smoothing svd sigma stop_gradient resampling mv backward (n := n + 2) = .ok fun ys => csmcPair fun key x b delta =>
      atps_kernel svd (lgGauss ys sigma stop_gradient) (fun _ _ _ => 0) key x b delta delta resampling mv backward := by
  have e : (fun x' x y : Vec d => jaxGrad (fun _ => lg_log_potential x y) x') = fun _ _ _ => 0 := by
    funext x' x y
    exact jaxGrad_const _ _
  simp only [lg_tp_csmc_smoothing, e]

end lgssm

/-! ## Stochastic volatility -/

section sv
variable (ys : Traj (n + 1) d) {D : SvDyn d}

/-- The gradient of the log-likelihood of one observation: `(y² exp(-x) - 1) / 2`. -/
noncomputable def svScore (y x : Vec d) : Vec d := fun j => (y j ^ 2 * Real.exp (-x j) - 1) / 2

/-- **C91** (stochastic volatility): gradients of the increments of `MALA_CSMC`. -/
theorem C91_sv_gradients (hP : D.P0.PosDef) (hQ : D.Q.PosDef) (x' x y : Vec d) :
    jaxGrad (svGamma_0 ys D) x = svScore (ys 0) x - D.P0⁻¹ *ᵥ (x - D.m0) ∧
    jaxGrad (fun x => svGamma_t D x' x y) x = svScore y x - D.Q⁻¹ *ᵥ (x - (D.F *ᵥ x' + D.b)) ∧
    jaxGrad (fun x' => svGamma_t D x' x y) x' = D.Fᵀ *ᵥ (D.Q⁻¹ *ᵥ (x - (D.F *ᵥ x' + D.b))) := by
  refine ⟨?_, ?_, ?_⟩
  · refine (jaxGrad_add (grad_sv_potential x (ys 0)).2 (grad_mvn hP D.m0 x).2).trans ?_
    rw [(grad_sv_potential x (ys 0)).1, (grad_mvn hP D.m0 x).1, ← sub_eq_add_neg]
    rfl
  · refine (jaxGrad_add (grad_sv_potential x y).2 (grad_mvn hQ (D.F *ᵥ x' + D.b) x).2).trans ?_
    rw [(grad_sv_potential x y).1, (grad_mvn hQ (D.F *ᵥ x' + D.b) x).1, ← sub_eq_add_neg]
    rfl
  · refine (jaxGrad_add (f := fun _ => sv_log_potential x y) (differentiableAt_const _) (grad_mvn_mean hQ D.F D.b x x').2).trans ?_
    rw [jaxGrad_const, (grad_mvn_mean hQ D.F D.b x x').1, zero_add]

/-- C91 (stochastic volatility): gradients of the potentials of `TP_CSMC`, all styles; zero with `stop_gradient`. -/
theorem C91_sv_potential_gradients (x' x y : Vec d) :
    (svGauss ys D false).r0_grad x = svScore (ys 0) x ∧ (svGauss ys D false).rt_grad x' x y = svScore y x ∧
    (svLin ys D false).r0_grad x = svScore (ys 0) x ∧ (svLin ys D false).rt_grad x' x y = svScore y x ∧
    (svGauss ys D true).r0_grad x = 0 ∧ (svGauss ys D true).rt_grad x' x y = 0 ∧
    (svLin ys D true).r0_grad x = 0 ∧ (svLin ys D true).rt_grad x' x y = 0 :=
  ⟨(grad_sv_potential x (ys 0)).1, (grad_sv_potential x y).1, (grad_sv_potential x (ys 0)).1, (grad_sv_potential x y).1,
    rfl, rfl, rfl, rfl⟩

/-- C91 (stochastic volatility): gradient of the log-likelihood of a trajectory, used by `TP`. -/
theorem C91_sv_likelihood_gradient (xs : Traj (n + 1) d) (t : Fin (n + 1)) :
    jaxGrad2 (fun xs => sv_log_likelihood xs ys) xs t = svScore (ys t) (xs t) := by
  have h := fun i => jaxGrad2_at (x := xs) (a := i) (grad_sv_potential (xs i) (ys i)).2
  refine (congrFun (jaxGrad2_sum (f := fun i xs => sv_log_potential (xs i) (ys i)) fun i => (h i).2) t).trans ?_
  simp only [(h _).1, (grad_sv_potential _ _).1, Finset.sum_apply]
  rw [Finset.sum_eq_single t (fun i _ hi => Pi.single_eq_of_ne hi.symm _) (by simp), Pi.single_eq_same]
  rfl

/-- The drift towards the dynamics at one time: `-P0⁻¹ (x_0 - m0)` at the first, `-Q⁻¹ (x_t - F x_{t-1} - b)` at the others. -/
noncomputable def svPull (D : SvDyn d) (x : Fin (n + 1) → Vec d) (t : Fin (n + 1)) : Vec d :=
  Fin.cases (-(D.P0⁻¹ *ᵥ (x 0 - D.m0))) (fun k => -(D.Q⁻¹ *ᵥ (x k.succ - (D.F *ᵥ x k.castSucc + D.b)))) t

/-- The drift from the next state: `Fᵀ Q⁻¹ (x_{t+1} - F x_t - b)`, and zero at the last time. -/
noncomputable def svNext (D : SvDyn d) (x : Fin (n + 1) → Vec d) (t : Fin (n + 1)) : Vec d :=
  Fin.lastCases 0 (fun k => D.Fᵀ *ᵥ (D.Q⁻¹ *ᵥ (x k.succ - (D.F *ᵥ x k.castSucc + D.b)))) t

/-- C91 (stochastic volatility, `MALA_CSMC`, styles `filtering` and `marginal`): law of the proposals. -/
theorem C91_sv_mala_proposals (hP : D.P0.PosDef) (hQ : D.Q.PosDef) (i : Fin (N + 1)) (key : Key) (x : Fin (n + 1) → Vec d)
    (b : Fin (n + 1) → Fin (N + 1)) (delta : Fin (n + 1) → ℝ) (hd : ∀ t, 0 ≤ delta t) {f : (Fin (n + 1) → Vec d) → ℝ≥0∞}
    (hf : Measurable f) :
    (sv_mala_csmc_filtering ys D (follow i) (pick i) false key x b delta : Ex _) (fun r => f r.xs) =
      ∫⁻ z, f z ∂slotLaw i x b (fun t => svScore (ys t) (x t) + svPull D x t) delta delta ∧
    (sv_mala_csmc_marginal ys D (follow i) (pick i) false key x b delta : Ex _) (fun r => f r.xs) =
      ∫⁻ z, f z ∂slotLaw i x b (fun t => svScore (ys t) (x t) + svPull D x t) delta delta := by
  have h0 : svScore (ys 0) (x 0) + svPull D x 0 = jaxGrad (svGamma_0 ys D) (x 0) := by
    rw [(C91_sv_gradients ys hP hQ 0 (x 0) 0).1, sub_eq_add_neg]; rfl
  have ht : ∀ t : Fin n, svScore (ys t.succ) (x t.succ) + svPull D x t.succ =
      jaxGrad (fun z => svGamma_t D (x t.castSucc) z (tailA ys t)) (x t.succ) := fun t => by
    rw [(C91_sv_gradients ys hP hQ (x t.castSucc) (x t.succ) (tailA ys t)).2.1, sub_eq_add_neg]; rfl
  exact ⟨C90_al_proposals key i x _ b _ _ _ _ _ _ _ hd h0 ht hf, C90_l_proposals key i x _ b _ _ _ _ _ _ _ hd h0 ht hf⟩

/-- C91 (stochastic volatility, `RW_CSMC`): law of the proposals. -/
theorem C91_sv_rw_proposals (i : Fin (N + 1)) (key : Key) (x : Fin (n + 1) → Vec d) (b : Fin (n + 1) → Fin (N + 1))
    (delta : Fin (n + 1) → ℝ) (hd : ∀ t, 0 ≤ delta t) {f : (Fin (n + 1) → Vec d) → ℝ≥0∞} (hf : Measurable f) :
    (sv_rw_csmc (fun _ => true) ys D (follow i) (pick i) false key x b delta : Ex _) (fun r => f r.xs) =
      ∫⁻ z, f z ∂slotLaw i x b 0 0 delta :=
  C90_rw_proposals key i x b _ _ _ _ hd hf

omit ys in
/-- C91 (stochastic volatility, `MALA_CSMC`, style `smoothing`): law of the proposals. -/
theorem C91_sv_smoothing_proposals (hP : D.P0.PosDef) (hQ : D.Q.PosDef) (i : Fin (N + 1)) :
    ∃ K : Traj (n + 3) d → Key → (Fin (n + 3) → Vec d) → (Fin (n + 3) → Fin (N + 1)) → (Fin (n + 3) → ℝ) →
        Ex ((Fin (n + 3) → Vec d) × (Fin (n + 3) → Fin (N + 1))),
      sv_mala_csmc_smoothing D (follow i) (pick i) false (n := n + 2) = .ok (fun ys => csmcSvPlain (K ys)) ∧
      ∀ ys key x b delta, (∀ t, 0 ≤ delta t) → ∀ f : (Fin (n + 3) → Vec d) → ℝ≥0∞, Measurable f →
        K ys key x b delta (fun r => f r.1) =
          ∫⁻ z, f z ∂slotLaw i x b (fun t => svScore (ys t) (x t) + svPull D x t + svNext D x t) delta delta := by
  refine ⟨_, rfl, fun ys key x b delta hd f hf => ?_⟩
  refine C90_als_proposals key i x (fun t => svScore (ys t) (x t) + svPull D x t + svNext D x t) b _ _ _ _ _ _ _ _ hd ?_ (fun t => ?_) ?_ hf
  · rw [(C91_sv_gradients ys hP hQ 0 (x 0) 0).1, (C91_sv_gradients ys hP hQ (x 0) (x 1) (tailA ys 0)).2.2, sub_eq_add_neg]
    show _ + _ + svNext D x (Fin.castSucc 0) = _
    rw [svNext, Fin.lastCases_castSucc]
    rfl
  · rw [(C91_sv_gradients ys hP hQ _ _ _).2.1, (C91_sv_gradients ys hP hQ _ _ _).2.2, sub_eq_add_neg]
    simp only [svNext]
    rw [Fin.lastCases_castSucc, ← Fin.succ_castSucc]
    rfl
  · rw [(C91_sv_gradients ys hP hQ _ _ _).2.1, sub_eq_add_neg]
    simp only [svNext]
    rw [Fin.lastCases_last, add_zero]
    rfl

omit ys in
/-- C91 (stochastic volatility, `TP_CSMC`, style `smoothing`): the potentials do not depend on the previous state, and the
kernel is told so. -/
theorem C91_sv_tp_smoothing {m : Type → Type} [RandM m] (svd : Mat d d → SvdOut d) (stop_gradient : Bool) (resampling : Resampling m N)
    (mv : AncestorMove m N) (backward : Bool) :
    sv_tp_csmc_smoothing svd D stop_gradient resampling mv backward (n := n + 2) = .ok fun ys => csmcSvPlain fun key x b delta =>
      atps_kernel svd (svGauss ys D stop_gradient) (fun _ _ _ => 0) key x b delta delta resampling mv backward := by
  have e : (fun x' x y : Vec d => jaxGrad (fun _ => sv_log_potential x y) x') = fun _ _ _ => 0 := by
    funext x' x y
    exact jaxGrad_const _ _
  simp only [sv_tp_csmc_smoothing, e]

end sv

/-- Drift from `x = 2` towards `y = 3` with `σ = 1` and previous state `1`: `(3 - 2) - (2 - 1) = 0`; with previous state `0` it
is `-1`. -/
example : jaxGrad (fun x : Vec 1 => lgGamma_t 1 (fun _ => 1) x (fun _ => 3)) (fun _ => 2) = 0 ∧
    jaxGrad (fun x : Vec 1 => lgGamma_t 1 (fun _ => 0) x (fun _ => 3)) (fun _ => 2) = fun _ => -1 := by
  rw [(C91_lg_gradients (n := 0) 0 1 _ _ _).2.1, (C91_lg_gradients (n := 0) 0 1 _ _ _).2.1]
  constructor <;> funext j <;> simp <;> norm_num

/-- Observation `2` at `x = 0`: score `(4 - 1) / 2`. -/
example : svScore (fun _ : Fin 1 => 2) (fun _ => 0) = fun _ => 3 / 2 := by
  funext j
  simp [svScore]
  norm_num

end Verif.Props
