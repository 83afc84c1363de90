import Verif.Spec.Csmc

/-!
# Specification vocabulary: sequential Monte Carlo without a reference trajectory
-/

open scoped ENNReal
open MeasureTheory

namespace Verif.Spec
open Verif Verif.Model

variable {X P G : Type} [MeasurableSpace X] {N n : ℕ}

/-- Unbiased resampling: particle `k` has `(N + 1) w_k` children on average. -/
structure UnbiasedResampling {N : ℕ} (R : (Fin (N + 1) → ℝ) → Fin (N + 1) → Fin (N + 1) → Ex (Fin (N + 1) → Fin (N + 1))) : Prop where
  ker : IsKer (fun p : (Fin (N + 1) → ℝ) × Fin (N + 1) × Fin (N + 1) => R p.1 p.2.1 p.2.2)
  mass : ∀ w, IsProb w → ∀ i j, R w i j (fun _ => 1) = 1
  children : ∀ w, IsProb w → ∀ i j k, R w i j (fun A => ∑ t, if A t = k then 1 else 0) = ENNReal.ofReal ((N + 1) * w k)

/-- `m0` and `m t` are the (normalised) log-densities of the draws of `M_0_rvs` and `M_t_rvs`; the log-densities that the code
evaluates may differ from them by constants. -/
structure ProposalLogs (lam : Measure X) (M : FK Ex X P G N) (Mparams : Fin n → P) (m0 : X → ℝ) (m : Fin n → X → X → ℝ) : Prop where
  init : ∀ key, SamplesFrom lam (fun _ => m0) (M.M0_rvs key)
  init_log : ∃ c : ℝ, ∀ Xs i, M.M0_logpdf Xs i = m0 (Xs i) + c
  step : ∀ t key Ys, SamplesFrom lam (fun i => m t (Ys i)) (M.Mt_rvs key Ys (Mparams t))
  step_log : ∀ t, ∃ c : ℝ, ∀ Ys Xs i, M.Mt_logpdf Ys Xs (Mparams t) i = m t (Ys i) (Xs i) + c

/-- The evidence estimate of a particle filter: the product over time of the means of the importance weights
`exp (Γ_t(x_{t-1}, x_t)) / (density of the proposal)`, for the particles `xs` with ancestors `As`. -/
noncomputable def evidence (Γ0 : X → ℝ) (Γ : Fin n → X → X → ℝ) (m0 : X → ℝ) (m : Fin n → X → X → ℝ)
    (xs : Fin (n + 1) → Fin (N + 1) → X) (As : Fin n → Fin (N + 1) → Fin (N + 1)) : ℝ :=
  ((∑ i, Real.exp (Γ0 (xs 0 i) - m0 (xs 0 i))) / (N + 1)) *
    ∏ t, (∑ i, Real.exp (Γ t (xs t.castSucc (As t i)) (xs t.succ i) - m t (xs t.castSucc (As t i)) (xs t.succ i))) / (N + 1)

/-- The random array `(xs, As)` together with the random trajectory `x` represents the measure with log-density `l`: averages of functions
of the trajectory, weighted by `W(xs, As)`, are integrals. -/
def ProperlyWeighted (lam : Measure X) (l : (Fin (n + 1) → X) → ℝ)
    (W : (Fin (n + 1) → Fin (N + 1) → X) → (Fin n → Fin (N + 1) → Fin (N + 1)) → ℝ)
    (K : Ex (FwdOut X N n × (Fin (n + 1) → X))) : Prop :=
  ∀ f, Measurable f → K (fun r => ENNReal.ofReal (W r.1.xs r.1.As) * f r.2) =
    ∫⁻ x, ENNReal.ofReal (Real.exp (l x)) * f x ∂(Measure.pi fun _ => lam)

end Verif.Spec
