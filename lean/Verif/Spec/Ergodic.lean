import Verif.Spec.Csmc
import Verif.Spec.Near

/-!
# Specification vocabulary: convergence at a geometric rate
-/

open scoped ENNReal
open MeasureTheory Finset

namespace Verif.Spec
open Verif Verif.Model

/-- The target over the proposal is at most `exp (B t)` at time `t`; the density of the proposal is the one that `M_0_logpdf`
and `M_t_logpdf` evaluate, up to a constant that normalises it. -/
structure BoundedFK {X P G : Type} [MeasurableSpace X] {N n : ℕ} (lam : Measure X) (M : FK Ex X P G N) (Mparams : Fin n → P)
    (Gparams : Fin n → G) (B : Fin (n + 1) → ℝ) : Prop where
  init : ∃ (m : X → ℝ) (c : ℝ), (∀ Xs i, M.M0_logpdf Xs i = m (Xs i) + c) ∧
    (∀ key, SamplesFrom lam (fun _ => m) (M.M0_rvs key)) ∧ ∀ x, M.Gamma0 x - m x ≤ B 0
  step : ∀ t, ∃ (m : X → X → ℝ) (c : ℝ), (∀ Ys Xs i, M.Mt_logpdf Ys Xs (Mparams t) i = m (Ys i) (Xs i) + c) ∧
    (∀ key Ys, SamplesFrom lam (fun i => m (Ys i)) (M.Mt_rvs key Ys (Mparams t))) ∧
    ∀ y x, M.Gammat y x (Gparams t) - m y x ≤ B t.succ

/-- Expected number of the non-reference children of particle `l`, for a resampling scheme that is asked to give parent `i`
to child `j`. -/
noncomputable def offspring {N : ℕ} (R : (Fin (N + 1) → ℝ) → Fin (N + 1) → Fin (N + 1) → Ex (Fin (N + 1) → Fin (N + 1)))
    (w : Fin (N + 1) → ℝ) (i j l : Fin (N + 1)) : ℝ≥0∞ := R w i j fun A => ∑ a ∈ univ.erase j, if A a = l then 1 else 0

/-- Whatever the reference, particle `l` has on average at least `q w_l` children other than the reference's. Without backward
sampling the children of the reference itself do not count. -/
def Spreads {N : ℕ} (q : ℝ≥0∞) (backward : Bool)
    (R : (Fin (N + 1) → ℝ) → Fin (N + 1) → Fin (N + 1) → Ex (Fin (N + 1) → Fin (N + 1))) : Prop :=
  ∀ w, IsProb w → (∀ i, 0 < w i) → ∀ i j l, (backward = false → l ≠ i) → q * ENNReal.ofReal (w l) ≤ offspring R w i j l

/-- The move goes to any other index with at least `a` times the probability that the weights give to it. -/
def MovesAway {N : ℕ} (a : ℝ≥0∞) (move : (Fin (N + 1) → ℝ) → Fin (N + 1) → Ex (Fin (N + 1))) : Prop :=
  ∀ w, IsProb w → (∀ i, 0 < w i) → ∀ k f, a * ∑ l ∈ univ.erase k, ENNReal.ofReal (w l) * f l ≤ move w k f

/-- A lower bound on the probability that one conditional SMC step draws its trajectory from the target: `Z` is the mass of the
target and `exp (B t)` bounds the weights at time `t`. -/
noncomputable def csmcRate (N n : ℕ) (a q : ℝ≥0∞) (B : Fin (n + 1) → ℝ) (Z : ℝ≥0∞) : ℝ≥0∞ :=
  a * N * q ^ n * (∏ t, ENNReal.ofReal (Real.exp (-B t) / (N + 1))) * Z

end Verif.Spec
