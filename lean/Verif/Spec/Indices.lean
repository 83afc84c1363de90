import Verif.Spec.Invariance
import Verif.Model.Csmc

/-!
# Specification vocabulary: kernels whose index vectors are only labels
-/

open scoped ENNReal
open MeasureTheory

namespace Verif.Spec
open Verif Verif.Model

variable {X : Type} [MeasurableSpace X] {N n : ℕ}

/-- Rotation of an array. -/
def rotA {α : Type} (s : Fin (N + 1)) (a : Fin (N + 1) → α) : Fin (N + 1) → α := fun i => a (i + s)

/-- The resampling scheme does not care how the particles (rotated by `s`) and their children (rotated by `s'`) are
labelled. -/
def RotResampling (R : (Fin (N + 1) → ℝ) → Fin (N + 1) → Fin (N + 1) → Ex (Fin (N + 1) → Fin (N + 1))) : Prop :=
  ∀ s s' w, IsProb w → (∀ i, 0 < w i) → ∀ i j f, R (rotA s w) i j f = R w (i + s) (j + s') fun a => f fun k => a (k + s') - s

/-- The move of the last index does not care how the particles are labelled. -/
def RotMove (move : (Fin (N + 1) → ℝ) → Fin (N + 1) → Ex (Fin (N + 1))) : Prop :=
  ∀ s w, IsProb w → (∀ i, 0 < w i) → ∀ k f, move (rotA s w) k f = move w (k + s) fun i => f (i - s)

/-- Proposals and weights do not care how the particles are labelled. -/
structure RotFK {P G : Type} (M : FK Ex X P G N) : Prop where
  M0_rvs : ∀ key s (f : (Fin (N + 1) → X) → ℝ≥0∞), Measurable f → M.M0_rvs key f = M.M0_rvs key fun Xs => f (rotA s Xs)
  M0_logpdf : ∀ s Xs i, M.M0_logpdf (rotA s Xs) i = M.M0_logpdf Xs (i + s)
  Mt_rvs : ∀ key s Y p (f : (Fin (N + 1) → X) → ℝ≥0∞), Measurable f →
    M.Mt_rvs key (rotA s Y) p f = M.Mt_rvs key Y p fun Xs => f (rotA s Xs)
  Mt_logpdf : ∀ s Y Xs p i, M.Mt_logpdf (rotA s Y) (rotA s Xs) p i = M.Mt_logpdf Y Xs p (i + s)

/-- Measurability of the pieces of a model. -/
structure MeasFK {P G : Type} (M : FK Ex X P G N) (n : ℕ) (Mparams : Fin n → P) (Gparams : Fin n → G) : Prop where
  M0_rvs : ∀ key, IsKer (fun _ : Unit => M.M0_rvs key)
  M0_logpdf : Measurable M.M0_logpdf
  Gamma0 : Measurable M.Gamma0
  Mt_rvs : ∀ key t, IsKer (fun Y : Fin (N + 1) → X => M.Mt_rvs key Y (Mparams t))
  Mt_logpdf : ∀ t, Measurable fun p : (Fin (N + 1) → X) × (Fin (N + 1) → X) => M.Mt_logpdf p.1 p.2 (Mparams t)
  Gammat : ∀ t, Measurable fun p : X × X => M.Gammat p.1 p.2 (Gparams t)

/-- Relabelling: rotating the indices of the reference (at every time step by its own offset) rotates the indices that
the kernel returns in the same way, and changes nothing else. -/
def Relabels (K : (Fin (n + 1) → X) → (Fin (n + 1) → Fin (N + 1)) → Ex ((Fin (n + 1) → X) × (Fin (n + 1) → Fin (N + 1)))) :
    Prop :=
  ∀ x b s (f : (Fin (n + 1) → X) × (Fin (n + 1) → Fin (N + 1)) → ℝ≥0∞), Measurable f →
    K x (b + s) f = K x b (fun r => f (r.1, r.2 + s))

/-- The law of the new trajectory and of the acceptance flags does not depend on the indices of the reference. -/
def IndexFree (K : (Fin (n + 1) → X) → (Fin (n + 1) → Fin (N + 1)) → Ex ((Fin (n + 1) → X) × (Fin (n + 1) → Fin (N + 1)))) :
    Prop :=
  ∀ x b b' (g : (Fin (n + 1) → X) → (Fin (n + 1) → Prop) → ℝ≥0∞), (∀ p, Measurable fun x => g x p) →
    K x b (fun r => g r.1 fun t => r.2 t ≠ b t) = K x b' (fun r => g r.1 fun t => r.2 t ≠ b' t)

/-- The new trajectory has the law of the old one, whatever the indices of the reference. -/
def InvariantFromAnyIndex (lam : Measure X) (logpi : (Fin (n + 1) → X) → ℝ)
    (K : (Fin (n + 1) → X) → (Fin (n + 1) → Fin (N + 1)) → Ex ((Fin (n + 1) → X) × (Fin (n + 1) → Fin (N + 1)))) : Prop :=
  ∀ b (f : (Fin (n + 1) → X) → ℝ≥0∞), Measurable f →
    ∫⁻ x, ENNReal.ofReal (Real.exp (logpi x)) * K x b (fun r => f r.1) ∂(Measure.pi fun _ => lam) =
      ∫⁻ x, ENNReal.ofReal (Real.exp (logpi x)) * f x ∂(Measure.pi fun _ => lam)

/-- The move of the last index returns an index with probability one. -/
def MoveMass (move : (Fin (N + 1) → ℝ) → Fin (N + 1) → Ex (Fin (N + 1))) : Prop :=
  ∀ w, IsProb w → ∀ k, move w k (fun _ => 1) = 1

/-- A step of a Markov chain: measurable in the current state, and of total mass one. -/
structure MarkovStep (K : (Fin (n + 1) → X) → (Fin (n + 1) → Fin (N + 1)) →
    Ex ((Fin (n + 1) → X) × (Fin (n + 1) → Fin (N + 1)))) : Prop where
  ker : IsKer (fun p : (Fin (n + 1) → X) × (Fin (n + 1) → Fin (N + 1)) => K p.1 p.2)
  mass : ∀ x b, K x b (fun _ => 1) = 1

end Verif.Spec
