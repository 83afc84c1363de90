import Verif.Lemmas.Follow

/-!
# C90: the proposals are Langevin steps

The step sizes and gradients that a kernel receives are used for the proposals exactly as the comments of the package
say: slot `i` of Particle-RWM, Particle-MALA, Particle-aMALA and Particle-aMALA+ holds, independently over time, a Gaussian
step from the reference trajectory with mean `x*_t + δ_t/2 · ∇_t` and covariance `ℓ_t I`, whatever the target is, and the
reference itself at the times at which the reference sits in slot `i`.
-/

open scoped ENNReal
open MeasureTheory

namespace Verif.Props
open Verif Verif.Model Verif.Spec

variable {G : Type} {N n d : ℕ}

/-- Particle-aMALA. -/
theorem C90_al_proposals (key : Key) (i : Fin (N + 1)) (xstar g : Fin (n + 1) → Vec d) (bstar : Fin (n + 1) → Fin (N + 1))
    (Gamma0 : Vec d → ℝ) (Gamma0_grad : Vec d → Vec d) (Gammat : Vec d → Vec d → G → ℝ)
    (Gammat_grad : Vec d → Vec d → G → Vec d) (Gparams : Fin n → G) (ells deltas : Fin (n + 1) → ℝ)
    (hl : ∀ t, 0 ≤ ells t) (h0 : g 0 = Gamma0_grad (xstar 0))
    (ht : ∀ t : Fin n, g t.succ = Gammat_grad (xstar t.castSucc) (xstar t.succ) (Gparams t))
    {f : (Fin (n + 1) → Vec d) → ℝ≥0∞} (hf : Measurable f) :
    (al_kernel key xstar bstar Gamma0 Gamma0_grad Gammat Gammat_grad Gparams ells deltas (follow i) (pick i) false : Ex _)
      (fun r => f r.xs) = ∫⁻ x, f x ∂slotLaw i xstar bstar g deltas ells := by
  have hg : insert0 (Gamma0_grad (xstar 0)) (fun t => Gammat_grad (initA xstar t) (tailA xstar t) (Gparams t)) = g :=
    funext fun t => Fin.cases h0.symm (fun t => (ht t).symm) t
  rw [← slot_law i xstar g bstar ells deltas hl hf]
  refine lintegral_congr fun e => lintegral_congr fun e' => ?_
  rw [← show auxVars Gamma0_grad Gammat_grad Gparams deltas (auxStd ells) xstar e =
    fun t j => xstar t j + 0.5 * deltas t * g t j + auxStd ells t * e t j by rw [← hg]; rfl]
  refine run_follow (body := alBody (m := Ex) Gammat Gammat_grad (follow i)) i (fun c inp => sure_pure rfl) fun r hr => ?_
  simp only [Bool.false_eq_true, if_false, scanning_follow _ (fun t => (r.2 t).2) _ i _ _ hr]
  rfl

/-- Particle-MALA. -/
theorem C90_l_proposals (key : Key) (i : Fin (N + 1)) (xstar g : Fin (n + 1) → Vec d) (bstar : Fin (n + 1) → Fin (N + 1))
    (Gamma0 : Vec d → ℝ) (Gamma0_grad : Vec d → Vec d) (Gammat : Vec d → Vec d → G → ℝ)
    (Gammat_grad : Vec d → Vec d → G → Vec d) (Gparams : Fin n → G) (ells deltas : Fin (n + 1) → ℝ)
    (hl : ∀ t, 0 ≤ ells t) (h0 : g 0 = Gamma0_grad (xstar 0))
    (ht : ∀ t : Fin n, g t.succ = Gammat_grad (xstar t.castSucc) (xstar t.succ) (Gparams t))
    {f : (Fin (n + 1) → Vec d) → ℝ≥0∞} (hf : Measurable f) :
    (l_kernel key xstar bstar Gamma0 Gamma0_grad Gammat Gammat_grad Gparams ells deltas (follow i) (pick i) false : Ex _)
      (fun r => f r.xs) = ∫⁻ x, f x ∂slotLaw i xstar bstar g deltas ells := by
  have hg : insert0 (Gamma0_grad (xstar 0)) (fun t => Gammat_grad (initA xstar t) (tailA xstar t) (Gparams t)) = g :=
    funext fun t => Fin.cases h0.symm (fun t => (ht t).symm) t
  rw [← slot_law i xstar g bstar ells deltas hl hf]
  refine lintegral_congr fun e => lintegral_congr fun e' => ?_
  rw [← show auxVars Gamma0_grad Gammat_grad Gparams deltas (auxStd ells) xstar e =
    fun t j => xstar t j + 0.5 * deltas t * g t j + auxStd ells t * e t j by rw [← hg]; rfl]
  refine run_follow (body := lBody (m := Ex) Gammat Gammat_grad (follow i)) i (fun c inp => sure_pure rfl) fun r hr => ?_
  simp only [Bool.false_eq_true, if_false, scanning_follow _ (fun t => (r.2 t).2) _ i _ _ hr]
  rfl

/-- Particle-RWM: no drift. -/
theorem C90_rw_proposals (key : Key) (i : Fin (N + 1)) (xstar : Fin (n + 1) → Vec d) (bstar : Fin (n + 1) → Fin (N + 1))
    (Gamma0 : Vec d → ℝ) (Gammat : Vec d → Vec d → G → ℝ) (Gparams : Fin n → G) (ells : Fin (n + 1) → ℝ)
    (hl : ∀ t, 0 ≤ ells t) {f : (Fin (n + 1) → Vec d) → ℝ≥0∞} (hf : Measurable f) :
    (rw_kernel (fun _ => true) key xstar bstar Gamma0 Gammat Gparams ells (follow i) (pick i) false : Ex _)
      (fun r => f r.xs) = ∫⁻ x, f x ∂slotLaw i xstar bstar 0 0 ells := by
  rw [← slot_law i xstar 0 bstar ells 0 hl hf]
  refine lintegral_congr fun e => lintegral_congr fun e' => ?_
  have hu : (fun t j => xstar t j + 0.5 * (0 : Fin (n + 1) → ℝ) t * (0 : Fin (n + 1) → Vec d) t j + auxStd ells t * e t j) =
      fun t j => xstar t j + e t j * auxStd ells t := by
    funext t j; simp [mul_comm]
  rw [hu]
  have hg : ∀ r : KOut (Vec d) N n, (rwGuard (fun _ => true) xstar bstar r).xs = r.xs := fun r => by simp [rwGuard]
  refine (Ex.congr_fun' _ fun r => congrArg f (hg r)).trans ?_
  refine run_follow (body := rwBody (m := Ex) Gammat (follow i)) i (fun c inp => sure_pure rfl) fun r hr => ?_
  simp only [Bool.false_eq_true, if_false, scanning_follow _ (fun t => (r.2 t).2) _ i _ _ hr]
  rfl

/-- Particle-aMALA+: the drift at `t` is the gradient of the two terms in which `x_t` appears. -/
theorem C90_als_proposals (key : Key) (i : Fin (N + 1)) (xstar g : Fin (n + 3) → Vec d) (bstar : Fin (n + 3) → Fin (N + 1))
    (Gamma0 : Vec d → ℝ) (Gamma0_grad : Vec d → Vec d) (Gammat : Vec d → Vec d → G → ℝ)
    (Gammat_grad0 Gammat_grad1 : Vec d → Vec d → G → Vec d) (Gparams : Fin (n + 2) → G) (ells deltas : Fin (n + 3) → ℝ)
    (hl : ∀ t, 0 ≤ ells t) (h0 : g 0 = Gamma0_grad (xstar 0) + Gammat_grad0 (xstar 0) (xstar 1) (Gparams 0))
    (ht : ∀ t : Fin (n + 1), g t.succ.castSucc = Gammat_grad1 (xstar t.castSucc.castSucc) (xstar t.succ.castSucc) (Gparams t.castSucc) +
      Gammat_grad0 (xstar t.castSucc.succ) (xstar t.succ.succ) (Gparams t.succ))
    (hT : g (Fin.last (n + 2)) = Gammat_grad1 (xstar (Fin.last (n + 1)).castSucc) (xstar (Fin.last (n + 2))) (Gparams (Fin.last (n + 1))))
    {f : (Fin (n + 3) → Vec d) → ℝ≥0∞} (hf : Measurable f) :
    (als_kernel key xstar bstar Gamma0 Gamma0_grad Gammat Gammat_grad0 Gammat_grad1 Gparams ells deltas (follow i) (pick i)
      false : Ex _) (fun r => f r.xs) = ∫⁻ x, f x ∂slotLaw i xstar bstar g deltas ells := by
  have hg : fullGrad Gamma0_grad Gammat_grad0 Gammat_grad1 Gparams xstar = g := funext fun t => by
    induction t using Fin.lastCases with
    | last =>
      simp only [fullGrad]
      rw [hT, snocA_last, ← Fin.succ_last, insert0_succ, add_zero]
      rfl
    | cast t =>
      simp only [fullGrad]
      rw [snocA_castSucc]
      induction t using Fin.cases with
      | zero => rw [Fin.castSucc_zero, h0]; rfl
      | succ t => rw [ht, ← Fin.succ_castSucc, insert0_succ]; rfl
  rw [← slot_law i xstar g bstar ells deltas hl hf]
  refine lintegral_congr fun e => lintegral_congr fun e' => ?_
  rw [← hg]
  obtain ⟨F, ⟨hx, hA⟩, h⟩ := sure_alsForward i key bstar Gamma0 Gamma0_grad Gammat Gammat_grad0 Gammat_grad1 Gparams ells deltas
    (fun t j => xstar t j + 0.5 * deltas t * fullGrad Gamma0_grad Gammat_grad0 Gammat_grad1 Gparams xstar t j + auxStd ells t * e t j)
    (auxParticles (fun t j => xstar t j + 0.5 * deltas t * fullGrad Gamma0_grad Gammat_grad0 Gammat_grad1 Gparams xstar t j +
      auxStd ells t * e t j) (auxStd ells) e' bstar xstar)
  simp only [h, pure_bind, Bool.false_eq_true, if_false, scanning_follow _ F.As _ i _ _ hA]
  rw [← hx]
  rfl

/-- A step from `(1, 2)` with gradients `3` and `-1`, step sizes `2` and `4`. -/
example : slotLaw (N := 1) 0 (fun t : Fin 2 => fun _ : Fin 1 => (t : ℝ) + 1) (fun _ => 1) (fun t _ => if t = 0 then 3 else -1)
    (fun t => if t = 0 then 2 else 4) (fun t => if t = 0 then 2 else 4) =
    Measure.pi fun t : Fin 2 => Measure.pi fun _ : Fin 1 =>
      ProbabilityTheory.gaussianReal (if t = 0 then 4 else 0) (if t = 0 then 2 else 4) := by
  rw [slotLaw]
  refine congrArg Measure.pi (funext fun t => ?_)
  rw [if_neg (by decide), langevin]
  refine congrArg Measure.pi (funext fun j => ?_)
  fin_cases t
  · norm_num
  · norm_num

/-- Hypotheses of the theorems: one-dimensional quadratic increments. -/
example (key : Key) (xstar : Fin 2 → Vec 1) (f : (Fin 2 → Vec 1) → ℝ≥0∞) (hf : Measurable f) :
    (al_kernel key xstar (fun _ => (1 : Fin 2)) (fun x => -(x 0) ^ 2 / 2) (fun x => -x) (fun x' x (y : ℝ) => -(x 0 - x' 0) ^ 2 * y)
      (fun x' x y => (-2 * y) • (x - x')) (fun _ => 3) (fun _ => 1) (fun _ => 1) (follow 0) (pick 0) false : Ex _)
      (fun r => f r.xs) = ∫⁻ x, f x ∂slotLaw (N := 1) 0 xstar (fun _ => 1) ![-xstar 0, (-2 * 3 : ℝ) • (xstar 1 - xstar 0)] (fun _ => 1) (fun _ => 1) :=
  C90_al_proposals key 0 xstar _ _ _ _ _ _ _ _ _ (fun _ => zero_le_one) rfl (fun t => by fin_cases t; rfl) hf

end Verif.Props
