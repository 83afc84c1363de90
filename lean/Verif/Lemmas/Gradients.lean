import Mathlib.Analysis.Calculus.LineDeriv.Basic
import Mathlib.Analysis.SpecialFunctions.ExpDeriv
import Mathlib.Analysis.Calculus.FDeriv.Pi
import Verif.Lemmas.TpCsmc
import Verif.Model.ExpSv
import Verif.Model.ExpLgssm

/-!
# Gradients in closed form
-/

open Matrix

namespace Verif
open Verif.Model Verif.Spec

variable {d n : ℕ}

/-- Partial derivatives along the axes. -/
theorem jaxGrad_eq {f : Vec d → ℝ} {x g : Vec d} (hf : DifferentiableAt ℝ f x)
    (h : ∀ j, HasDerivAt (fun t : ℝ => f (x + t • Pi.single j 1)) (g j) 0) : jaxGrad f x = g :=
  funext fun j => by rw [jaxGrad, ← hf.lineDeriv_eq_fderiv, lineDeriv, (h j).deriv]

theorem jaxGrad_add {f g : Vec d → ℝ} {x : Vec d} (hf : DifferentiableAt ℝ f x) (hg : DifferentiableAt ℝ g x) :
    jaxGrad (fun x => f x + g x) x = jaxGrad f x + jaxGrad g x :=
  funext fun j => by
    simp only [jaxGrad, Pi.add_apply]
    rw [show (fun x => f x + g x) = f + g from rfl, fderiv_add hf hg]
    rfl

theorem jaxGrad_const (c : ℝ) (x : Vec d) : jaxGrad (fun _ => c) x = 0 :=
  funext fun j => by simp [jaxGrad]

/-- A sum of functions of the coordinates. -/
theorem jaxGrad_sum {φ : Fin d → ℝ → ℝ} {x g : Vec d} (h : ∀ j, HasDerivAt (φ j) (g j) (x j)) :
    jaxGrad (fun x => ∑ j, φ j (x j)) x = g ∧ DifferentiableAt ℝ (fun x : Vec d => ∑ j, φ j (x j)) x := by
  have hd : DifferentiableAt ℝ (fun x : Vec d => ∑ j, φ j (x j)) x :=
    DifferentiableAt.fun_sum fun j _ => (h j).differentiableAt.comp x (differentiableAt_apply j x)
  refine ⟨jaxGrad_eq hd fun j => ?_, hd⟩
  have e : ∀ k, HasDerivAt (fun t : ℝ => φ k ((x + t • Pi.single j (1 : ℝ) : Vec d) k)) (if k = j then g j else 0) 0 := fun k => by
    by_cases c : k = j
    · subst c
      rw [if_pos rfl]
      have h1 : HasDerivAt (fun t : ℝ => x k + t) 1 0 := (hasDerivAt_id (0 : ℝ)).const_add (x k)
      have h2 := HasDerivAt.comp (0 : ℝ) (h₂ := φ k) (h := fun t : ℝ => x k + t) (by simpa using h k) h1
      simpa [Function.comp_def] using h2
    · rw [if_neg c]
      simp only [Pi.add_apply, Pi.smul_apply, Pi.single_eq_of_ne c, smul_zero, add_zero]
      exact hasDerivAt_const _ _
  simpa using HasDerivAt.fun_sum fun k (_ : k ∈ Finset.univ) => e k

/-! ## Components with unit or isotropic noise -/

theorem grad_sumNorm {sigma : ℝ} (x loc : Vec d) :
    jaxGrad (fun x => sumNorm x loc sigma) x = -((1 / sigma ^ 2) • (x - loc)) ∧
      DifferentiableAt ℝ (fun x : Vec d => sumNorm x loc sigma) x := by
  refine jaxGrad_sum (φ := fun j z => norm_logpdf z (loc j) sigma true) fun j => ?_
  simp only [norm_logpdf, if_true]
  have h1 : HasDerivAt (fun z : ℝ => (z - loc j) ^ 2) (2 * (x j - loc j)) (x j) := by
    refine (((hasDerivAt_id (x j)).sub_const (loc j)).fun_pow 2).congr_deriv ?_
    simp
  have h2 := (((h1.div_const (sigma ^ 2)).const_add (Real.log (2 * Real.pi * sigma ^ 2))).neg).div_const 2
  refine h2.congr_deriv ?_
  simp only [Pi.neg_apply, Pi.smul_apply, Pi.sub_apply, smul_eq_mul]
  ring

theorem grad_sumNorm_loc {sigma : ℝ} (x loc : Vec d) :
    jaxGrad (fun loc => sumNorm x loc sigma) loc = (1 / sigma ^ 2) • (x - loc) ∧
      DifferentiableAt ℝ (fun loc : Vec d => sumNorm x loc sigma) loc := by
  have e : (fun loc : Vec d => sumNorm x loc sigma) = fun loc => sumNorm loc x sigma := by
    funext l
    simp only [sumNorm, norm_logpdf, if_true]
    refine Finset.sum_congr rfl fun j _ => ?_
    ring
  rw [e]
  refine ⟨(grad_sumNorm loc x).1.trans ?_, (grad_sumNorm loc x).2⟩
  rw [← smul_neg, neg_sub]

theorem differentiable_sumNorm (sigma : ℝ) : Differentiable ℝ fun p : Vec d × Vec d => sumNorm p.1 p.2 sigma := by
  have h1 : ∀ j, Differentiable ℝ fun p : Vec d × Vec d => p.1 j := fun j =>
    differentiable_pi.1 differentiable_fst j
  have h2 : ∀ j, Differentiable ℝ fun p : Vec d × Vec d => p.2 j := fun j =>
    differentiable_pi.1 differentiable_snd j
  simp only [sumNorm, norm_logpdf, if_true]
  fun_prop

theorem grad_lg_potential (x y : Vec d) :
    jaxGrad (fun x => lg_log_potential x y) x = y - x ∧ DifferentiableAt ℝ (fun x : Vec d => lg_log_potential x y) x := by
  have := grad_sumNorm_loc (sigma := 1) y x
  simpa [lg_log_potential] using this

theorem grad_sv_potential (x y : Vec d) :
    jaxGrad (fun x => sv_log_potential x y) x = (fun j => (y j ^ 2 * Real.exp (-x j) - 1) / 2) ∧
      DifferentiableAt ℝ (fun x : Vec d => sv_log_potential x y) x := by
  refine jaxGrad_sum (φ := fun j z => norm_logpdf (y j) 0 (Real.exp (0.5 * z)) true) fun j => ?_
  have e : (fun z : ℝ => norm_logpdf (y j) 0 (Real.exp (0.5 * z)) true) =
      fun z => -(Real.log (2 * Real.pi) + z + y j ^ 2 * Real.exp (-z)) / 2 := by
    funext z
    have h2 : Real.exp (0.5 * z) ^ 2 = Real.exp z := by rw [← Real.exp_nat_mul]; congr 1; push_cast; ring
    simp only [norm_logpdf, if_true, h2, sub_zero]
    rw [Real.log_mul (by positivity) (Real.exp_pos z).ne', Real.log_exp, Real.exp_neg, div_eq_mul_inv (y j ^ 2)]
  rw [e]
  have h1 : HasDerivAt (fun z : ℝ => Real.exp (-z)) (-Real.exp (-x j)) (x j) := by
    simpa using (hasDerivAt_neg (x j)).exp
  have h2 := ((((hasDerivAt_id (x j)).const_add (Real.log (2 * Real.pi))).add (h1.const_mul (y j ^ 2))).neg).div_const 2
  refine h2.congr_deriv ?_
  ring

/-! ## Trajectories -/

theorem jaxGrad2_eq {T : ℕ} {f : Traj T d → ℝ} {x : Traj T d} {t : Fin T} {g : Vec d} (hf : DifferentiableAt ℝ f x)
    (h : ∀ j, HasDerivAt (fun s : ℝ => f (x + s • (Pi.single t (Pi.single j 1 : Vec d) : Traj T d))) (g j) 0) : jaxGrad2 f x t = g :=
  funext fun j => by rw [jaxGrad2, ← hf.lineDeriv_eq_fderiv, lineDeriv, (h j).deriv]

theorem jaxGrad2_add {T : ℕ} {f g : Traj T d → ℝ} {x : Traj T d} (hf : DifferentiableAt ℝ f x) (hg : DifferentiableAt ℝ g x) :
    jaxGrad2 (fun x => f x + g x) x = jaxGrad2 f x + jaxGrad2 g x := by
  funext t j
  simp only [jaxGrad2, Pi.add_apply]
  rw [show (fun x => f x + g x) = f + g from rfl, fderiv_add hf hg]
  rfl

theorem jaxGrad2_sum {T k : ℕ} {f : Fin k → Traj T d → ℝ} {x : Traj T d} (hf : ∀ i, DifferentiableAt ℝ (f i) x) :
    jaxGrad2 (fun x => ∑ i, f i x) x = ∑ i, jaxGrad2 (f i) x := by
  funext t j
  simp only [jaxGrad2, Finset.sum_apply]
  rw [fderiv_fun_sum fun i _ => hf i, _root_.sum_apply]

/-- A function of one state of the trajectory. -/
theorem jaxGrad2_at {T : ℕ} {φ : Vec d → ℝ} {x : Traj T d} {a : Fin T} (hφ : DifferentiableAt ℝ φ (x a)) :
    jaxGrad2 (fun x => φ (x a)) x = Pi.single a (jaxGrad φ (x a)) ∧ DifferentiableAt ℝ (fun x : Traj T d => φ (x a)) x := by
  have hd : DifferentiableAt ℝ (fun x : Traj T d => φ (x a)) x := DifferentiableAt.comp x hφ (differentiableAt_apply a x)
  refine ⟨funext fun t => jaxGrad2_eq hd fun j => ?_, hd⟩
  by_cases c : t = a
  · subst c
    simp only [Pi.add_apply, Pi.smul_apply, Pi.single_eq_same]
    exact ((hφ.hasFDerivAt.hasLineDerivAt (Pi.single j 1)))
  · rw [Pi.single_eq_of_ne c]
    simp only [Pi.add_apply, Pi.smul_apply, Pi.single_eq_of_ne (Ne.symm c), smul_zero, add_zero]
    exact hasDerivAt_const _ _

/-- A function of two states of the trajectory. -/
theorem jaxGrad2_pair {T : ℕ} {φ : Vec d → Vec d → ℝ} {x : Traj T d} {a b : Fin T} (hab : a ≠ b)
    (hφ : DifferentiableAt ℝ (fun p : Vec d × Vec d => φ p.1 p.2) (x a, x b)) :
    jaxGrad2 (fun x => φ (x a) (x b)) x = Pi.single a (jaxGrad (fun z => φ z (x b)) (x a)) + Pi.single b (jaxGrad (φ (x a)) (x b)) ∧
      DifferentiableAt ℝ (fun x : Traj T d => φ (x a) (x b)) x := by
  have hd : DifferentiableAt ℝ (fun x : Traj T d => φ (x a) (x b)) x :=
    DifferentiableAt.comp (f := fun x : Traj T d => (x a, x b)) x hφ
      ((differentiableAt_apply a x).prodMk (differentiableAt_apply b x))
  have h1 : DifferentiableAt ℝ (fun z => φ z (x b)) (x a) :=
    DifferentiableAt.comp (f := fun z : Vec d => (z, x b)) (x a) hφ (differentiableAt_id.prodMk (differentiableAt_const _))
  have h2 : DifferentiableAt ℝ (φ (x a)) (x b) :=
    DifferentiableAt.comp (f := fun z : Vec d => (x a, z)) (x b) hφ ((differentiableAt_const _).prodMk differentiableAt_id)
  refine ⟨funext fun t => jaxGrad2_eq hd fun j => ?_, hd⟩
  by_cases ca : t = a
  · subst ca
    simp only [Pi.add_apply, Pi.smul_apply, Pi.single_eq_same, Pi.single_eq_of_ne hab, Pi.single_eq_of_ne hab.symm, smul_zero,
      add_zero, Pi.zero_apply]
    exact h1.hasFDerivAt.hasLineDerivAt (Pi.single j 1)
  · by_cases cb : t = b
    · subst cb
      simp only [Pi.add_apply, Pi.smul_apply, Pi.single_eq_same, Pi.single_eq_of_ne hab, Pi.single_eq_of_ne hab.symm, smul_zero,
        add_zero, zero_add, Pi.zero_apply]
      exact h2.hasFDerivAt.hasLineDerivAt (Pi.single j 1)
    · simp only [Pi.add_apply, Pi.smul_apply, Pi.single_eq_of_ne (Ne.symm ca), Pi.single_eq_of_ne (Ne.symm cb),
        Pi.single_eq_of_ne ca, Pi.single_eq_of_ne cb, smul_zero, add_zero, Pi.zero_apply]
      exact hasDerivAt_const _ _

/-! ## Gaussian densities -/

theorem differentiable_quad (S : Mat d d) {w : Vec d → Vec d} (hw : Differentiable ℝ w) (c : ℝ) :
    Differentiable ℝ fun z => -((w z) ⬝ᵥ (S *ᵥ (w z))) / 2 + c := by
  have hc : ∀ i, Differentiable ℝ fun z => w z i := fun i => differentiable_pi.1 hw i
  simp only [dotProduct, mulVec]
  fun_prop

theorem grad_quad {S : Mat d d} (hS : Sᵀ = S) (A : Mat d d) (v : Vec d) (c : ℝ) (z : Vec d) :
    jaxGrad (fun z => -((v + A *ᵥ z) ⬝ᵥ (S *ᵥ (v + A *ᵥ z))) / 2 + c) z = -(Aᵀ *ᵥ (S *ᵥ (v + A *ᵥ z))) := by
  refine jaxGrad_eq (differentiable_quad S (by
    refine differentiable_pi.2 fun i => ?_
    simp only [Pi.add_apply, mulVec, dotProduct]
    fun_prop) c z) fun j => ?_
  set w := v + A *ᵥ z with hw
  set a := A *ᵥ (Pi.single j (1 : ℝ)) with ha
  have e : ∀ t : ℝ, -((v + A *ᵥ (z + t • Pi.single j (1 : ℝ))) ⬝ᵥ (S *ᵥ (v + A *ᵥ (z + t • Pi.single j (1 : ℝ))))) / 2 + c =
      -(w ⬝ᵥ (S *ᵥ w) + 2 * t * (a ⬝ᵥ (S *ᵥ w)) + t ^ 2 * (a ⬝ᵥ (S *ᵥ a))) / 2 + c := fun t => by
    have h1 : v + A *ᵥ (z + t • Pi.single j (1 : ℝ)) = w + t • a := by
      rw [mulVec_add, mulVec_smul, hw, ha, add_assoc]
    have h2 : w ⬝ᵥ (S *ᵥ a) = a ⬝ᵥ (S *ᵥ w) := by
      rw [dot_mulVec_comm, hS]
    rw [h1]
    simp only [mulVec_add, mulVec_smul, dotProduct_add, add_dotProduct, smul_dotProduct, dotProduct_smul, smul_eq_mul, h2]
    ring
  simp only [e]
  have h1 : HasDerivAt (fun t : ℝ => w ⬝ᵥ (S *ᵥ w) + 2 * t * (a ⬝ᵥ (S *ᵥ w)) + t ^ 2 * (a ⬝ᵥ (S *ᵥ a)))
      (2 * (a ⬝ᵥ (S *ᵥ w))) 0 := by
    have h2 : HasDerivAt (fun t : ℝ => 2 * t * (a ⬝ᵥ (S *ᵥ w))) (2 * 1 * (a ⬝ᵥ (S *ᵥ w))) 0 :=
      ((hasDerivAt_id (0 : ℝ)).const_mul 2).mul_const _
    have h3 : HasDerivAt (fun t : ℝ => t ^ 2 * (a ⬝ᵥ (S *ᵥ a))) (2 * 0 * (a ⬝ᵥ (S *ᵥ a))) 0 := by
      simpa using (hasDerivAt_pow 2 (0 : ℝ)).mul_const (a ⬝ᵥ (S *ᵥ a))
    have := (h2.const_add (w ⬝ᵥ (S *ᵥ w))).add h3
    refine this.congr_deriv ?_
    ring
  refine ((h1.neg.div_const 2).add_const c).congr_deriv ?_
  have h4 : a ⬝ᵥ (S *ᵥ w) = (Aᵀ *ᵥ (S *ᵥ w)) j := by
    rw [ha, dot_mulVec_left, single_one_dotProduct]
  rw [h4, Pi.neg_apply]
  ring

theorem grad_mvn {Q : Mat d d} (hQ : Q.PosDef) (m x : Vec d) :
    jaxGrad (fun x => mvn_logpdf x m 0 (some (invChol Q)) false) x = -(Q⁻¹ *ᵥ (x - m)) ∧
      DifferentiableAt ℝ (fun x => mvn_logpdf x m 0 (some (invChol Q)) false) x := by
  have e : (fun x => mvn_logpdf x m 0 (some (invChol Q)) false) =
      fun x => -((-m + (1 : Mat d d) *ᵥ x) ⬝ᵥ (Q⁻¹ *ᵥ (-m + (1 : Mat d d) *ᵥ x))) / 2 + 0 := by
    funext x
    rw [mvn_logpdf_invChol hQ, normalLogpdf, one_mulVec, neg_add_eq_sub]
    ring
  rw [e]
  refine ⟨?_, differentiable_quad _ (by
    simp only [one_mulVec]
    fun_prop) 0 x⟩
  rw [grad_quad (PosDef.inv_transpose hQ), transpose_one, one_mulVec, one_mulVec, neg_add_eq_sub]

theorem grad_mvn_mean {Q : Mat d d} (hQ : Q.PosDef) (F : Mat d d) (b x x' : Vec d) :
    jaxGrad (fun x' => mvn_logpdf x (F *ᵥ x' + b) 0 (some (invChol Q)) false) x' = Fᵀ *ᵥ (Q⁻¹ *ᵥ (x - (F *ᵥ x' + b))) ∧
      DifferentiableAt ℝ (fun x' => mvn_logpdf x (F *ᵥ x' + b) 0 (some (invChol Q)) false) x' := by
  have e : (fun x' => mvn_logpdf x (F *ᵥ x' + b) 0 (some (invChol Q)) false) =
      fun x' => -(((x - b) + (-F) *ᵥ x') ⬝ᵥ (Q⁻¹ *ᵥ ((x - b) + (-F) *ᵥ x'))) / 2 + 0 := by
    funext x'
    rw [mvn_logpdf_invChol hQ, normalLogpdf, neg_mulVec, show x - (F *ᵥ x' + b) = x - b + -(F *ᵥ x') by abel]
    ring
  rw [e]
  refine ⟨?_, differentiable_quad _ (by
    refine differentiable_pi.2 fun i => ?_
    simp only [Pi.add_apply, mulVec, dotProduct]
    fun_prop) 0 x'⟩
  rw [grad_quad (PosDef.inv_transpose hQ), transpose_neg, neg_mulVec, neg_mulVec, neg_neg,
    show x - (F *ᵥ x' + b) = x - b + -(F *ᵥ x') by abel]

end Verif
