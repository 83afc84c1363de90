import Verif.Lemmas.AlsKernel
import Verif.Model.ExpLgssm
import Verif.Model.AtpCsmcS
import Verif.Props.AuxGradient

/-!
# Particle-aMALA+: C25, C26 and C27
-/

open scoped ENNReal
open MeasureTheory ProbabilityTheory

namespace Verif.Props
open Verif Verif.Spec Verif.Model

variable {N n d : ℕ} {G : Type}
  {Gamma0 : Vec d → ℝ} {Gamma0_grad : Vec d → Vec d} {Gammat : Vec d → Vec d → G → ℝ}
  {Gammat_grad0 Gammat_grad1 : Vec d → Vec d → G → Vec d}

/-! ## C25: the increments telescope -/

/-- Telescoping of increments `q t + p (t + 1) - p t`. -/
theorem telescope_sum {k : ℕ} (p q : Fin (k + 1) → ℝ) (h : q (Fin.last k) = p (Fin.last k)) :
    p 0 + ∑ t : Fin k, (q t.castSucc + p t.succ - p t.castSucc) = ∑ t, q t := by
  have h4 : ∑ t : Fin k, p t.castSucc + p (Fin.last k) = p 0 + ∑ t : Fin k, p t.succ := by
    rw [← Fin.sum_univ_castSucc, Fin.sum_univ_succ]
  rw [Fin.sum_univ_castSucc (f := q), Finset.sum_sub_distrib, Finset.sum_add_distrib, h]
  linarith

/-- The corrections of all increments add up to those of the full gradient. -/
theorem correction_sum (Gamma0_grad : Vec d → Vec d) (Gammat_grad0 Gammat_grad1 : Vec d → Vec d → G → Vec d)
    (ells deltas : Fin (n + 2) → ℝ) (Gparams : Fin (n + 1) → G) (u x : Fin (n + 2) → Vec d) :
    alsCorrection (u 0) (alsMean (x 0) (deltas 0) (Gamma0_grad (x 0))) (ells 0) +
      (alsCorrection (u 0) (alsMean (x 0) (deltas 0) (Gammat_grad0 (x 0) (x 1) (Gparams 0) + Gamma0_grad (x 0))) (ells 0) +
        alsCorrection (u 1) (alsMean (x 1) (deltas 1) (Gammat_grad1 (x 0) (x 1) (Gparams 0))) (ells 1) -
        alsCorrection (u 0) (alsMean (x 0) (deltas 0) (Gamma0_grad (x 0))) (ells 0)) +
      ∑ t : Fin n, (alsCorrection (u t.castSucc.succ) (alsMean (x t.castSucc.succ) (deltas t.castSucc.succ)
          (Gammat_grad0 (x t.castSucc.succ) (x t.succ.succ) (Gparams t.succ) +
            Gammat_grad1 (x t.castSucc.castSucc) (x t.castSucc.succ) (Gparams t.castSucc))) (ells t.castSucc.succ) +
        alsCorrection (u t.succ.succ) (alsMean (x t.succ.succ) (deltas t.succ.succ)
          (Gammat_grad1 (x t.castSucc.succ) (x t.succ.succ) (Gparams t.succ))) (ells t.succ.succ) -
        alsCorrection (u t.castSucc.succ) (alsMean (x t.castSucc.succ) (deltas t.castSucc.succ)
          (Gammat_grad1 (x t.castSucc.castSucc) (x t.castSucc.succ) (Gparams t.castSucc))) (ells t.castSucc.succ)) =
    ∑ t, -(∑ j, (u t j - (x t j + deltas t / 2 *
        fullGrad Gamma0_grad Gammat_grad0 Gammat_grad1 Gparams x t j)) ^ 2) / ells t := by
  let own := insert0 (Gamma0_grad (x 0)) (fun t : Fin (n + 1) => Gammat_grad1 (initA x t) (tailA x t) (Gparams t))
  let p : Fin (n + 2) → ℝ := fun t => alsCorrection (u t) (alsMean (x t) (deltas t) (own t)) (ells t)
  let q : Fin (n + 2) → ℝ := fun t => alsCorrection (u t) (alsMean (x t) (deltas t)
    (fullGrad Gamma0_grad Gammat_grad0 Gammat_grad1 Gparams x t)) (ells t)
  have hq : ∀ t, q t = -(∑ j, (u t j - (x t j + deltas t / 2 *
        fullGrad Gamma0_grad Gammat_grad0 Gammat_grad1 Gparams x t j)) ^ 2) / ells t := by
    intro t
    have e : ∀ j, alsMean (x t) (deltas t) (fullGrad Gamma0_grad Gammat_grad0 Gammat_grad1 Gparams x t) j =
        x t j + deltas t / 2 * fullGrad Gamma0_grad Gammat_grad0 Gammat_grad1 Gparams x t j := by
      intro j
      unfold alsMean
      ring
    simp only [q, alsCorrection, sumSq, e]
  have hlast : q (Fin.last (n + 1)) = p (Fin.last (n + 1)) := by
    have : fullGrad Gamma0_grad Gammat_grad0 Gammat_grad1 Gparams x (Fin.last (n + 1)) = own (Fin.last (n + 1)) := by
      show own (Fin.last (n + 1)) + snocA _ (0 : Vec d) (Fin.last (n + 1)) = _
      rw [snocA_last, add_zero]
    simp only [q, p, this]
  have hq' : ∀ t : Fin (n + 1), q t.castSucc = alsCorrection (u t.castSucc) (alsMean (x t.castSucc) (deltas t.castSucc)
      (Gammat_grad0 (x t.castSucc) (x t.succ) (Gparams t) + own t.castSucc)) (ells t.castSucc) := by
    intro t
    have : fullGrad Gamma0_grad Gammat_grad0 Gammat_grad1 Gparams x t.castSucc =
        Gammat_grad0 (x t.castSucc) (x t.succ) (Gparams t) + own t.castSucc := by
      show own t.castSucc + snocA _ (0 : Vec d) t.castSucc = _
      rw [snocA_castSucc, add_comm]
      rfl
    simp only [q, this]
  have h := telescope_sum p q hlast
  rw [Fin.sum_univ_succ] at h
  simp only [hq'] at h
  rw [← Finset.sum_congr rfl fun t _ => hq t, ← h, add_assoc]
  rfl

/-- C25: the sum of the increments of `al_csmc_s` along a trajectory of `T = n + 2` values is the log-density of the
target plus the log-densities `-|u_t - mean_t|² / ell_t` of the auxiliary variables (up to constants) around
`mean_t = x_t + delta_t / 2 * grad_t`, where `grad` is the array the code draws the auxiliary variables with. -/
theorem C25_al_csmc_s (ells deltas : Fin (n + 2) → ℝ) (Gparams : Fin (n + 1) → G) (u x : Fin (n + 2) → Vec d) :
    alsGamma0Tilde Gamma0 Gamma0_grad (x 0) (deltas 0) (ells 0) (u 0) +
      alsGamma1Tilde Gamma0_grad Gammat Gammat_grad0 Gammat_grad1 (x 0) (x 1) (alsParams1 deltas ells u Gparams).1
        (alsParams1 deltas ells u Gparams).2 +
      ∑ t : Fin n, alsGammatTilde Gammat Gammat_grad0 Gammat_grad1 (x t.castSucc.castSucc) (x t.castSucc.succ)
        (x t.succ.succ) (alsParams deltas ells u Gparams t.castSucc) (alsParams deltas ells u Gparams t.succ) =
    Gamma0 (x 0) + ∑ t : Fin (n + 1), Gammat (x t.castSucc) (x t.succ) (Gparams t) +
      ∑ t, -(∑ j, (u t j - (x t j + deltas t / 2 *
        fullGrad Gamma0_grad Gammat_grad0 Gammat_grad1 Gparams x t j)) ^ 2) / ells t := by
  rw [← correction_sum, Fin.sum_univ_succ]
  simp only [alsGamma0Tilde, alsGamma1Tilde, alsGammatTilde, alsParams1, alsParams, tailA_apply, Finset.sum_add_distrib]
  have z0 : (Fin.castSucc 0 : Fin (n + 2)) = 0 := rfl
  have z1 : (Fin.succ 0 : Fin (n + 2)) = 1 := rfl
  have z2 : ∀ t : Fin n, t.succ.castSucc = t.castSucc.succ := fun t => rfl
  simp only [z0, z1, z2]
  ring

/-- C25 for `atp_csmc_s`: the target carries the Gaussian prior. -/
theorem C25_atp_csmc_s {MP RP : Type} (M : GaussModel MP RP (n + 1) d) (rt_grad0 : Vec d → Vec d → RP → Vec d)
    (ells deltas : Fin (n + 2) → ℝ) (u x : Fin (n + 2) → Vec d) :
    atpsGamma0Tilde M (x 0) (deltas 0) (ells 0) (u 0) +
      atpsGamma1Tilde M rt_grad0 (x 0) (x 1) (atpsParams1 M deltas ells u).1 (atpsParams1 M deltas ells u).2 +
      ∑ t : Fin n, atpsGammatTilde M rt_grad0 (x t.castSucc.castSucc) (x t.castSucc.succ)
        (x t.succ.succ) (atpsParams M deltas ells u t.castSucc) (atpsParams M deltas ells u t.succ) =
    (mvn_logpdf (x 0) M.mu0 0 (some (invChol M.P0)) false + M.r0 (x 0)) +
      ∑ t : Fin (n + 1), (mvn_logpdf (x t.succ) (M.mu (x t.castSucc) (M.mu_params t)) 0 (some (invChol (M.Qs t))) false +
        M.rt (x t.castSucc) (x t.succ) (M.rt_params t)) +
      ∑ t, -(∑ j, (u t j - (x t j + deltas t / 2 *
        fullGrad M.r0_grad rt_grad0 M.rt_grad M.rt_params x t j)) ^ 2) / ells t := by
  rw [← correction_sum, Fin.sum_univ_succ]
  simp only [atpsGamma0Tilde, atpsGamma1Tilde, atpsGammatTilde, atpsParams1, atpsParams, tailA_apply,
    Finset.sum_add_distrib]
  have z0 : (Fin.castSucc 0 : Fin (n + 2)) = 0 := rfl
  have z1 : (Fin.succ 0 : Fin (n + 2)) = 1 := rfl
  have z2 : ∀ t : Fin n, t.succ.castSucc = t.castSucc.succ := fun t => rfl
  simp only [z0, z1, z2]
  ring

theorem sum_castSucc_eq (f : Fin n → ℝ) (s : Fin (n + 1)) :
    ∑ t : Fin n, (if t.castSucc = s then f t else 0) = snocA f 0 s := by
  refine Fin.lastCases ?_ (fun k => ?_) s
  · rw [snocA_last]
    exact Finset.sum_eq_zero fun t _ => if_neg (Fin.castSucc_lt_last t).ne
  · rw [snocA_castSucc]
    simp only [Fin.castSucc_inj]
    rw [Finset.sum_ite_eq' Finset.univ k f, if_pos (Finset.mem_univ _)]

theorem sum_succ_eq (a : ℝ) (f : Fin n → ℝ) (s : Fin (n + 1)) :
    (if 0 = s then a else 0) + ∑ t : Fin n, (if t.succ = s then f t else 0) = insert0 a f s := by
  refine Fin.cases ?_ (fun k => ?_) s
  · rw [if_pos rfl, Finset.sum_eq_zero fun t _ => if_neg (Fin.succ_ne_zero t), add_zero]
    rfl
  · rw [if_neg (Fin.succ_ne_zero k).symm, zero_add]
    simp only [Fin.succ_inj]
    rw [Finset.sum_ite_eq' Finset.univ k f, if_pos (Finset.mem_univ _)]
    rfl

/-- C25: with the gradients of automatic differentiation, the array `grad` of the code is the gradient of
`full_func`, the unnormalised log-density of the trajectory. -/
theorem C25_full_gradient (Gparams : Fin n → G) (h0 : Differentiable ℝ Gamma0)
    (h : ∀ g, Differentiable ℝ fun p : Vec d × Vec d => Gammat p.1 p.2 g) (x : Fin (n + 1) → Vec d) :
    fullGrad (jaxGrad Gamma0) (fun y x g => jaxGrad (fun y => Gammat y x g) y)
      (fun y x g => jaxGrad (fun x => Gammat y x g) x) Gparams x =
    jaxGrad2 (fun x => Gamma0 (x 0) + ∑ t, Gammat (x t.castSucc) (x t.succ) (Gparams t)) x := by
  funext s j
  let Φ : Fin n → Vec d × Vec d → ℝ := fun t p => Gammat p.1 p.2 (Gparams t)
  let Φ' : ∀ t : Fin n, Vec d × Vec d →L[ℝ] ℝ := fun t => fderiv ℝ (Φ t) (x t.castSucc, x t.succ)
  have hΦ : ∀ t, HasFDerivAt (Φ t) (Φ' t) (x t.castSucc, x t.succ) := fun t => (h (Gparams t) _).hasFDerivAt
  have hd : HasFDerivAt (fun x : Fin (n + 1) → Vec d => Gamma0 (x 0) + ∑ t, Gammat (x t.castSucc) (x t.succ) (Gparams t))
      ((fderiv ℝ Gamma0 (x 0)).comp (ContinuousLinearMap.proj 0) + ∑ t : Fin n, (Φ' t).comp
        ((ContinuousLinearMap.proj (R := ℝ) (φ := fun _ : Fin (n + 1) => Vec d) t.castSucc).prod
          (ContinuousLinearMap.proj t.succ))) x := by
    refine HasFDerivAt.add ((h0 _).hasFDerivAt.comp x (hasFDerivAt_apply 0 x)) ?_
    refine HasFDerivAt.fun_sum fun t _ => ?_
    exact (hΦ t).comp x ((ContinuousLinearMap.proj (R := ℝ) (φ := fun _ : Fin (n + 1) => Vec d) t.castSucc).prod
          (ContinuousLinearMap.proj t.succ)).hasFDerivAt
  have g0 : ∀ t : Fin n, jaxGrad (fun y => Gammat y (x t.succ) (Gparams t)) (x t.castSucc) j =
      Φ' t (Pi.single j 1, 0) := by
    intro t
    have := (hΦ t).comp (x t.castSucc) ((hasFDerivAt_id (𝕜 := ℝ) (x t.castSucc)).prodMk
      (hasFDerivAt_const (x t.succ) (x t.castSucc)))
    exact congrArg (fun L : Vec d →L[ℝ] ℝ => L (Pi.single j 1)) this.fderiv
  have g1 : ∀ t : Fin n, jaxGrad (fun y => Gammat (x t.castSucc) y (Gparams t)) (x t.succ) j =
      Φ' t (0, Pi.single j 1) := by
    intro t
    have := (hΦ t).comp (x t.succ) ((hasFDerivAt_const (𝕜 := ℝ) (x t.castSucc) (x t.succ)).prodMk
      (hasFDerivAt_id (x t.succ)))
    exact congrArg (fun L : Vec d →L[ℝ] ℝ => L (Pi.single j 1)) this.fderiv
  show _ = fderiv ℝ _ x (Pi.single s (Pi.single j 1))
  rw [hd.fderiv]
  have e : ∀ k : Fin (n + 1), (Pi.single s (Pi.single j 1) : Fin (n + 1) → Vec d) k =
      if k = s then Pi.single j 1 else 0 := fun k => by
    by_cases hk : k = s
    · subst hk; rw [if_pos rfl, Pi.single_eq_same]
    · rw [if_neg hk, Pi.single_eq_of_ne hk]
  have k0 : fderiv ℝ Gamma0 (x 0) ((Pi.single s (Pi.single j 1) : Fin (n + 1) → Vec d) 0) =
      if 0 = s then jaxGrad Gamma0 (x 0) j else 0 := by
    rw [e]
    split_ifs
    · rfl
    · exact map_zero _
  have k1 : ∀ t : Fin n, Φ' t ((Pi.single s (Pi.single j 1) : Fin (n + 1) → Vec d) t.castSucc,
      (Pi.single s (Pi.single j 1) : Fin (n + 1) → Vec d) t.succ) =
      (if t.castSucc = s then Φ' t (Pi.single j 1, 0) else 0) + (if t.succ = s then Φ' t (0, Pi.single j 1) else 0) := by
    intro t
    rw [e, e]
    have : ∀ a b : Vec d, Φ' t (a, b) = Φ' t (a, 0) + Φ' t (0, b) := fun a b => by
      rw [← map_add]
      simp
    rw [this]
    congr 1
    · split_ifs
      · rfl
      · exact map_zero _
    · split_ifs
      · rfl
      · exact map_zero _
  have k2 : ((fderiv ℝ Gamma0 (x 0)).comp (ContinuousLinearMap.proj (R := ℝ) (φ := fun _ : Fin (n + 1) => Vec d) 0) + ∑ t : Fin n, (Φ' t).comp
        ((ContinuousLinearMap.proj (R := ℝ) (φ := fun _ : Fin (n + 1) => Vec d) t.castSucc).prod
          (ContinuousLinearMap.proj t.succ))) (Pi.single s (Pi.single j 1)) =
      fderiv ℝ Gamma0 (x 0) ((Pi.single s (Pi.single j 1) : Fin (n + 1) → Vec d) 0) +
        ∑ t : Fin n, Φ' t ((Pi.single s (Pi.single j 1) : Fin (n + 1) → Vec d) t.castSucc,
          (Pi.single s (Pi.single j 1) : Fin (n + 1) → Vec d) t.succ) := by
    rw [add_apply, sum_apply]
    rfl
  rw [k2, k0, Finset.sum_congr rfl fun t _ => k1 t, Finset.sum_add_distrib, sum_castSucc_eq, add_comm (snocA _ _ _),
    ← add_assoc, sum_succ_eq]
  have f1 : insert0 (jaxGrad Gamma0 (x 0)) (fun t : Fin n => jaxGrad (fun y => Gammat (initA x t) y (Gparams t))
      (tailA x t)) s j = insert0 (jaxGrad Gamma0 (x 0) j) (fun t => Φ' t (0, Pi.single j 1)) s := by
    refine Fin.cases rfl (fun t => ?_) s
    exact g1 t
  have f2 : snocA (fun t : Fin n => jaxGrad (fun y => Gammat y (tailA x t) (Gparams t))
      (initA x t)) 0 s j = snocA (fun t => Φ' t (Pi.single j 1, 0)) 0 s := by
    refine Fin.lastCases ?_ (fun t => ?_) s
    · rw [snocA_last, snocA_last]; rfl
    · rw [snocA_castSucc, snocA_castSucc]; exact g0 t
  rw [← f1, ← f2]
  rfl

/-- A model meeting the hypotheses of C25: an autoregression observed in noise. -/
example (y : Fin 9 → ℝ) (x : Fin 10 → Vec 1) := C25_full_gradient (n := 9) (d := 1)
  (Gamma0 := fun x => -(x 0 ^ 2)) (Gammat := fun y x (o : ℝ) => -(x 0 - y 0) ^ 2 - (x 0 - o) ^ 2)
  y (by fun_prop) (fun g => by fun_prop) x

/-! ## C27: invariance -/

/-- `al_csmc_s.kernel` with a change `φ` of the forward arrays that puts the right parents in place. -/
theorem als_invariant_of (key : Key) (Gparams : Fin (n + 2) → G)
    {ells : Fin (n + 3) → ℝ} (deltas : Fin (n + 3) → ℝ) {resampling : Resampling Ex N} {mv : AncestorMove Ex N}
    (h0 : Measurable Gamma0) (h : ∀ g, Measurable fun p : Vec d × Vec d => Gammat p.1 p.2 g)
    (hg : Measurable Gamma0_grad) (hg0 : ∀ g, Measurable fun p : Vec d × Vec d => Gammat_grad0 p.1 p.2 g)
    (hg1 : ∀ g, Measurable fun p : Vec d × Vec d => Gammat_grad1 p.1 p.2 g)
    (hells : ∀ t, 0 < ells t) (hR : ∀ key, CondResampling (fun w i j => resampling key w i j true))
    (hmv : ∀ key, MoveInvariant (moveIndex mv key)) (backward : Bool) (φ : AlsFwd N n d → AlsFwd N n d)
    (hφ : ∀ F, (φ F).xs = F.xs ∧ (φ F).As = F.As ∧ (φ F).log_ws = F.log_ws)
    (hp : backward = true → ParentsOK Gammat Gammat_grad0 Gammat_grad1 Gparams ells deltas φ) :
    LeavesInvariant volume (pathLogDensity Gamma0 (fun t y x => Gammat y x (Gparams t)))
      (fun x b => als_kernelF φ key x b Gamma0 Gamma0_grad Gammat Gammat_grad0 Gammat_grad1 Gparams ells deltas
        resampling mv backward) := by
  have ha0 : Measurable (alsA0 Gamma0_grad deltas) := by unfold alsA0; fun_prop
  have ha : ∀ t, Measurable fun p : Vec d × Vec d => alsA Gammat_grad1 Gparams deltas t p.1 p.2 := fun t => by
    have := hg1 (Gparams t)
    unfold alsA
    fun_prop
  have hc : ∀ t, Measurable fun p : Vec d × Vec d => alsC Gammat_grad0 Gparams deltas t p.1 p.2 := fun t => by
    have := hg0 (Gparams t)
    unfold alsC
    fun_prop
  have hRt : ∀ t, CondResampling (auxR (n := n + 2) key resampling t) := fun t => hR _
  have hb : ∀ t, Measurable fun p : Vec d × Vec d => Gammat p.1 p.2 (Gparams t) := fun t => h (Gparams t)
  exact aux_mixture2 (Γ := fun t y x => Gammat y x (Gparams t)) h0 hb ha0 ha hc (auxStd_pos hells)
    (S := alsSys Gamma0 (fun t y x => Gammat y x (Gparams t)) (alsA0 Gamma0_grad deltas)
      (alsA Gammat_grad1 Gparams deltas) (alsC Gammat_grad0 Gparams deltas) (auxStd ells) (auxR key resampling))
    (fun u => alsSys_OK h0 hb ha0 ha hc (auxStd_pos hells) hRt u) (alsSys_meas h0 hb ha0 ha hc hRt)
    (fun u f _ => rfl) (fun u t y f _ => rfl) (hmv (auxMoveKey key (n + 2) backward)) backward fun x b f hf =>
    als_kernel_eq key x b Gparams deltas backward h0 h hg hg0 hg1 hells hR (fun key => (hmv key).ker) φ hφ hp f hf

/-- The increment at time two does not depend on the value at time zero exactly when the inner product of the two
gradients at time one does not. -/
theorem C27_parent_free_iff (Gparams : Fin (n + 2) → G) {ells : Fin (n + 3) → ℝ} (hells : ∀ t, 0 < ells t)
    (deltas : Fin (n + 3) → ℝ) {u : Fin (n + 3) → Vec d} :
    (∀ y y' x x', alsGammatTilde Gammat Gammat_grad0 Gammat_grad1 y x x' (alsParams deltas ells u Gparams 0)
        (alsParams deltas ells u Gparams 1) =
      alsGammatTilde Gammat Gammat_grad0 Gammat_grad1 y' x x' (alsParams deltas ells u Gparams 0)
        (alsParams deltas ells u Gparams 1)) ↔
    ∀ y y' x x', deltas 1 * ∑ j, Gammat_grad1 y x (Gparams 0) j * Gammat_grad0 x x' (Gparams 1) j =
      deltas 1 * ∑ j, Gammat_grad1 y' x (Gparams 0) j * Gammat_grad0 x x' (Gparams 1) j := by
  have e : ∀ y x x', alsGammatTilde Gammat Gammat_grad0 Gammat_grad1 y x x' (alsParams deltas ells u Gparams 0)
        (alsParams deltas ells u Gparams 1) = Gammat x x' (Gparams 1) +
      alsCorrection (u 2) (alsMean x' (deltas 2) (Gammat_grad1 x x' (Gparams 1))) (ells 2) +
      (∑ j, deltas 1 * Gammat_grad0 x x' (Gparams 1) j * (u 1 j - x j - deltas 1 / 4 * Gammat_grad0 x x' (Gparams 1) j)) /
        ells 1 - deltas 1 / (2 * ells 1) *
        (deltas 1 * ∑ j, Gammat_grad1 y x (Gparams 0) j * Gammat_grad0 x x' (Gparams 1) j) := by
    intro y x x'
    have q : ∀ g g' : Vec d, alsCorrection (u 1) (alsMean x (deltas 1) (g + g')) (ells 1) -
        alsCorrection (u 1) (alsMean x (deltas 1) g') (ells 1) =
        (∑ j, deltas 1 * g j * (u 1 j - x j - deltas 1 / 4 * g j)) /
        ells 1 - deltas 1 / (2 * ells 1) * (deltas 1 * ∑ j, g' j * g j) := by
      intro g g'
      have h1 := (hells 1).ne'
      simp only [alsCorrection, sumSq, alsMean, Pi.add_apply]
      rw [neg_div, neg_div, Finset.sum_div, Finset.sum_div, Finset.sum_div, Finset.mul_sum, Finset.mul_sum,
        sub_neg_eq_add, neg_add_eq_sub, ← Finset.sum_sub_distrib, ← Finset.sum_sub_distrib]
      refine Finset.sum_congr rfl fun j _ => ?_
      field_simp
      ring
    have h2 := q (Gammat_grad0 x x' (Gparams 1)) (Gammat_grad1 y x (Gparams 0))
    show Gammat x x' (Gparams 1) + (_ + alsCorrection (u 2) (alsMean x' (deltas 2) (Gammat_grad1 x x' (Gparams 1)))
      (ells 2) - _) = _
    have h3 : ∀ a b c d : ℝ, a + (b + c - d) = a + c + (b - d) := fun a b c d => by ring
    rw [h3]
    refine Eq.trans (congrArg (fun z => Gammat x x' (Gparams 1) + alsCorrection (u 2) (alsMean x' (deltas 2)
      (Gammat_grad1 x x' (Gparams 1))) (ells 2) + z) h2) ?_
    ring
  simp only [e]
  refine forall_congr' fun y => forall_congr' fun y' => forall_congr' fun x => forall_congr' fun x' => ?_
  rw [sub_right_inj]
  by_cases hd : deltas 1 = 0
  · simp [hd]
  · exact mul_right_inj' (div_ne_zero hd (mul_ne_zero two_ne_zero (hells 1).ne'))

/-- C27, partial: `al_csmc_s.kernel` leaves the target invariant with backward scanning (`backward = False`), and with
backward sampling if the inner product, at time one, of the gradients of the two potentials that involve that time
does not depend on the value at time zero, e.g. if the potentials are univariate.  Missing: backward sampling for the other models, because of the wrong parents of C26; see
`C27_repaired_invariant`. -/
theorem C27_al_csmc_s_invariant_partial (key : Key) (Gparams : Fin (n + 2) → G)
    {ells : Fin (n + 3) → ℝ} (deltas : Fin (n + 3) → ℝ) {resampling : Resampling Ex N} {mv : AncestorMove Ex N}
    (h0 : Measurable Gamma0) (h : ∀ g, Measurable fun p : Vec d × Vec d => Gammat p.1 p.2 g)
    (hg : Measurable Gamma0_grad) (hg0 : ∀ g, Measurable fun p : Vec d × Vec d => Gammat_grad0 p.1 p.2 g)
    (hg1 : ∀ g, Measurable fun p : Vec d × Vec d => Gammat_grad1 p.1 p.2 g)
    (hells : ∀ t, 0 < ells t) (hR : ∀ key, CondResampling (fun w i j => resampling key w i j true))
    (hmv : ∀ key, MoveInvariant (fun w k => do
      let r ← mv key w k
      pure r.1)) (backward : Bool)
    (hb : backward = true → ∀ y y' x x', deltas 1 * ∑ j, Gammat_grad1 y x (Gparams 0) j * Gammat_grad0 x x' (Gparams 1) j =
      deltas 1 * ∑ j, Gammat_grad1 y' x (Gparams 0) j * Gammat_grad0 x x' (Gparams 1) j) :
    LeavesInvariant volume (pathLogDensity Gamma0 (fun t y x => Gammat y x (Gparams t)))
      (fun x b => do
        let r ← als_kernel key x b Gamma0 Gamma0_grad Gammat Gammat_grad0 Gammat_grad1 Gparams ells deltas
          resampling mv backward
        pure (r.xs, r.Bs)) := by
  have := als_invariant_of key Gparams deltas h0 h hg hg0 hg1 hells hR hmv backward id (fun F => ⟨rfl, rfl, rfl⟩)
    (fun hbt u S xs hh hp t i x x' => by
      revert i x x'
      refine Fin.cases (fun i x x' => ?_) (fun t i x x' => rfl) t
      exact (C27_parent_free_iff Gparams hells deltas (Gammat := Gammat) (u := u)).mpr (hb hbt) _ _ _ _)
  simp only [← als_kernel_eq_F] at this
  exact this

/-- The first entry of the array of parents as it should be: the parents of the particles of time one. -/
def alsFix (F : AlsFwd N n d) : AlsFwd N n d :=
  { F with xs_m_1 := insert0 (take (F.xs 0) (F.As 0)) (tailA F.xs_m_1) }

/-- C27 for the repaired code: with `xs_m_1_out = jnp.insert(xs_m_1_out, 0, x0, axis=0)` in place of line 232, the
kernel leaves the target invariant for every model, in both modes. -/
theorem C27_repaired_invariant (key : Key) (Gparams : Fin (n + 2) → G)
    {ells : Fin (n + 3) → ℝ} (deltas : Fin (n + 3) → ℝ) {resampling : Resampling Ex N} {mv : AncestorMove Ex N}
    (h0 : Measurable Gamma0) (h : ∀ g, Measurable fun p : Vec d × Vec d => Gammat p.1 p.2 g)
    (hg : Measurable Gamma0_grad) (hg0 : ∀ g, Measurable fun p : Vec d × Vec d => Gammat_grad0 p.1 p.2 g)
    (hg1 : ∀ g, Measurable fun p : Vec d × Vec d => Gammat_grad1 p.1 p.2 g)
    (hells : ∀ t, 0 < ells t) (hR : ∀ key, CondResampling (fun w i j => resampling key w i j true))
    (hmv : ∀ key, MoveInvariant (fun w k => do
      let r ← mv key w k
      pure r.1)) (backward : Bool) :
    LeavesInvariant volume (pathLogDensity Gamma0 (fun t y x => Gammat y x (Gparams t)))
      (fun x b => als_kernelF alsFix key x b Gamma0 Gamma0_grad Gammat Gammat_grad0 Gammat_grad1 Gparams ells deltas
        resampling mv backward) :=
  als_invariant_of key Gparams deltas h0 h hg hg0 hg1 hells hR hmv backward alsFix (fun F => ⟨rfl, rfl, rfl⟩)
    (fun _ u S xs hh hp t i x x' => by
      revert i x x'
      refine Fin.cases (fun i x x' => ?_) (fun t i x x' => rfl) t
      have := hp.succ 0 i
      show alsGammatTilde _ _ _ (xs 0 (hh.1 0 i)) x x' _ _ = alsGammatTilde _ _ _ (hh.2 (Fin.succ 0) i).1 x x' _ _
      rw [this]
      rfl)

/-- C27, partial, with killing resampling and the Barker move. -/
theorem C27_killing_barker_partial (key : Key) (Gparams : Fin (n + 2) → G)
    {ells : Fin (n + 3) → ℝ} (deltas : Fin (n + 3) → ℝ)
    (h0 : Measurable Gamma0) (h : ∀ g, Measurable fun p : Vec d × Vec d => Gammat p.1 p.2 g)
    (hg : Measurable Gamma0_grad) (hg0 : ∀ g, Measurable fun p : Vec d × Vec d => Gammat_grad0 p.1 p.2 g)
    (hg1 : ∀ g, Measurable fun p : Vec d × Vec d => Gammat_grad1 p.1 p.2 g)
    (hells : ∀ t, 0 < ells t) (backward : Bool)
    (hb : backward = true → ∀ y y' x x', deltas 1 * ∑ j, Gammat_grad1 y x (Gparams 0) j * Gammat_grad0 x x' (Gparams 1) j =
      deltas 1 * ∑ j, Gammat_grad1 y' x (Gparams 0) j * Gammat_grad0 x x' (Gparams 1) j) :
    LeavesInvariant (N := N) volume (pathLogDensity Gamma0 (fun t y x => Gammat y x (Gparams t)))
      (fun x b => do
        let r ← als_kernel key x b Gamma0 Gamma0_grad Gammat Gammat_grad0 Gammat_grad1 Gparams ells deltas
          (fun key w i j c => killing key w i j c) (fun key w k => barker_move key w k) backward
        pure (r.xs, r.Bs)) :=
  C27_al_csmc_s_invariant_partial key Gparams deltas h0 h hg hg0 hg1 hells (fun key => killing_condResampling key)
    (fun key => barker_moveInvariant key) backward hb

/-- C27, partial, with multinomial resampling and the Barker move. -/
theorem C27_multinomial_barker_partial (key : Key) (Gparams : Fin (n + 2) → G)
    {ells : Fin (n + 3) → ℝ} (deltas : Fin (n + 3) → ℝ)
    (h0 : Measurable Gamma0) (h : ∀ g, Measurable fun p : Vec d × Vec d => Gammat p.1 p.2 g)
    (hg : Measurable Gamma0_grad) (hg0 : ∀ g, Measurable fun p : Vec d × Vec d => Gammat_grad0 p.1 p.2 g)
    (hg1 : ∀ g, Measurable fun p : Vec d × Vec d => Gammat_grad1 p.1 p.2 g)
    (hells : ∀ t, 0 < ells t) (backward : Bool)
    (hb : backward = true → ∀ y y' x x', deltas 1 * ∑ j, Gammat_grad1 y x (Gparams 0) j * Gammat_grad0 x x' (Gparams 1) j =
      deltas 1 * ∑ j, Gammat_grad1 y' x (Gparams 0) j * Gammat_grad0 x x' (Gparams 1) j) :
    LeavesInvariant (N := N) volume (pathLogDensity Gamma0 (fun t y x => Gammat y x (Gparams t)))
      (fun x b => do
        let r ← als_kernel key x b Gamma0 Gamma0_grad Gammat Gammat_grad0 Gammat_grad1 Gparams ells deltas
          (fun key w i j c => multinomial key w i j c) (fun key w k => barker_move key w k) backward
        pure (r.xs, r.Bs)) :=
  C27_al_csmc_s_invariant_partial key Gparams deltas h0 h hg hg0 hg1 hells (fun key => multinomial_condResampling key)
    (fun key => barker_moveInvariant key) backward hb

/-- A concrete model with its gradients meeting the hypotheses of C27 with backward scanning. -/
example (y : Fin 9 → ℝ) := C27_killing_barker_partial (N := 25) (n := 7) (d := 1) []
  (Gamma0 := fun x => -(x 0 ^ 2)) (Gamma0_grad := fun x _ => -2 * x 0)
  (Gammat := fun y x (o : ℝ) => -(x 0 - y 0) ^ 2 - (x 0 - o) ^ 2)
  (Gammat_grad0 := fun y x (_ : ℝ) _ => 2 * (x 0 - y 0))
  (Gammat_grad1 := fun y x (o : ℝ) _ => -2 * (x 0 - y 0) - 2 * (x 0 - o))
  y (ells := fun t => 1 + t) (fun t => 2 + t) (by fun_prop) (fun g => by fun_prop) (by fun_prop)
  (fun g => by fun_prop) (fun g => by fun_prop) (fun t => by positivity) false (by simp)

/-- A concrete model with its gradients meeting the hypotheses of C27 with backward sampling: the first potential
is a function of its second argument only. -/
example := C27_multinomial_barker_partial (N := 25) (n := 7) (d := 1) []
  (Gamma0 := fun x => -(x 0 ^ 2)) (Gamma0_grad := fun x _ => -2 * x 0)
  (Gammat := fun y x (o : ℝ) => -(x 0 - y 0) ^ 2 * o - (x 0) ^ 2)
  (Gammat_grad0 := fun y x (o : ℝ) _ => 2 * (x 0 - y 0) * o)
  (Gammat_grad1 := fun y x (o : ℝ) _ => -2 * (x 0 - y 0) * o - 2 * x 0)
  (fun t => (t : ℝ)) (ells := fun t => 1 + t) (fun t => 2 + t) (by fun_prop) (fun g => by fun_prop) (by fun_prop)
  (fun g => by fun_prop) (fun g => by fun_prop) (fun t => by positivity) true (fun _ y y' x x' => by simp)

/-- A concrete model meeting the hypotheses of C27 for the repaired code. -/
example (y : Fin 9 → ℝ) := C27_repaired_invariant (N := 25) (n := 7) (d := 1) []
  (Gamma0 := fun x => -(x 0 ^ 2)) (Gamma0_grad := fun x _ => -2 * x 0)
  (Gammat := fun y x (o : ℝ) => -(x 0 - y 0) ^ 2 - (x 0 - o) ^ 2)
  (Gammat_grad0 := fun y x (_ : ℝ) _ => 2 * (x 0 - y 0))
  (Gammat_grad1 := fun y x (o : ℝ) _ => -2 * (x 0 - y 0) - 2 * (x 0 - o))
  y (ells := fun t => 1 + t) (fun t => 2 + t) (by fun_prop) (fun g => by fun_prop) (by fun_prop)
  (fun g => by fun_prop) (fun g => by fun_prop) (fun t => by positivity) (fun key => killing_condResampling key)
  (fun key => barker_moveInvariant key) true

end Verif.Props
