import Verif.Props.MultiTryInv
import Verif.Props.ExpInvariance

/-!
# C44: the multi-try kernels of the experiments

`get_tp_kernel`, `get_mala_kernel` (also with `stop_gradient`, the kernel `RW`) and `get_imh_kernel` of `lgssm_scaling`
have the posterior as target; so has `get_tp_kernel` of `stochastic_volatility`.  `get_mala_kernel` of
`stochastic_volatility` has another target (see C55).
-/

open MeasureTheory
open scoped ENNReal

namespace Verif.Props
open Verif Verif.Model Verif.Spec Matrix

variable {N n d T : ℕ}

theorem measurable_jaxGrad2 (f : Traj T d → ℝ) : Measurable (jaxGrad2 f) :=
  measurable_pi_lambda _ fun _ => measurable_pi_lambda _ fun _ => measurable_fderiv_apply_const _ _ _

theorem measurable_lg_log_likelihood (ys : Traj T d) : Measurable fun xs : Traj T d => lg_log_likelihood xs ys :=
  Finset.measurable_fun_sum _ fun t _ => (continuous_lg_log_potential (ys t)).measurable.comp (measurable_pi_apply t)

theorem measurable_sv_log_likelihood (ys : Traj T d) : Measurable fun xs : Traj T d => sv_log_likelihood xs ys :=
  Finset.measurable_fun_sum _ fun t _ => (continuous_sv_log_potential (ys t)).measurable.comp (measurable_pi_apply t)

/-- Adding a constant to the log-target changes nothing. -/
theorem stateNear_add_const {X S : Type} [MeasurableSpace X] [MeasurableSpace S] {ε : ℝ≥0∞} {lam : Measure X}
    {l l' : X → ℝ} {c : ℝ} (h : ∀ x, l x = l' x + c) {init : X → S} {K : S → Ex S}
    (hK : StateNearInvariant ε lam l init K) : StateNearInvariant ε lam l' init K := by
  have e : ∀ F : X → ℝ≥0∞, ∫⁻ x, ENNReal.ofReal (Real.exp (l x)) * F x ∂lam =
      ENNReal.ofReal (Real.exp c) * ∫⁻ x, ENNReal.ofReal (Real.exp (l' x)) * F x ∂lam := by
    intro F
    rw [← lintegral_const_mul' _ _ ENNReal.ofReal_ne_top]
    refine lintegral_congr fun x => ?_
    rw [h x, ofReal_exp_add]
    ring
  have e1 : ∫⁻ x, ENNReal.ofReal (Real.exp (l x)) ∂lam =
      ENNReal.ofReal (Real.exp c) * ∫⁻ x, ENNReal.ofReal (Real.exp (l' x)) ∂lam := by
    have := e fun _ => 1
    simpa only [mul_one] using this
  have hc0 : ENNReal.ofReal (Real.exp c) ≠ 0 := by simp [Real.exp_pos]
  intro f hf hf1
  obtain ⟨h1, h2⟩ := hK f hf hf1
  simp only [e, e1] at h1 h2
  have hm : ∀ a b m : ℝ≥0∞, ENNReal.ofReal (Real.exp c) * a ≤ ENNReal.ofReal (Real.exp c) * b +
      ε * (ENNReal.ofReal (Real.exp c) * m) → a ≤ b + ε * m := by
    intro a b m hab
    have : ENNReal.ofReal (Real.exp c) * a ≤ ENNReal.ofReal (Real.exp c) * (b + ε * m) := by
      refine hab.trans (le_of_eq ?_)
      ring
    exact (ENNReal.mul_le_mul_iff_right hc0 ENNReal.ofReal_ne_top).1 this
  exact ⟨hm _ _ _ h1, hm _ _ _ h2⟩

/-! ## `lgssm_scaling` -/

section lgssm
variable (ys : Traj (n + 1) d) {sigma : ℝ} (hs : 0 < sigma)

theorem lg_mtTarget : mtTarget (lgDyn sigma n d) (fun xs => lg_log_likelihood xs ys) = lgTarget sigma ys :=
  funext fun x => C55_lgssm_tp sigma ys x

include hs

/-- **C44** (`lgssm`, `TP`). -/
theorem C44_lgssm_tp {delta : ℝ} (hd : 0 < delta) (key : Key) (N : ℕ) :
    StateNearInvariant forceErr (trajVol (n + 1) d) (lgTarget sigma ys)
      (tp_init (fun xs => lg_log_likelihood xs ys) (jaxGrad2 fun xs => lg_log_likelihood xs ys)) (fun s => do
        let r ← lg_tp_kernel ys sigma N key s delta
        pure r.1) := by
  rw [← lg_mtTarget ys]
  exact C44_tp hd (posDef_smul_one (pow_pos hs 2)) (fun _ => posDef_smul_one (pow_pos hs 2))
    (measurable_lg_log_likelihood ys) (measurable_jaxGrad2 _) key N

/-- **C44** (`lgssm`, `MALA` with both styles and, with `stop`, `RW`). -/
theorem C44_lgssm_mala {delta : ℝ} (hd : 0 < delta) (auxiliary stop : Bool) (key : Key) (N : ℕ) :
    StateNearInvariant forceErr (trajVol (n + 1) d) (lgTarget sigma ys)
      (tp_init (fun xs => lg_log_pdf xs ys sigma)
        (fun xs => if stop then 0 else jaxGrad2 (fun xs => lg_log_pdf xs ys sigma) xs)) (fun s => do
        let r ← lg_mala_kernel ys sigma N auxiliary stop key s delta
        pure r.1) := by
  have h : lgTarget sigma ys = fun xs => lg_log_pdf xs ys sigma := funext fun x => (C55_lgssm_mala hs ys x).symm
  have hl : Measurable fun xs => lg_log_pdf xs ys sigma := by
    rw [← h, ← lg_mtTarget ys]
    exact measurable_mtTarget _ (measurable_lg_log_likelihood ys)
  have hg : Measurable fun xs => if stop then (0 : Traj (n + 1) d) else jaxGrad2 (fun xs => lg_log_pdf xs ys sigma) xs := by
    cases stop
    · exact measurable_jaxGrad2 _
    · exact measurable_const
  rw [h]
  exact C44_mala hd hl hg key N auxiliary

/-- **C44** (`lgssm`, `IMH`). -/
theorem C44_lgssm_imh (key : Key) (N : ℕ) :
    StateNearInvariant forceErr (trajVol (n + 1) d) (lgTarget sigma ys)
      (imh_init fun xs => lg_log_likelihood xs ys) (fun s => do
        let r ← lg_imh_kernel ys sigma N key s
        pure r.1) := by
  rw [← lg_mtTarget ys]
  exact C44_imh (posDef_smul_one (pow_pos hs 2)) (fun _ => posDef_smul_one (pow_pos hs 2))
    (measurable_lg_log_likelihood ys) key N

end lgssm

/-- An instance of the experiment. -/
example (ys : Traj 10 3) (key : Key) (auxiliary stop : Bool) :=
  C44_lgssm_mala ys (sigma := 0.1) (by norm_num) (delta := 0.01) (by norm_num) auxiliary stop key 25

/-! ## `stochastic_volatility` -/

section sv
variable (ys : Traj (n + 1) d) {D : SvDyn d} (hP : D.P0.PosDef) (hQ : D.Q.PosDef)
include hP hQ

/-- **C44** (stochastic volatility, `TP`). -/
theorem C44_sv_tp {delta : ℝ} (hd : 0 < delta) (key : Key) (N : ℕ) :
    StateNearInvariant forceErr (trajVol (n + 1) d) (svTarget D.m0 D.P0 D.F D.Q D.b ys)
      (tp_init (fun xs => sv_log_likelihood xs ys) (jaxGrad2 fun xs => sv_log_likelihood xs ys)) (fun s => do
        let r ← sv_tp_kernel ys D N key s delta
        pure r.1) := by
  have h : svTarget D.m0 D.P0 D.F D.Q D.b ys = mtTarget (svDyn D n) (fun xs => sv_log_likelihood xs ys) :=
    funext fun x => (C55_sv_tp D ys x).symm
  rw [h]
  exact C44_tp hd hP (fun _ => hQ) (measurable_sv_log_likelihood ys) (measurable_jaxGrad2 _) key N

/-- **C44** (stochastic volatility, `MALA` with both styles): the target is that of the model with `F` replaced by
`diag(b) F` and `b` by zero. -/
theorem C44_sv_mala {delta : ℝ} (hd : 0 < delta) (auxiliary : Bool) (key : Key) (N : ℕ) :
    StateNearInvariant forceErr (trajVol (n + 1) d) (svTarget D.m0 D.P0 (diagonal D.b * D.F) D.Q 0 ys)
      (tp_init (svFullLogPdf ys D) (jaxGrad2 (svFullLogPdf ys D))) (fun s => do
        let r ← sv_mala_kernel ys D N auxiliary key s delta
        pure r.1) := by
  obtain ⟨c, hc⟩ := C55_sv_mala_target hP hQ ys
  have hl : Measurable (svFullLogPdf ys D) := by
    rw [funext hc]
    refine Measurable.add_const ?_ c
    have h := funext fun x => C55_sv_tp { D with F := diagonal D.b * D.F, b := 0 } ys x
    exact h ▸ measurable_mtTarget (svDyn { D with F := diagonal D.b * D.F, b := 0 } n) (measurable_sv_log_likelihood ys)
  exact stateNear_add_const hc (C44_mala hd hl (measurable_jaxGrad2 _) key N auxiliary)

end sv

/-- Log-density of independent states `x_0 ~ N(0, P0)`, `x_t ~ N(0, Q)`, observed with `y_t ~ N(0, diag(exp x_t))`. -/
noncomputable def svIndependent (P0 Q : Matrix (Fin d) (Fin d) ℝ) (ys x : Fin (n + 1) → Fin d → ℝ) : ℝ :=
  normalLogpdf 0 P0 (x 0) + ∑ t : Fin n, normalLogpdf 0 Q (x t.succ) + svObs ys x

/-- **C44** (stochastic volatility, `MALA`, with `NU = 0` as in `experiment.py`): the kernel samples from a model without
dynamics, whatever `phi` is. -/
theorem C44_sv_mala_experiment {phi tau rho : ℝ} (hphi : phi ^ 2 < 1) (ht : 0 < tau) (h0 : 0 ≤ rho) (h1 : rho < 1)
    (ys : Traj (n + 1) d) {delta : ℝ} (hd : 0 < delta) (auxiliary : Bool) (key : Key) (N : ℕ) :
    let D := get_dynamics 0 phi tau rho d
    StateNearInvariant forceErr (trajVol (n + 1) d) (svIndependent D.P0 D.Q ys)
      (tp_init (svFullLogPdf ys D) (jaxGrad2 (svFullLogPdf ys D))) (fun s => do
        let r ← sv_mala_kernel ys D N auxiliary key s delta
        pure r.1) := by
  intro D
  have hb : D.b = 0 := by
    show (fun _ => (0 : ℝ) * 1) + (phi • (1 : Mat d d)) *ᵥ (fun _ => (0 : ℝ) * 1) = 0
    rw [show (fun _ : Fin d => (0 : ℝ) * 1) = 0 from funext fun _ => zero_mul _, mulVec_zero, add_zero]
  have hm : D.m0 = 0 := funext fun _ => zero_mul _
  have h := C44_sv_mala ys (sv_P0_posDef 0 hphi ht h0 h1 d) (sv_Q_posDef 0 phi ht h0 h1 d) hd auxiliary key N
  have e : svTarget D.m0 D.P0 (diagonal D.b * D.F) D.Q 0 ys = svIndependent D.P0 D.Q ys := by
    funext x
    simp only [svTarget, svIndependent, gaussPathLog, pathLogDensity, hb, hm]
    rw [show (diagonal 0 : Mat d d) = 0 from diagonal_zero, Matrix.zero_mul]
    simp only [zero_mulVec, add_zero]
  exact e ▸ h

example (ys : Traj 128 30) (key : Key) := C44_sv_mala_experiment (phi := 0.9) (tau := 0.1) (rho := 0.25) (by norm_num)
  (by norm_num) (by norm_num) (by norm_num) ys (delta := 0.1) (by norm_num) true key 31

/-- An instance of the experiment (`nu = 0`, `phi = 0.9`, `tau = 2`, `rho = 0.25`, `d = 5`). -/
example (ys : Traj 10 5) (key : Key) := C44_sv_tp ys (sv_P0_posDef 0 (phi := 0.9) (tau := 2) (rho := 0.25) (by norm_num)
  (by norm_num) (by norm_num) (by norm_num) 5) (sv_Q_posDef 0 0.9 (by norm_num) (by norm_num) (by norm_num) 5)
  (delta := 0.1) (by norm_num) key 25

end Verif.Props
