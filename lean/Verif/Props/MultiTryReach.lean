import Verif.Lemmas.MultiTryReach
import Verif.Props.ExpMultiTry

/-!
# C82: the multi-try kernels can go everywhere and have at most one invariant law
-/

open MeasureTheory
open scoped ENNReal

namespace Verif.Props
open Verif Verif.Model Verif.Spec Matrix

variable {N n d T : ℕ}

/-! ## `mala.py` -/

section mala
variable {delta : ℝ} (hd : 0 < delta) {log_pdf : Traj T d → ℝ} (hl : Measurable log_pdf) {grad : Traj T d → Traj T d}
  (hg : Measurable grad)
include hd hl hg

/-- **C82** (`mala.kernel`, with or without the auxiliary variable, at least one proposal): from every state, also one whose
cached values are wrong, one step reaches every set of positive measure, with the right cached values; the chain has at most one
invariant law; and under an invariant law the cached values are right. -/
theorem C82_mala (key : Key) (hN : N ≠ 0) (auxiliary : Bool) :
    let K := fun s => (do
      let r ← mala_kernel key s delta log_pdf grad N auxiliary
      pure r.1 : Ex (VGState T d))
    Reaches ((trajVol T d).map (tp_init log_pdf grad)) K ∧ AtMostOneInvariant K ∧ CacheSettles (fun x => (log_pdf x, grad x)) K :=
  stateOnly trajVol_ne (hl.prodMk hg) (measurableSet_eq_fun measurable_snd ((hl.prodMk hg).comp measurable_fst))
    (mala_step_ker hl hg key delta N auxiliary) (fun s => mala_step_mass key s delta log_pdf grad N auxiliary)
    (fun s f hf => mala_reach hd hl hg hN key auxiliary s f hf) (fun x f => mala_cached key auxiliary delta log_pdf grad x f)

end mala

/-- A Gaussian target with its gradient: five proposals, three times, dimension two. -/
example (key : Key) (auxiliary : Bool) := C82_mala (N := 5) (T := 3) (d := 2) (delta := 0.7) (by norm_num)
  (log_pdf := fun x => -0.5 * ∑ t, ∑ j, x t j ^ 2) (by fun_prop) (grad := fun x t j => -x t j) (by fun_prop) key (by norm_num) auxiliary

/-! ## `tp.py` -/

section tp
variable {delta : ℝ} (hd : 0 < delta) {D : Dyn n d} (hP : D.P0.PosDef) (hQ : ∀ t, (D.Qs t).PosDef)
  {log_pdf : Traj (n + 1) d → ℝ} (hl : Measurable log_pdf) {grad : Traj (n + 1) d → Traj (n + 1) d} (hg : Measurable grad)
include hd hP hQ hl hg

/-- **C82** (the kernel of `tp.get_kernel`). -/
theorem C82_tp (key : Key) (hN : N ≠ 0) :
    let K := fun s => (do
      let r ← tp_kernel key s delta D log_pdf grad N
      pure r.1 : Ex (VGState (n + 1) d))
    Reaches ((trajVol (n + 1) d).map (tp_init log_pdf grad)) K ∧ AtMostOneInvariant K ∧
      CacheSettles (fun x => (log_pdf x, grad x)) K :=
  stateOnly trajVol_ne (hl.prodMk hg) (measurableSet_eq_fun measurable_snd ((hl.prodMk hg).comp measurable_fst))
    (tp_step_ker hP hQ hd hl hg key N) (fun s => tp_step_mass hP hQ hd log_pdf grad key N s)
    (fun s f hf => mtp_reach hd hP hQ hl hg hN key s f hf) (fun x f => mtp_cached key delta D log_pdf grad x f)

end tp

/-- An autoregressive prior in dimension two observed in noise. -/
noncomputable example (key : Key) (ys : Traj 4 2) := C82_tp (N := 5) (delta := 0.3) (by norm_num)
  (D := (⟨0, 1, fun _ => !![0.9, 0.1; 0, 0.8], fun _ => (0.5 : ℝ) • 1, fun _ => ![1, 0]⟩ : Dyn 3 2)) PosDef.one
  (fun _ => posDef_smul_one (by norm_num)) (log_pdf := fun x => -0.5 * ∑ t, ∑ j, (x t j - ys t j) ^ 2) (by fun_prop)
  (grad := fun x t j => ys t j - x t j) (by fun_prop) key (by norm_num)

/-! ## `imh.py` -/

section imh
variable {D : Dyn n d} (hP : D.P0.PosDef) (hQ : ∀ t, (D.Qs t).PosDef) {log_pdf : Traj (n + 1) d → ℝ} (hl : Measurable log_pdf)
include hP hQ hl

/-- **C82** (the kernel of `imh.get_kernel`). -/
theorem C82_imh (key : Key) (hN : N ≠ 0) :
    let K := fun s => (do
      let r ← imh_kernel key s D log_pdf N
      pure r.1 : Ex (Traj (n + 1) d × ℝ))
    Reaches ((trajVol (n + 1) d).map (imh_init log_pdf)) K ∧ AtMostOneInvariant K ∧ CacheSettles log_pdf K :=
  stateOnly trajVol_ne hl (measurableSet_eq_fun measurable_snd (hl.comp measurable_fst))
    (imh_step_ker hP hQ hl key N) (fun s => imh_step_mass hP hQ log_pdf key N s)
    (fun s f hf => imh_reach hP hQ hl hN key s f hf) (fun x f => imh_cached key D log_pdf x f)

end imh

/-- The same prior and observations. -/
noncomputable example (key : Key) (ys : Traj 4 2) := C82_imh (N := 5)
  (D := (⟨0, 1, fun _ => !![0.9, 0.1; 0, 0.8], fun _ => (0.5 : ℝ) • 1, fun _ => ![1, 0]⟩ : Dyn 3 2)) PosDef.one
  (fun _ => posDef_smul_one (by norm_num)) (log_pdf := fun x => -0.5 * ∑ t, ∑ j, (x t j - ys t j) ^ 2) (by fun_prop)
  key (by norm_num)

/-! ## Without proposals -/

/-- With a single candidate the selection does nothing. -/
theorem select_single {S E : Type} {D : Ex E} [MeasurableSpace E] (hD : IsKer fun _ : Unit => D) (h1 : D (fun _ => 1) = 1)
    {W : E → Fin 1 → ℝ} (hp : ∀ e, IsProb (W e)) {g : E → Fin 1 → S} {s : S} (hg : ∀ e, g e 0 = s) (key : Key) (f : S → ℝ≥0∞) :
    drawSelect D W g (forcedIdx key) f = f s := by
  have e : ∀ e, forcedIdx key (W e) 0 (fun i => f (g e i)) = f s := fun e => by
    have h : (fun i => f (g e i)) = fun _ => f s := funext fun i => by rw [Subsingleton.elim i 0, hg]
    rw [h]
    have hk := (force_moveKer (N := 0) key).const_fun (W e, 0) (f s)
    exact hk.trans (by rw [show moveIndex (fun key w k => force_move key w k) key (W e) 0 (fun _ => 1) = 1 from force_mass key (hp e) 0,
      mul_one])
  show D (fun e => forcedIdx key (W e) 0 fun i => f (g e i)) = f s
  simp only [e]
  exact (hD.const_fun () (f s)).trans (by rw [h1, mul_one])

/-- **C82** (sharpness): without proposals (`N = 0`) each of the three kernels stays where it is, so that every law is invariant. -/
theorem C82_sharp {delta : ℝ} (hd : 0 < delta) {D : Dyn n d} (hP : D.P0.PosDef) (hQ : ∀ t, (D.Qs t).PosDef)
    (log_pdf : Traj (n + 1) d → ℝ) (grad : Traj (n + 1) d → Traj (n + 1) d) (key : Key) (auxiliary : Bool) :
    (∀ s f, (do
      let r ← mala_kernel key s delta log_pdf grad 0 auxiliary
      pure r.1 : Ex (VGState (n + 1) d)) f = f s) ∧
    (∀ s f, (do
      let r ← tp_kernel key s delta D log_pdf grad 0
      pure r.1 : Ex (VGState (n + 1) d)) f = f s) ∧
    ∀ s f, (do
      let r ← imh_kernel key s D log_pdf 0
      pure r.1 : Ex (Traj (n + 1) d × ℝ)) f = f s := by
  refine ⟨fun s f => ?_, fun s f => ?_, fun s f => ?_⟩
  · refine (congrFun (mala_step_eq key s delta log_pdf grad 0 auxiliary) f).trans ?_
    exact select_single (malaNoise_ker key) (malaNoise_mass key) (fun e => normalize_isProb _) (fun e => rfl) _ f
  · refine (congrFun (tp_step_eq key s delta D log_pdf grad 0) f).trans ?_
    exact select_single ((mtpNoise_ker hP hQ hd key).comp (g := fun _ : Unit => s) measurable_const) (mtpNoise_mass hP hQ hd key s)
      (fun e => normalize_isProb _) (fun e => rfl) _ f
  · refine (congrFun (imh_step_eq key s D log_pdf 0) f).trans ?_
    exact select_single (imh_draws_ker hP hQ _) (imh_draws_mass hP hQ _) (fun e => normalize_isProb _) (fun e => rfl) _ f

/-! ## The experiments -/

/-- **C82** (`lgssm`, `TP`, `MALA` with both styles, `RW`, and `IMH`). -/
theorem C82_lgssm (ys : Traj (n + 1) d) {sigma : ℝ} (hs : 0 < sigma) {delta : ℝ} (hd : 0 < delta) (auxiliary stop : Bool) (key : Key)
    (hN : N ≠ 0) :
    AtMostOneInvariant (fun s => (do
      let r ← lg_tp_kernel ys sigma N key s delta
      pure r.1 : Ex (VGState (n + 1) d))) ∧
    AtMostOneInvariant (fun s => (do
      let r ← lg_mala_kernel ys sigma N auxiliary stop key s delta
      pure r.1 : Ex (VGState (n + 1) d))) ∧
    AtMostOneInvariant (fun s => (do
      let r ← lg_imh_kernel ys sigma N key s
      pure r.1 : Ex (Traj (n + 1) d × ℝ))) := by
  have h : lgTarget sigma ys = fun xs => lg_log_pdf xs ys sigma := funext fun x => (C55_lgssm_mala hs ys x).symm
  have hl : Measurable fun xs => lg_log_pdf xs ys sigma := by
    rw [← h, ← lg_mtTarget ys]
    exact measurable_mtTarget _ (measurable_lg_log_likelihood ys)
  have hg : Measurable fun xs => if stop then (0 : Traj (n + 1) d) else jaxGrad2 (fun xs => lg_log_pdf xs ys sigma) xs := by
    cases stop
    · exact measurable_jaxGrad2 _
    · exact measurable_const
  exact ⟨(C82_tp hd (posDef_smul_one (pow_pos hs 2)) (fun _ => posDef_smul_one (pow_pos hs 2))
      (measurable_lg_log_likelihood ys) (measurable_jaxGrad2 _) key hN).2.1,
    (C82_mala hd hl hg key hN auxiliary).2.1,
    (C82_imh (posDef_smul_one (pow_pos hs 2)) (fun _ => posDef_smul_one (pow_pos hs 2)) (measurable_lg_log_likelihood ys) key hN).2.1⟩

/-- An instance of the experiment. -/
example (ys : Traj 10 3) (key : Key) (auxiliary stop : Bool) :=
  C82_lgssm (N := 25) ys (sigma := 0.1) (by norm_num) (delta := 0.01) (by norm_num) auxiliary stop key (by norm_num)

end Verif.Props
