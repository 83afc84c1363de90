import Verif.Lemmas.Rotation
import Verif.Lemmas.AlsKernel
import Verif.Lemmas.AtpCsmc
import Verif.Lemmas.TAtp

/-!
# The particle systems of the programs do not care about the labels of their particles
-/

open scoped ENNReal
open MeasureTheory ProbabilityTheory Finset

namespace Verif
open Verif.Spec Verif.Model Matrix

variable {N n d : ℕ}

theorem lintegral_rot {α : Type} [MeasurableSpace α] (μ : Measure α) [SigmaFinite μ] (s : Fin (N + 1)) (f : (Fin (N + 1) → α) → ℝ≥0∞)
    (hf : Measurable f) : ∫⁻ e, f (rotA s e) ∂(Measure.pi fun _ : Fin (N + 1) => μ) = ∫⁻ e, f e ∂(Measure.pi fun _ : Fin (N + 1) => μ) := by
  have h := measurePreserving_piCongrLeft (fun _ : Fin (N + 1) => μ) (Equiv.addRight (-s))
  rw [← h.lintegral_comp hf]
  refine lintegral_congr fun e => congrArg f (funext fun i => ?_)
  have : i = Equiv.addRight (-s) (i + s) := by simp
  conv_rhs => rw [this]
  exact (Equiv.piCongrLeft_apply_apply (fun _ : Fin (N + 1) => α) (Equiv.addRight (-s)) e (i + s)).symm

theorem rotA_atSet {α : Type} (s b : Fin (N + 1)) (Xs : Fin (N + 1) → α) (x : α) : rotA s (atSet Xs (b + s) x) = atSet (rotA s Xs) b x := by
  funext i
  simp [rotA, atSet_apply]

/-- Replacing the reference. -/
theorem atSet_rot_law {α : Type} [MeasurableSpace α] {Z Z' : Ex (Fin (N + 1) → α)} {s : Fin (N + 1)}
    (h : ∀ f : (Fin (N + 1) → α) → ℝ≥0∞, Measurable f → Z' f = Z fun Xs => f (rotA s Xs)) (b : Fin (N + 1)) (x : α)
    (f : (Fin (N + 1) → α) → ℝ≥0∞) (hf : Measurable f) :
    (Z' >>= fun Xs => (pure (atSet Xs b x) : Ex _)) f = (Z >>= fun Xs => (pure (atSet Xs (b + s) x) : Ex _)) fun Xs => f (rotA s Xs) := by
  show Z' (fun Xs => f (atSet Xs b x)) = Z fun Xs => f (rotA s (atSet Xs (b + s) x))
  rw [h _ (by fun_prop)]
  exact Ex.congr_fun' Z fun Xs => by rw [rotA_atSet]

theorem normal2_rot (key : Key) (s : Fin (N + 1)) (g : (Fin (N + 1) → Vec d) → ℝ≥0∞) (hg : Measurable g) :
    (normal2 key (N + 1) d : Ex _) g = (normal2 key (N + 1) d : Ex _) fun e => g (rotA s e) :=
  (lintegral_rot (gaussM d) s g hg).symm

section csmc
variable {X P G : Type} [MeasurableSpace X] {M : FK Ex X P G N} {Mparams : Fin n → P} {Gparams : Fin n → G}

theorem csmcSys_rot (key : Key) (hM : RotFK M) {resampling : Resampling Ex N}
    (hR : ∀ key, RotResampling (fun w i j => resampling key w i j true)) (G0 : Ex X) (Gt : Fin n → X → Ex X) (Z0 : Ex (PA X N))
    (Z : Fin n → PA X N → Ex (PA X N)) : (csmcSys key M Mparams Gparams resampling G0 Gt Z0 Z).Rot where
  Q0 s b x f hf := atSet_rot_law (fun f hf => hM.M0_rvs _ s f hf) b x f hf
  LW0 s Xs i := congrArg (fun z => M.Gamma0 (Xs (i + s)) - z) (hM.M0_logpdf s Xs i)
  Q t s Y b x f hf := atSet_rot_law (fun f hf => hM.Mt_rvs _ s Y (Mparams t) f hf) b x f hf
  LW t s Y Xs i := congrArg (fun z => M.Gammat (Y (i + s)) (Xs (i + s)) (Gparams t) - z) (hM.Mt_logpdf s Y Xs (Mparams t) i)
  R t := hR _

theorem csmcSys_sysMeas (key : Key) (hM : MeasFK M n Mparams Gparams) {resampling : Resampling Ex N}
    (hR : ∀ key, CondResampling (fun w i j => resampling key w i j true)) (G0 : Ex X) (Gt : Fin n → X → Ex X) (Z0 : Ex (PA X N))
    (Z : Fin n → PA X N → Ex (PA X N)) : SysMeas fun _ : Unit => csmcSys key M Mparams Gparams resampling G0 Gt Z0 Z where
  Q0_ker := IsKer.bind (P := fun _ : Unit × Fin (N + 1) × X => M.M0_rvs (splitKey key 3 0))
    (F := fun p Xs => pure (atSet Xs p.2.1 p.2.2)) ((hM.M0_rvs _).comp (g := fun p : Unit × Fin (N + 1) × X => p.1) (by fun_prop))
    (IsKer.pure (by fun_prop))
  Q_ker t := IsKer.bind (P := fun p : Unit × PA X N × Fin (N + 1) × X =>
      M.Mt_rvs (splitKey (splitKey (splitKey key 3 1) n t) 2 0) p.2.1 (Mparams t))
    (F := fun p Xs => pure (atSet Xs p.2.2.1 p.2.2.2)) ((hM.Mt_rvs _ t).comp (g := fun p : Unit × PA X N × Fin (N + 1) × X => p.2.1) (by fun_prop))
    (IsKer.pure (by fun_prop))
  LW0_meas := by
    have h0 := hM.Gamma0
    have h1 := hM.M0_logpdf
    refine measurable_pi_lambda _ fun i => ?_
    show Measurable fun p : Unit × PA X N => M.Gamma0 (p.2 i) - M.M0_logpdf p.2 i
    have h2 : Measurable fun p : Unit × PA X N => M.M0_logpdf p.2 i := (measurable_pi_apply i).comp (h1.comp measurable_snd)
    exact Measurable.sub (by fun_prop) h2
  LW_meas t := by
    refine measurable_pi_lambda _ fun i => ?_
    show Measurable fun p : Unit × PA X N × PA X N => M.Gammat (p.2.1 i) (p.2.2 i) (Gparams t) - M.Mt_logpdf p.2.1 p.2.2 (Mparams t) i
    have h1 : Measurable fun p : Unit × PA X N × PA X N => M.Gammat (p.2.1 i) (p.2.2 i) (Gparams t) :=
      (hM.Gammat t).comp (by fun_prop : Measurable fun p : Unit × PA X N × PA X N => (p.2.1 i, p.2.2 i))
    have h2 : Measurable fun p : Unit × PA X N × PA X N => M.Mt_logpdf p.2.1 p.2.2 (Mparams t) i :=
      (measurable_pi_apply i).comp ((hM.Mt_logpdf t).comp measurable_snd)
    exact h1.sub h2
  R_ker t := (hR _).ker.comp measurable_snd

theorem csmc_relabels (key : Key) (hM : RotFK M) (hM' : MeasFK M n Mparams Gparams) {resampling : Resampling Ex N}
    (hR : ∀ key, CondResampling (fun w i j => resampling key w i j true))
    (hR' : ∀ key, RotResampling (fun w i j => resampling key w i j true)) {mv : AncestorMove Ex N}
    (hm : ∀ key, MoveKer (moveIndex mv key)) (hm' : ∀ key, RotMove (moveIndex mv key)) (backward : Bool) :
    Relabels (fun x b => (csmc_kernel key x b M Mparams Gparams resampling mv backward true : Ex _) >>= fun r => pure (r.xs, r.Bs)) :=
  (Sys.Rot.kernel (csmcSys_sysMeas key hM' hR (fun _ => 0) (fun _ _ _ => 0) (fun _ => 0) fun _ _ _ => 0)
    (csmcSys_rot key hM hR' _ _ _ _) (fun t => hM'.Gammat t) (hm _) (hm' _) backward).congr fun x b f hf =>
      congrFun (csmc_kernel_eq key M Mparams Gparams resampling mv backward (fun _ => 0) (fun _ _ _ => 0) (fun _ => 0) (fun _ _ _ => 0) x b) f

end csmc

section aux

theorem isoP_rot (key : Key) (σ : ℝ) (u : Vec d) (s : Fin (N + 1)) (f : (Fin (N + 1) → Vec d) → ℝ≥0∞) (hf : Measurable f) :
    isoP N key σ u f = isoP N key σ u fun Xs => f (rotA s Xs) :=
  normal2_rot key s (fun e => f fun i j => u j + σ * e i j) (by fun_prop)

theorem gaussP_rot (L : Mat d d) (c : Fin (N + 1) → Vec d) (s : Fin (N + 1)) (f : (Fin (N + 1) → Vec d) → ℝ≥0∞) (hf : Measurable f) :
    gaussP N L (rotA s c) f = gaussP N L c fun Xs => f (rotA s Xs) :=
  normal2_rot [] s (fun e => f fun i => rotA s c i + L *ᵥ e i) (by fun_prop)

theorem meanP_rot (s : Fin (N + 1)) (Xs : Fin (N + 1) → Vec d) : meanP (rotA s Xs) = meanP Xs := by
  funext j
  simp only [meanP, rotA]
  rw [sum_rot s fun i => Xs i j]

theorem logH_rot (σ : ℝ) (v : Vec d) (s : Fin (N + 1)) (Xs : Fin (N + 1) → Vec d) (i : Fin (N + 1)) :
    logH σ v (rotA s Xs) i = logH σ v Xs (i + s) := by
  simp only [logH, meanP_rot]
  rfl

theorem auxMk_rot (σ : ℝ) (c : Vec d) (b s : Fin (N + 1)) (x : Vec d) (f : (Fin (N + 1) → Vec d) → ℝ≥0∞) (hf : Measurable f) :
    ∫⁻ e, f (auxMk σ c e b x) ∂auxNu N d = ∫⁻ e, f (rotA s (auxMk σ c e (b + s) x)) ∂auxNu N d := by
  have hm := measurable_rotA (α := Vec d) s
  have h1 : Measurable fun e : Vec d × (Fin (N + 1) → Vec d) => f (auxMk σ c e b x) := by
    unfold auxMk
    fun_prop
  have h2 : Measurable fun e : Vec d × (Fin (N + 1) → Vec d) => f (rotA s (auxMk σ c e (b + s) x)) := by
    unfold auxMk
    fun_prop
  rw [auxNu, lintegral_prod _ h1.aemeasurable, lintegral_prod _ h2.aemeasurable]
  refine lintegral_congr fun z => ?_
  rw [← lintegral_rot (gaussM d) s (fun e => f (auxMk σ c (z, e) b x)) (h1.comp (by fun_prop : Measurable fun e => (z, e)))]
  refine lintegral_congr fun e => congrArg f ?_
  rw [auxMk, auxMk, rotA_atSet]
  rfl

variable {Γ0 : Vec d → ℝ} {Γ : Fin n → Vec d → Vec d → ℝ} {φ0 : Vec d → Vec d}
  {φ : Fin n → Vec d → Vec d → Vec d} {s : Fin (n + 1) → ℝ}
  {R : Fin n → (Fin (N + 1) → ℝ) → Fin (N + 1) → Fin (N + 1) → Ex (Anc N)}

theorem margSys_rot (hR : ∀ t, RotResampling (R t)) : (margSys Γ0 Γ φ0 φ s R).Rot where
  Q0 r b x f hf := auxMk_rot _ _ _ _ _ f hf
  LW0 r Xs i := congrArg (fun z => Γ0 (Xs (i + r)) + z) (logH_rot _ _ _ _ _)
  Q t r Y b x f hf := auxMk_rot _ _ _ _ _ f hf
  LW t r Y Xs i := congrArg (fun z => Γ t (Y (i + r)) (Xs (i + r)) + z) (logH_rot _ _ _ _ _)
  R := hR

theorem alSys_rot (hR : ∀ t, RotResampling (R t)) (u : Fin (n + 1) → Vec d) : (alSys Γ0 Γ φ0 φ s R u).Rot where
  Q0 r b x f hf := atSet_rot_law (fun f hf => isoP_rot [] (s 0) (u 0) r f hf) b x f hf
  LW0 r Xs i := rfl
  Q t r Y b x f hf := atSet_rot_law (fun f hf => isoP_rot [] (s t.succ) (u t.succ) r f hf) b x f hf
  LW t r Y Xs i := rfl
  R := hR

theorem pair_rot_law (σ : ℝ) (u : Vec d) (r b : Fin (N + 1)) (c : Fin (N + 1) → Vec d) (x : Vec d)
    (f : (Fin (N + 1) → Vec d × Vec d) → ℝ≥0∞) (hf : Measurable f) :
    (isoP N [] σ u >>= fun Xs => (pure (fun i => (rotA r c i, atSet Xs b x i)) : Ex _)) f =
      (isoP N [] σ u >>= fun Xs => (pure (fun i => (c i, atSet Xs (b + r) x i)) : Ex _)) fun Xs => f (rotA r Xs) := by
  have hm : Measurable fun Xs : Fin (N + 1) → Vec d => f fun i => (rotA r c i, atSet Xs b x i) := by fun_prop
  refine (isoP_rot [] σ u r _ hm).trans (Ex.congr_fun' (isoP N [] σ u) fun Xs => congrArg f (funext fun i => ?_))
  rw [← rotA_atSet]
  rfl

theorem alsSys_rot {a0 : Vec d → Vec d} {a c : Fin n → Vec d → Vec d → Vec d} (hR : ∀ t, RotResampling (R t)) (u : Fin (n + 1) → Vec d) :
    (alsSys Γ0 Γ a0 a c s R u).Rot where
  Q0 r b x f hf := pair_rot_law (s 0) (u 0) r b (fun _ => 0) x.2 f hf
  LW0 r Xs i := rfl
  Q t r Y b x f hf := pair_rot_law (s t.succ) (u t.succ) r b (fun i => (Y i).2) x.2 f hf
  LW t r Y Xs i := rfl
  R := hR

end aux

end Verif
