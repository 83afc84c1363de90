import Verif.Lemmas.OneTrajKernel

/-!
# The candidates of `mala.py` and `tp.py`
-/

open scoped ENNReal
open MeasureTheory ProbabilityTheory Finset

namespace Verif
open Verif.Model Verif.Spec Verif.Props

variable {N n d : ℕ}

/-- The target may be known up to a factor. -/
theorem exact_shift {X : Type} [MeasurableSpace X] {μ : Measure X} {l l' : X → ℝ} {c : ℝ} (hc : ∀ x, l' x = l x + c) {f g : X → ℝ≥0∞}
    (h : ∫⁻ x, ENNReal.ofReal (Real.exp (l' x)) * f x ∂μ = ∫⁻ x, ENNReal.ofReal (Real.exp (l' x)) * g x ∂μ) :
    ∫⁻ x, ENNReal.ofReal (Real.exp (l x)) * f x ∂μ = ∫⁻ x, ENNReal.ofReal (Real.exp (l x)) * g x ∂μ := by
  have e : ∀ x, ENNReal.ofReal (Real.exp (l x)) = ENNReal.ofReal (Real.exp (-c)) * ENNReal.ofReal (Real.exp (l' x)) := fun x => by
    rw [← ENNReal.ofReal_mul (Real.exp_pos _).le, ← Real.exp_add, hc]
    congr 2
    ring
  simp only [e, mul_assoc]
  rw [lintegral_const_mul' _ _ ENNReal.ofReal_ne_top, lintegral_const_mul' _ _ ENNReal.ofReal_ne_top, h]

theorem forcedIdx_free (key key' : Key) : forcedIdx (N := N) key = forcedIdx key' := rfl

/-- The candidates of `mala.kernel`. -/
noncomputable def malaCand (log_pdf : Traj (n + 1) d → ℝ) (grad : Traj (n + 1) d → Traj (n + 1) d) (auxiliary : Bool) :
    Cand (Traj (n + 1) d × (Fin N → Traj (n + 1) d)) N n d where
  noise key _ _ := malaNoise key N (n + 1) d
  W δ x e := malaW δ log_pdf grad auxiliary (tp_init log_pdf grad x) e
  P δ x e := malaProp δ (tp_init log_pdf grad x) e

theorem mala_flag_eq {T : ℕ} (key : Key) (s : VGState T d) (delta : ℝ) (log_pdf : Traj T d → ℝ) (grad : Traj T d → Traj T d)
    (N : ℕ) (auxiliary : Bool) :
    mala_kernel key s delta log_pdf grad N auxiliary =
      drawSelect (malaNoise key N T d) (malaW delta log_pdf grad auxiliary s)
        (fun e i => (candStates log_pdf grad s (malaProp delta s e) i, decide (i ≠ 0))) (forcedIdx (splitKey key 3 1)) := by
  unfold malaW
  simp only [← expNormalize_eq]
  rfl

theorem mala_embeds (log_pdf : Traj (n + 1) d → ℝ) (grad : Traj (n + 1) d → Traj (n + 1) d) (N : ℕ) (auxiliary : Bool) :
    Embeds (fun key s δ => mala_kernel key s δ log_pdf grad N auxiliary) (tp_init log_pdf grad)
      ((malaCand (N := N) log_pdf grad auxiliary).emb forcedIdx) := by
  refine ⟨fun x => rfl, fun key x b δ f g hfg => ?_⟩
  beta_reduce
  rw [mala_flag_eq]
  refine congrArg (malaNoise key N (n + 1) d) (funext fun e => congrArg (forcedIdx (splitKey key 3 1) _ 0) (funext fun i => hfg _ _ ⟨?_, fun t => ?_⟩))
  · exact Fin.cases rfl (fun _ => rfl) i
  · exact newLabels_flag b i t

/-- `mala.kernel` with the move that has no guard against a division by zero. -/
noncomputable def malaExact {T : ℕ} (key : Key) (s : VGState T d) (delta : ℝ) (log_pdf : Traj T d → ℝ) (grad : Traj T d → Traj T d)
    (N : ℕ) (auxiliary : Bool) : Ex (VGState T d × Bool) :=
  drawSelect (malaNoise key N T d) (malaW delta log_pdf grad auxiliary s)
    (fun e i => (candStates log_pdf grad s (malaProp delta s e) i, decide (i ≠ 0))) liuMove

theorem malaExact_embeds (log_pdf : Traj (n + 1) d → ℝ) (grad : Traj (n + 1) d → Traj (n + 1) d) (N : ℕ) (auxiliary : Bool) :
    Embeds (fun key s δ => malaExact key s δ log_pdf grad N auxiliary) (tp_init log_pdf grad)
      ((malaCand (N := N) log_pdf grad auxiliary).emb fun _ => liuMove) := by
  refine ⟨fun x => rfl, fun key x b δ f g hfg => ?_⟩
  refine congrArg (malaNoise key N (n + 1) d) (funext fun e => congrArg (liuMove _ 0) (funext fun i => hfg _ _ ⟨?_, fun t => ?_⟩))
  · exact Fin.cases rfl (fun _ => rfl) i
  · exact newLabels_flag b i t

theorem mala_candOK {log_pdf : Traj (n + 1) d → ℝ} (hl : Measurable log_pdf) {grad : Traj (n + 1) d → Traj (n + 1) d} (hg : Measurable grad)
    {l : Traj (n + 1) d → ℝ} {c : ℝ} (hc : ∀ x, log_pdf x = l x + c) (auxiliary : Bool) {δ : ℝ} (hd : 0 < δ) :
    (malaCand (N := N) log_pdf grad auxiliary).OK l δ where
  ker key := malaNoise_ker key
  mass key x := malaNoise_mass key
  free key key' := rfl
  W := (measurable_malaW hl hg δ auxiliary).comp (((measurable_tp_init hl hg).comp measurable_fst).prodMk measurable_snd)
  prob x e := normalize_isProb _
  pos x e i := normalize_pos _ i
  P := (measurable_malaProp δ).comp (((measurable_tp_init hl hg).comp measurable_fst).prodMk measurable_snd)
  exact key f hf := by
    refine exact_shift hc ?_
    cases auxiliary
    · exact mala_exact_marg hd hl hg key (f := fun s => f s.1) (hf.comp measurable_fst)
    · exact mala_exact_aux hd hl hg key (f := fun s => f s.1) (hf.comp measurable_fst)
  reach key x f hf i h0 := by
    have h2 := malaNoise_law (N := N) key hd log_pdf grad x (M := fun _ y => f (y i)) (hf.comp (by fun_prop))
    exact aux_pi_null trajVol_ne trajVol_ne (measurable_isoT _ measurable_const measurable_id)
      (measurable_isoT _ measurable_fst measurable_snd) _ hf (h2.symm.trans h0)

/-- The candidates of the kernel of `tp.get_kernel`. -/
noncomputable def tpCand (D : Dyn n d) (log_pdf : Traj (n + 1) d → ℝ) (grad : Traj (n + 1) d → Traj (n + 1) d) :
    Cand (Traj (n + 1) d × (Fin N → Traj (n + 1) d)) N n d where
  noise key δ x := mtpNoise key δ D N (tp_init log_pdf grad x)
  W δ x e := tpW δ log_pdf grad (tp_init log_pdf grad x) e
  P _ _ e := e.2

theorem tp_flag_eq (key : Key) (s : VGState (n + 1) d) (delta : ℝ) (D : Dyn n d) (log_pdf : Traj (n + 1) d → ℝ)
    (grad : Traj (n + 1) d → Traj (n + 1) d) (N : ℕ) :
    tp_kernel key s delta D log_pdf grad N =
      drawSelect (mtpNoise key delta D N s) (tpW delta log_pdf grad s)
        (fun e i => (candStates log_pdf grad s e.2 i, decide (i ≠ 0))) (forcedIdx (splitKey key 3 1)) := by
  unfold tpW
  simp only [← expNormalize_eq]
  rfl

theorem tp_embeds (D : Dyn n d) (log_pdf : Traj (n + 1) d → ℝ) (grad : Traj (n + 1) d → Traj (n + 1) d) (N : ℕ) :
    Embeds (fun key s δ => tp_kernel key s δ D log_pdf grad N) (tp_init log_pdf grad) ((tpCand (N := N) D log_pdf grad).emb forcedIdx) := by
  refine ⟨fun x => rfl, fun key x b δ f g hfg => ?_⟩
  beta_reduce
  rw [tp_flag_eq]
  refine congrArg (mtpNoise key δ D N (tp_init log_pdf grad x)) (funext fun e => congrArg (forcedIdx (splitKey key 3 1) _ 0)
    (funext fun i => hfg _ _ ⟨?_, fun t => ?_⟩))
  · exact Fin.cases rfl (fun _ => rfl) i
  · exact newLabels_flag b i t

/-- `tp.kernel` with the move that has no guard against a division by zero. -/
noncomputable def tpExact (key : Key) (s : VGState (n + 1) d) (delta : ℝ) (D : Dyn n d) (log_pdf : Traj (n + 1) d → ℝ)
    (grad : Traj (n + 1) d → Traj (n + 1) d) (N : ℕ) : Ex (VGState (n + 1) d × Bool) :=
  drawSelect (mtpNoise key delta D N s) (tpW delta log_pdf grad s) (fun e i => (candStates log_pdf grad s e.2 i, decide (i ≠ 0))) liuMove

theorem tpExact_embeds (D : Dyn n d) (log_pdf : Traj (n + 1) d → ℝ) (grad : Traj (n + 1) d → Traj (n + 1) d) (N : ℕ) :
    Embeds (fun key s δ => tpExact key s δ D log_pdf grad N) (tp_init log_pdf grad) ((tpCand (N := N) D log_pdf grad).emb fun _ => liuMove) := by
  refine ⟨fun x => rfl, fun key x b δ f g hfg => ?_⟩
  refine congrArg (mtpNoise key δ D N (tp_init log_pdf grad x)) (funext fun e => congrArg (liuMove _ 0) (funext fun i => hfg _ _ ⟨?_, fun t => ?_⟩))
  · exact Fin.cases rfl (fun _ => rfl) i
  · exact newLabels_flag b i t

theorem tp_candOK {D : Dyn n d} (hP : D.P0.PosDef) (hQ : ∀ t, (D.Qs t).PosDef) {log_pdf : Traj (n + 1) d → ℝ} (hl : Measurable log_pdf)
    {grad : Traj (n + 1) d → Traj (n + 1) d} (hg : Measurable grad) {δ : ℝ} (hd : 0 < δ) :
    (tpCand (N := N) D log_pdf grad).OK (mtTarget D log_pdf) δ where
  ker key := (mtpNoise_ker hP hQ hd key).comp (measurable_tp_init hl hg)
  mass key x := mtpNoise_mass hP hQ hd key _
  free key key' := rfl
  W := (measurable_tpW hl hg δ).comp (((measurable_tp_init hl hg).comp measurable_fst).prodMk measurable_snd)
  prob x e := normalize_isProb _
  pos x e i := normalize_pos _ i
  P := by
    show Measurable fun p : Traj (n + 1) d × (Traj (n + 1) d × (Fin N → Traj (n + 1) d)) => p.2.2
    fun_prop
  exact key f hf := tp_exact hd hP hQ hl hg key (f := fun s => f s.1) (hf.comp measurable_fst)
  reach key x f hf i h0 := by
    have h2 := mtpNoise_law (N := N) hP hQ hd key log_pdf grad x (M := fun _ y => f (y i)) (hf.comp (by fun_prop))
    exact aux_pi_null trajVol_ne trajVol_ne (measurable_isoT _ measurable_const measurable_id)
      (measurable_tpQ hP hQ hd) _ hf (h2.symm.trans h0)

end Verif
