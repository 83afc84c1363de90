import Verif.Lemmas.OneTrajCand
import Verif.Props.DefaultRun

/-!
# C100: the stochastic volatility experiment with the kernels `MALA` (the default of the script) and `TP`

These kernels choose among candidates for the whole trajectory, always with `force_move`. The experiment is compared with the one whose move
has no guard against a division by zero (`svGuardFree`).
-/

open scoped ENNReal
open MeasureTheory ProbabilityTheory Matrix

namespace Verif.Props
open Verif Verif.Model Verif.Spec

variable {N n d M : ℕ} {resampling : String} {R : Resampling Ex N} {mv : AncestorMove Ex N}
  {svd : Mat d d → SvdOut d} {tau : ℤ} {k : SvType} {style : String} {target_stat : TargetStat} {backward : Bool}
  {make : Traj (n + 1) d → SvKernel Ex (n + 1) d}

/-- The kernels `TP` and `MALA` of the experiment, with the move that has no guard against a division by zero. -/
noncomputable def svGuardFree (k : SvType) (tau : ℤ) (N : ℕ) (style : String) (ys : Traj (n + 1) d) : SvKernel Ex (n + 1) d :=
  let D := svDynArgs tau d
  if k = .TP then
    let log_pdf := fun xs => sv_log_likelihood xs ys
    vgSv (fun key s δ => tpExact key s δ (svDyn D n) log_pdf (jaxGrad2 log_pdf) N) (tp_init log_pdf (jaxGrad2 log_pdf))
  else
    let log_pdf := svFullLogPdf ys D
    vgSv (fun key s δ => malaExact key s δ log_pdf (jaxGrad2 log_pdf) N (style = "auxiliary")) (tp_init log_pdf (jaxGrad2 log_pdf))

theorem NearBy.of_eq {ε p q p' q' : ℝ≥0∞} (h : NearBy ε p q) (hp : p' = p) (hq : q' = q) : NearBy ε p' q' := by
  rwa [hp, hq]

theorem forcedIdx_mass (key : Key) : MoveMass (forcedIdx (N := N) key) := fun _ hw i => force_mass key hw i

theorem sv_tp_embeds (ys : Traj (n + 1) d) (D : SvDyn d) (N : ℕ) : Embeds (sv_tp_kernel ys D N)
    (tp_init (fun xs => sv_log_likelihood xs ys) (jaxGrad2 fun xs => sv_log_likelihood xs ys))
    ((tpCand (N := N) (svDyn D n) (fun xs => sv_log_likelihood xs ys) (jaxGrad2 fun xs => sv_log_likelihood xs ys)).emb forcedIdx) :=
  tp_embeds (svDyn D n) (fun xs => sv_log_likelihood xs ys) (jaxGrad2 fun xs => sv_log_likelihood xs ys) N

theorem sv_mala_embeds (ys : Traj (n + 1) d) (D : SvDyn d) (N : ℕ) (auxiliary : Bool) : Embeds (sv_mala_kernel ys D N auxiliary)
    (tp_init (svFullLogPdf ys D) (jaxGrad2 (svFullLogPdf ys D)))
    ((malaCand (N := N) (svFullLogPdf ys D) (jaxGrad2 (svFullLogPdf ys D)) auxiliary).emb forcedIdx) :=
  mala_embeds (svFullLogPdf ys D) (jaxGrad2 (svFullLogPdf ys D)) N auxiliary

theorem svGuardFree_tp (tau : ℤ) (N : ℕ) (style : String) (ys : Traj (n + 1) d) : svGuardFree .TP tau N style ys =
    vgSv (fun key s δ => tpExact key s δ (svDyn (svDynArgs tau d) n) (fun xs => sv_log_likelihood xs ys) (jaxGrad2 fun xs => sv_log_likelihood xs ys) N)
      (tp_init (fun xs => sv_log_likelihood xs ys) (jaxGrad2 fun xs => sv_log_likelihood xs ys)) := by
  unfold svGuardFree
  exact if_pos rfl

theorem svGuardFree_mala (tau : ℤ) (N : ℕ) {style : String} {b : Bool} (hb : decide (style = "auxiliary") = b) (ys : Traj (n + 1) d) :
    svGuardFree .MALA tau N style ys =
    vgSv (fun key s δ => malaExact key s δ (svFullLogPdf ys (svDynArgs tau d)) (jaxGrad2 (svFullLogPdf ys (svDynArgs tau d))) N b)
      (tp_init (svFullLogPdf ys (svDynArgs tau d)) (jaxGrad2 (svFullLogPdf ys (svDynArgs tau d)))) := by
  subst hb
  unfold svGuardFree
  exact if_neg (by decide)

/-- The two kernels are those of candidates that are chosen with their weights. -/
theorem sv_one_form (ht : 0 < tau) (hk : k.kernel_maker svd (svDynArgs tau d) style target_stat R mv backward = .ok make)
    (hone : k = .TP ∨ k = .MALA) (ys : Traj (n + 1) d) :
    ∃ (C : Cand (Traj (n + 1) d × (Fin N → Traj (n + 1) d)) N n d) (ker ker' : Key → VGState (n + 1) d → ℝ → Ex (VGState (n + 1) d × Bool))
      (init : Traj (n + 1) d → VGState (n + 1) d), make ys = vgSv ker init ∧ svGuardFree k tau N style ys = vgSv ker' init ∧
      Embeds ker init (C.emb forcedIdx) ∧ Embeds ker' init (C.emb fun _ => liuMove) ∧ ∀ δ, 0 < δ → C.OK (svSampled k tau ys) δ := by
  have hP := svDynArgs_P0 ht d
  have hQ := svDynArgs_Q ht d
  rcases hone with rfl | rfl
  · cases hk
    refine ⟨tpCand (svDyn (svDynArgs tau d) n) (fun xs => sv_log_likelihood xs ys) (jaxGrad2 fun xs => sv_log_likelihood xs ys), sv_tp_kernel ys (svDynArgs tau d) N,
      fun key s δ => tpExact key s δ (svDyn (svDynArgs tau d) n) (fun xs => sv_log_likelihood xs ys) (jaxGrad2 fun xs => sv_log_likelihood xs ys) N,
      tp_init (fun xs => sv_log_likelihood xs ys) (jaxGrad2 fun xs => sv_log_likelihood xs ys), rfl, svGuardFree_tp tau N style ys,
      sv_tp_embeds ys (svDynArgs tau d) N, tpExact_embeds _ _ _ N, fun δ hδ => ?_⟩
    have h := tp_candOK (N := N) (D := svDyn (svDynArgs tau d) n) hP (fun _ => hQ) (measurable_sv_log_likelihood ys) (measurable_jaxGrad2 fun xs => sv_log_likelihood xs ys) hδ
    have e : svSampled .TP tau ys = mtTarget (svDyn (svDynArgs tau d) n) fun xs => sv_log_likelihood xs ys := funext fun x => (C55_sv_tp _ ys x).symm
    rw [e]
    exact h
  · obtain ⟨c, hc⟩ := C55_sv_mala_target hP hQ ys
    have hb : (svDynArgs tau d).b = 0 := by
      show (fun _ => (0 : ℝ) * 1) + (_ • (1 : Mat d d)) *ᵥ (fun _ => (0 : ℝ) * 1) = 0
      rw [show (fun _ : Fin d => (0 : ℝ) * 1) = 0 from funext fun _ => zero_mul _, mulVec_zero, add_zero]
    have e : svSampled .MALA tau ys = svTarget (svDynArgs tau d).m0 (svDynArgs tau d).P0 (diagonal (svDynArgs tau d).b * (svDynArgs tau d).F) (svDynArgs tau d).Q 0 ys := by
      rw [hb, show (diagonal 0 : Mat d d) = 0 from diagonal_zero, Matrix.zero_mul]
      exact svIndependent_eq tau ys
    have hc' : ∀ x, svFullLogPdf ys (svDynArgs tau d) x = svSampled .MALA tau ys x + c := fun x => by rw [e]; exact hc x
    simp only [SvType.kernel_maker, sv_get_mala_kernel] at hk
    by_cases h1 : style = "marginal"
    · rw [if_pos h1] at hk
      cases hk
      have h2 : decide (style = "auxiliary") = false := by rw [h1]; decide
      refine ⟨malaCand (svFullLogPdf ys (svDynArgs tau d)) (jaxGrad2 (svFullLogPdf ys (svDynArgs tau d))) false, sv_mala_kernel ys (svDynArgs tau d) N false,
        fun key s δ => malaExact key s δ (svFullLogPdf ys (svDynArgs tau d)) (jaxGrad2 (svFullLogPdf ys (svDynArgs tau d))) N false,
        tp_init (svFullLogPdf ys (svDynArgs tau d)) (jaxGrad2 (svFullLogPdf ys (svDynArgs tau d))), rfl, svGuardFree_mala tau N h2 ys,
        sv_mala_embeds ys (svDynArgs tau d) N false, malaExact_embeds _ _ N false,
        fun δ hδ => mala_candOK (measurable_svFullLogPdf hP hQ ys) (measurable_jaxGrad2 _) hc' false hδ⟩
    · rw [if_neg h1] at hk
      by_cases h3 : style = "auxiliary"
      · rw [if_pos h3] at hk
        cases hk
        have h2 : decide (style = "auxiliary") = true := decide_eq_true h3
        refine ⟨malaCand (svFullLogPdf ys (svDynArgs tau d)) (jaxGrad2 (svFullLogPdf ys (svDynArgs tau d))) true, sv_mala_kernel ys (svDynArgs tau d) N true,
        fun key s δ => malaExact key s δ (svFullLogPdf ys (svDynArgs tau d)) (jaxGrad2 (svFullLogPdf ys (svDynArgs tau d))) N true,
        tp_init (svFullLogPdf ys (svDynArgs tau d)) (jaxGrad2 (svFullLogPdf ys (svDynArgs tau d))), rfl, svGuardFree_mala tau N h2 ys,
        sv_mala_embeds ys (svDynArgs tau d) N true, malaExact_embeds _ _ N true,
          fun δ hδ => mala_candOK (measurable_svFullLogPdf hP hQ ys) (measurable_jaxGrad2 _) hc' true hδ⟩
      · rw [if_neg h3] at hk
        cases hk

/-- The two kernels as kernels with labels. -/
theorem sv_one_good (ht : 0 < tau) (hN : N ≠ 0) {C : Cand (Traj (n + 1) d × (Fin N → Traj (n + 1) d)) N n d} {ys : Traj (n + 1) d}
    (hC : ∀ δ, 0 < δ → C.OK (svSampled k tau ys) δ) : SvGood 1 k tau ys (csmcSvPlain (C.emb fun _ => liuMove)) := by
  obtain ⟨hl, hZ⟩ := svSampled_mass k ht ys
  refine ⟨⟨_, .inl rfl, fun δ hδ => (hC _ (hδ.pos 0)).csmcOK hl⟩, fun δ hδ => ?_⟩
  exact csmcSv_consistent (N := 1) (delta := .perStep δ) ((hC _ (hδ.pos 0)).csmcOK hl) hl hZ fun x b f hf => (hC _ (hδ.pos 0)).reaches hN [] x b f hf

theorem sv_one_pair {C : Cand (Traj (n + 1) d × (Fin N → Traj (n + 1) d)) N n d} {ys : Traj (n + 1) d}
    (hC : ∀ δ, 0 < δ → C.OK (svSampled k tau ys) δ) :
    ∃ ker ker' : Key → (Fin (n + 1) → Vec d) → (Fin (n + 1) → Fin (1 + 1)) → (Fin (n + 1) → ℝ) →
        Ex ((Fin (n + 1) → Vec d) × (Fin (n + 1) → Fin (1 + 1))),
      ((csmcSvPlain (C.emb forcedIdx) = csmcSvPlain ker ∧ csmcSvPlain (C.emb fun _ => liuMove) = csmcSvPlain ker') ∨
        ∃ stat, csmcSvPlain (C.emb forcedIdx) = csmcSvTwisted stat ker ∧ csmcSvPlain (C.emb fun _ => liuMove) = csmcSvTwisted stat ker') ∧
      StepOK StepRange ker ∧ StepOK StepRange ker' ∧
      ∀ δ, StepRange δ → ∀ key x b, TVLe (ENNReal.ofReal 3e-12) (ker key x b δ) (ker' key x b δ) :=
  ⟨_, _, .inl ⟨rfl, rfl⟩, Cand.OK.stepOK hC force_moveKer forcedIdx_mass forcedIdx_free fun δ hδ => hδ.pos 0,
    Cand.OK.stepOK hC (fun _ => liu_moveInvariant.ker) (fun _ => liu_moveMass) (fun _ _ => rfl) fun δ hδ => hδ.pos 0,
    fun δ hδ key x b => (hC _ (hδ.pos 0)).two key x b⟩

/-- The runs of a kernel and of its version with labels. -/
theorem sv_embeds {ker : Key → VGState (n + 1) d → ℝ → Ex (VGState (n + 1) d × Bool)} {init : Traj (n + 1) d → VGState (n + 1) d}
    {emb : Key → (Fin (n + 1) → Vec d) → (Fin (n + 1) → Fin 2) → (Fin (n + 1) → ℝ) → Ex ((Fin (n + 1) → Vec d) × (Fin (n + 1) → Fin 2))}
    (h : Embeds ker init emb) (ki ka kb ks : Key) (D : SvDyn d) (data : SvData (n + 1) d) (R : Resampling Ex N) (mv : AncestorMove Ex N)
    (cfg : AdaptCfg) (delta_init : ℝ) (adaptation burnin n_samples : ℕ)
    {f g : StepSize (n + 1) → (Fin M → Run (strideLen n_samples 1) (n + 1) d) → ℝ≥0∞} (hfg : ∀ δ c, f (.scalar δ) c = g (.perStep fun _ => δ) c) :
    svRuns ki ka kb ks D data (vgSv ker init) R mv cfg delta_init adaptation burnin n_samples M (fun o => f o.1 o.2) =
      svRuns ki ka kb ks D data (csmcSvPlain emb) R mv cfg delta_init adaptation burnin n_samples M (fun o => g o.1 o.2) := by
  refine congrArg (sv_init ki data.ys D R mv data.xs) (funext fun x => ?_)
  refine h.runs (M := M) cfg svWindow delta_init adaptation burnin n_samples ka kb ks x _ _ fun r r' hr => ?_
  obtain ⟨δ, h1, h2, h3⟩ := hr
  rw [h1, h2, h3]
  exact hfg δ _

/-- **C100** (comparison): every event about the step size and the chains of a run of the experiment with `MALA` or `TP` has the same
probability, up to `3e-12` for each step of the kernel, as in the run whose move has no guard against a division by zero. An event about
one chain counts its own steps and those of the adaptation. -/
theorem C100_compare (ht : 0 < tau) (hR : sel_resampling resampling = .ok R)
    (hk : k.kernel_maker svd (svDynArgs tau d) style target_stat R mv backward = .ok make) (hone : k = .TP ∨ k = .MALA) (target : ℤ) {delta_init : ℝ}
    (hd : 1e-5 ≤ delta_init ∧ delta_init ≤ 10) (data : SvData (n + 1) d) (adaptation burnin n_samples : ℕ) (ki ka kb ks : Key) :
    (∀ f : StepSize (n + 1) → (Fin M → Run (strideLen n_samples 1) (n + 1) d) → ℝ≥0∞, (∀ δ, Measurable (f δ)) → (∀ δ c, f δ c ≤ 1) →
      NearBy ((adaptation + M * (burnin + n_samples) : ℕ) * ENNReal.ofReal 3e-12)
        (svRuns ki ka kb ks (svDynArgs tau d) data (make data.ys) R mv (svCfg target) delta_init adaptation burnin n_samples M (fun o => f o.1 o.2))
        (svRuns ki ka kb ks (svDynArgs tau d) data (svGuardFree k tau N style data.ys) R mv (svCfg target) delta_init adaptation burnin n_samples M
          (fun o => f o.1 o.2))) ∧
    ∀ (f : StepSize (n + 1) → Run (strideLen n_samples 1) (n + 1) d → ℝ≥0∞) (j : Fin M), (∀ δ, Measurable (f δ)) → (∀ δ c, f δ c ≤ 1) →
      NearBy ((adaptation + burnin + n_samples : ℕ) * ENNReal.ofReal 3e-12)
        (svRuns ki ka kb ks (svDynArgs tau d) data (make data.ys) R mv (svCfg target) delta_init adaptation burnin n_samples M (fun o => f o.1 (o.2 j)))
        (svRuns ki ka kb ks (svDynArgs tau d) data (svGuardFree k tau N style data.ys) R mv (svCfg target) delta_init adaptation burnin n_samples M
          (fun o => f o.1 (o.2 j))) := by
  obtain ⟨C, ker, ker', init, h1, h2, hE, hE', hC⟩ := sv_one_form ht hk hone data.ys
  have h := sv_compare_pair (M := M) (mv := mv) (mv' := mv) ht hR (sv_one_pair hC) target hd data adaptation burnin n_samples ki ka kb ks
  rw [h1, h2]
  refine ⟨fun f hf hf1 => ?_, fun f j hf hf1 => ?_⟩
  · have h3 := h.1 (fun δ c => f (.scalar δ.num) c) (fun δ => hf _) fun δ => hf1 _
    have e1 := sv_embeds (f := f) (g := fun δ c => f (.scalar δ.num) c) hE ki ka kb ks (svDynArgs tau d) data R mv (svCfg target) delta_init adaptation burnin n_samples
      fun δ c => rfl
    have e2 := sv_embeds (f := f) (g := fun δ c => f (.scalar δ.num) c) hE' ki ka kb ks (svDynArgs tau d) data R mv (svCfg target) delta_init adaptation burnin n_samples
      fun δ c => rfl
    exact h3.of_eq e1 e2
  · have h3 := h.2 (fun δ => f (.scalar δ.num)) j (fun δ => hf _) fun δ => hf1 _
    have e1 := sv_embeds (f := fun δ c => f δ (c j)) (g := fun δ c => f (.scalar δ.num) (c j)) hE ki ka kb ks (svDynArgs tau d) data R mv (svCfg target) delta_init
      adaptation burnin n_samples fun δ c => rfl
    have e2 := sv_embeds (f := fun δ c => f δ (c j)) (g := fun δ c => f (.scalar δ.num) (c j)) hE' ki ka kb ks (svDynArgs tau d) data R mv (svCfg target) delta_init
      adaptation burnin n_samples fun δ c => rfl
    exact h3.of_eq e1 e2

/-- **C100** (samples): the samples of the experiment with `MALA` or `TP` come in the long run from the law that the kernel samples from
(the posterior for `TP`, the posterior of the model without dynamics for `MALA`), up to `3e-12` for each step of the run. -/
theorem C100_samples (ht : 0 < tau) (hR : sel_resampling resampling = .ok R) (hN : N ≠ 0)
    (hk : k.kernel_maker svd (svDynArgs tau d) style target_stat R mv backward = .ok make) (hone : k = .TP ∨ k = .MALA)
    (ys : Traj (n + 1) d) (target : ℤ) {delta_init : ℝ} (hd : 1e-5 ≤ delta_init ∧ delta_init ≤ 10) (adaptation : ℕ) {ε : ℝ≥0∞} (hε : ε ≠ 0) :
    ∃ n0 : ℕ, ∀ (data : SvData (n + 1) d), data.ys = ys → ∀ (M burnin n_samples : ℕ) (ki ka kb ks : Key) (j : Fin M)
      (l : Fin (strideLen n_samples 1)), n0 ≤ burnin + l →
      TVLe (ε + (adaptation + burnin + n_samples : ℕ) * ENNReal.ofReal 3e-12)
        (fun f => svSamples ki ka kb ks (svDynArgs tau d) data (make ys) R mv (svCfg target) delta_init adaptation burnin n_samples M
          (fun c => f ((c j).1 l)))
        (fun f => ∫⁻ x, f x ∂svPosterior k tau ys) := by
  obtain ⟨C, ker, ker', init, _, h2, _, hE', hC⟩ := sv_one_form ht hk hone ys
  obtain ⟨n0, h0⟩ := sv_samples (mv := mv) ht hR (sv_one_good ht hN hC) target hd adaptation hε
  refine ⟨n0, fun data hdata M burnin n_samples ki ka kb ks j l hl f hf hf1 => ?_⟩
  have h3 := h0 data hdata M burnin n_samples ki ka kb ks j l hl f hf hf1
  subst hdata
  have h4 := (C100_compare (target_stat := target_stat) (M := M) ht hR hk hone target hd data adaptation burnin n_samples ki ka kb ks).2
    (fun _ r => f (r.1 l)) j (fun _ => by fun_prop) fun _ _ => hf1 _
  have e := sv_embeds (f := fun _ c => f ((c j).1 l)) (g := fun _ c => f ((c j).1 l)) hE' ki ka kb ks (svDynArgs tau d) data R mv (svCfg target) delta_init
    adaptation burnin n_samples fun δ c => rfl
  rw [← h2] at e
  have h5 := h4.of_eq rfl e.symm
  constructor
  · exact (h5.1.trans (add_le_add_left h3.1 _)).trans (le_of_eq (by ring))
  · exact (h3.2.trans (add_le_add_left h5.2 _)).trans (le_of_eq (by rw [add_assoc, add_comm _ ε]; rfl))

open Classical in
/-- **C100** (reported moments): the probability that a mean or a standard deviation that is reported for a chain of `MALA` or `TP` is
off by more than `η` is at most as small as desired, plus `3e-12` for each step of the run, if the number of samples is large enough. -/
theorem C100_reported (ht : 0 < tau) (hR : sel_resampling resampling = .ok R) (hN : N ≠ 0)
    (hk : k.kernel_maker svd (svDynArgs tau d) style target_stat R mv backward = .ok make) (hone : k = .TP ∨ k = .MALA)
    (ys : Traj (n + 1) d) (target : ℤ) {delta_init : ℝ} (hd : 1e-5 ≤ delta_init ∧ delta_init ≤ 10) (adaptation : ℕ) {η : ℝ} (hη : 0 < η)
    {ε : ℝ≥0∞} (hε : ε ≠ 0) :
    ∃ n0 : ℕ, ∀ (data : SvData (n + 1) d), data.ys = ys → ∀ (M burnin n_samples : ℕ) (ki ka kb ks : Key) (j : Fin M), n0 ≤ n_samples →
      sv_run ki ka kb ks (svDynArgs tau d) data (make ys) R mv (svCfg target) delta_init adaptation burnin n_samples M
        (fun o => if SvOff k tau ys η (o.means j) (o.std_devs j) then 1 else 0) ≤ ε + (adaptation + burnin + n_samples : ℕ) * ENNReal.ofReal 3e-12 := by
  obtain ⟨C, ker, ker', init, _, h2, _, hE', hC⟩ := sv_one_form ht hk hone ys
  obtain ⟨n0, h0⟩ := sv_reported (mv := mv) ht hR (sv_one_good ht hN hC) target hd adaptation hη hε
  refine ⟨n0, fun data hdata M burnin n_samples ki ka kb ks j hn => ?_⟩
  have h3 := h0 data hdata M burnin n_samples ki ka kb ks j hn
  subst hdata
  obtain ⟨F, hF⟩ : ∃ F : Run (strideLen n_samples 1) (n + 1) d → ℝ≥0∞, F = fun r =>
    if SvOff k tau data.ys η (fun t i => meanA fun k => r.1 k t i) (fun t i => stdA fun k => r.1 k t i) then 1 else 0 := ⟨_, rfl⟩
  have h4 := (C100_compare (target_stat := target_stat) (M := M) ht hR hk hone target hd data adaptation burnin n_samples ki ka kb ks).2
    (fun _ => F) j (fun _ => by rw [hF]; exact measurable_svOff k tau data.ys η) fun _ _ => by rw [hF]; exact ite_le_one le_rfl zero_le
  have e := sv_embeds (f := fun _ c => F (c j)) (g := fun _ c => F (c j)) hE' ki ka kb ks (svDynArgs tau d) data R mv (svCfg target) delta_init
    adaptation burnin n_samples fun δ c => rfl
  rw [← h2] at e
  have h5 := (h4.of_eq rfl e.symm).1
  rw [hF] at h5
  exact h5.trans (add_le_add_left h3 _)

open Classical in
/-- **C100** (acceptance rates): the acceptance rates that are reported for a chain are close to the acceptance probability of a stationary
run of the kernel without the guard, with the step size that is reported. -/
theorem C100_acceptance (ht : 0 < tau) (hR : sel_resampling resampling = .ok R) (hN : N ≠ 0)
    (hk : k.kernel_maker svd (svDynArgs tau d) style target_stat R mv backward = .ok make) (hone : k = .TP ∨ k = .MALA)
    (ys : Traj (n + 1) d) (target : ℤ) {delta_init : ℝ} (hd : 1e-5 ≤ delta_init ∧ delta_init ≤ 10) (adaptation : ℕ) {η : ℝ} (hη : 0 < η)
    {ε : ℝ≥0∞} (hε : ε ≠ 0) :
    ∃ n0 : ℕ, ∀ (data : SvData (n + 1) d), data.ys = ys → ∀ (M burnin n_samples : ℕ) (ki ka kb ks : Key) (j : Fin M), n0 ≤ n_samples →
      sv_run ki ka kb ks (svDynArgs tau d) data (make ys) R mv (svCfg target) delta_init adaptation burnin n_samples M
        (fun o => if ∃ t, η < |o.final_pct j t - acceptProb (svGuardFree k tau N style ys) o.adapted_delta (svPosterior k tau ys) t| then 1 else 0) ≤
      ε + (adaptation + burnin + n_samples : ℕ) * ENNReal.ofReal 3e-12 := by
  obtain ⟨C, ker, ker', init, _, h2, _, hE', hC⟩ := sv_one_form ht hk hone ys
  obtain ⟨n0, h0⟩ := sv_acceptance (mv := mv) ht hR (sv_one_good ht hN hC) target hd adaptation hη hε
  refine ⟨n0, fun data hdata M burnin n_samples ki ka kb ks j hn => ?_⟩
  have h3 := h0 data hdata M burnin n_samples ki ka kb ks j hn
  subst hdata
  obtain ⟨F, hF⟩ : ∃ F : SvKernel Ex (n + 1) d → StepSize (n + 1) → Run (strideLen n_samples 1) (n + 1) d → ℝ≥0∞, F = fun K δ r =>
    if ∃ t, η < |meanA (fun k => r.2 k t) * 1 - acceptProb K δ (svPosterior k tau data.ys) t| then 1 else 0 := ⟨_, rfl⟩
  have hFm : ∀ K δ, Measurable (F K δ) := fun K δ => by
    rw [hF]
    refine Measurable.ite ?_ measurable_const measurable_const
    rw [Set.ofPred_exists]
    refine MeasurableSet.iUnion fun t => ?_
    have : Measurable fun r : Run (strideLen n_samples 1) (n + 1) d => meanA fun k => r.2 k t := by unfold meanA; fun_prop
    exact measurableSet_lt measurable_const (by fun_prop)
  have h4 := (C100_compare (target_stat := target_stat) (M := M) ht hR hk hone target hd data adaptation burnin n_samples ki ka kb ks).2
    (F (svGuardFree k tau N style data.ys)) j (hFm _) fun _ _ => by rw [hF]; exact ite_le_one le_rfl zero_le
  have e := sv_embeds (f := fun δ c => F (svGuardFree k tau N style data.ys) δ (c j))
    (g := fun δ c => F (csmcSvPlain (C.emb fun _ => liuMove)) δ (c j)) hE' ki ka kb ks (svDynArgs tau d) data R mv (svCfg target) delta_init
    adaptation burnin n_samples fun δ c => by
      rw [hF, h2]
      dsimp only
      simp only [hE'.acceptProb]
  rw [← h2] at e
  have h5 := (h4.of_eq rfl e.symm).1
  rw [hF] at h5
  exact h5.trans (add_le_add_left h3 _)

open Classical in
/-- **C100** (auto-correlations): the auto-correlations that are reported are close to those of a stationary run of the kernel without the
guard, with the step size that is reported. -/
theorem C100_acf (ht : 0 < tau) (hR : sel_resampling resampling = .ok R) (hN : N ≠ 0)
    (hk : k.kernel_maker svd (svDynArgs tau d) style target_stat R mv backward = .ok make) (hone : k = .TP ∨ k = .MALA)
    (ys : Traj (n + 1) d) (target : ℤ) {delta_init : ℝ} (hd : 1e-5 ≤ delta_init ∧ delta_init ≤ 10) (adaptation : ℕ) (hM : M ≠ 0) (n_lags : ℕ)
    {η : ℝ} (hη : 0 < η) {ε : ℝ≥0∞} (hε : ε ≠ 0) :
    ∃ n0 : ℕ, ∀ (data : SvData (n + 1) d), data.ys = ys → ∀ (burnin L : ℕ) (ki ka kb ks : Key), n0 ≤ L →
      svRuns ki ka kb ks (svDynArgs tau d) data (make ys) R mv (svCfg target) delta_init adaptation burnin (L + 1) M
        (fun o => if ∃ (lag : Fin (n_lags + 1)) (t : Fin (n + 1)) (i : Fin d),
          η < |samples_acf (fun (l : Fin (L + 1)) j => (o.2 j).1 ⟨l, by simp only [strideLen]; omega⟩ t i) lag -
            autoCorr (svGuardFree k tau N style ys) o.1 (svPosterior k tau ys) t i lag|
          then 1 else 0) ≤ ε + (adaptation + M * (burnin + (L + 1)) : ℕ) * ENNReal.ofReal 3e-12 := by
  obtain ⟨C, ker, ker', init, _, h2, _, hE', hC⟩ := sv_one_form ht hk hone ys
  obtain ⟨n0, h0⟩ := sv_acf (mv := mv) ht hR (sv_one_good ht hN hC) target hd adaptation hM n_lags hη hε
  refine ⟨n0, fun data hdata burnin L ki ka kb ks hn => ?_⟩
  have h3 := h0 data hdata burnin L ki ka kb ks hn
  subst hdata
  obtain ⟨F, hF⟩ : ∃ F : SvKernel Ex (n + 1) d → StepSize (n + 1) → (Fin M → Run (strideLen (L + 1) 1) (n + 1) d) → ℝ≥0∞, F = fun K δ c =>
    if ∃ (lag : Fin (n_lags + 1)) (t : Fin (n + 1)) (i : Fin d),
      η < |samples_acf (fun (l : Fin (L + 1)) j => (c j).1 ⟨l, by simp only [strideLen]; omega⟩ t i) lag - autoCorr K δ (svPosterior k tau data.ys) t i lag|
      then 1 else 0 := ⟨_, rfl⟩
  have hFm : ∀ K δ, Measurable (F K δ) := fun K δ => by
    rw [hF]
    exact measurable_anyOff (fun (lag : Fin (n_lags + 1)) t i => measurable_acf lag t i _) fun lag t i => autoCorr K δ (svPosterior k tau data.ys) t i lag
  have h4 := (C100_compare (target_stat := target_stat) (M := M) ht hR hk hone target hd data adaptation burnin (L + 1) ki ka kb ks).1
    (F (svGuardFree k tau N style data.ys)) (hFm _) fun _ _ => by rw [hF]; exact ite_le_one le_rfl zero_le
  have e := sv_embeds (f := fun δ c => F (svGuardFree k tau N style data.ys) δ c)
    (g := fun δ c => F (csmcSvPlain (C.emb fun _ => liuMove)) δ c) hE' ki ka kb ks (svDynArgs tau d) data R mv (svCfg target) delta_init
    adaptation burnin (L + 1) fun δ c => by
      rw [hF, h2]
      dsimp only
      simp only [hE'.autoCorr]
  rw [← h2] at e
  have h5 := (h4.of_eq rfl e.symm).1
  rw [hF] at h5
  exact h5.trans (add_le_add_left h3 _)

/-- **C100** (limits): the law of two samples of a stationary run exists for every lag, and the auto-correlations start at one and are at
most one in absolute value. -/
theorem C100_limits (ht : 0 < tau) (hN : N ≠ 0) (hk : k.kernel_maker svd (svDynArgs tau d) style target_stat R mv backward = .ok make)
    (hone : k = .TP ∨ k = .MALA) (ys : Traj (n + 1) d) {δ : ℝ} (hδ : 1e-5 ≤ δ ∧ δ ≤ 10) :
    (∀ lag, IsLagLaw (svGuardFree k tau N style ys) (.scalar δ) (svPosterior k tau ys) lag
      (lagLaw (svGuardFree k tau N style ys) (.scalar δ) (svPosterior k tau ys) lag)) ∧
    (∀ t i, autoCorr (svGuardFree k tau N style ys) (.scalar δ) (svPosterior k tau ys) t i 0 = 1) ∧
    ∀ t i lag, |autoCorr (svGuardFree k tau N style ys) (.scalar δ) (svPosterior k tau ys) t i lag| ≤ 1 := by
  obtain ⟨C, ker, ker', init, _, h2, _, hE', hC⟩ := sv_one_form ht hk hone ys
  have h := sv_limits ht (sv_one_good ht hN hC) (δ := fun _ => δ) fun _ => hδ
  simp only [hE'.autoCorr, hE'.lagLaw, hE'.isLagLaw] at h
  rw [h2]
  exact h

/-- The options with which the script runs if none are given (`MALA`, style `auxiliary`, `killing`, `forced`, 32 particles, 128 observations
in dimension 30, 10000 adaptation steps, 5000 steps of burn-in, 45000 samples, 4 chains): the guard changes the probability of any event
about a chain by at most `2e-7`. -/
example (data : SvData 128 30) : ∃ R mv make, sel_resampling (N := 31) (m := Ex) "killing" = .ok R ∧
    sel_last_step (N := 31) (m := Ex) "forced" = .ok mv ∧
    SvType.kernel_maker (n := 127) (diagSvd 30) .MALA (svDynArgs 10 30) "auxiliary" (.level 0.5) R mv true = .ok make ∧
    ∀ (j : Fin 4) (A : Set (Run (strideLen 45000 1) 128 30)), MeasurableSet A →
      svSamples [1] [2] [3] [4] (svDynArgs 10 30) data (make data.ys) R mv (svCfg 75) 0.01 10000 5000 45000 4 (fun c => A.indicator 1 (c j)) ≤
      svSamples [1] [2] [3] [4] (svDynArgs 10 30) data (svGuardFree .MALA 10 31 "auxiliary" data.ys) R mv (svCfg 75) 0.01 10000 5000 45000 4
        (fun c => A.indicator 1 (c j)) + ENNReal.ofReal 2e-7 := by
  obtain ⟨R, hR⟩ : ∃ R, sel_resampling (N := 31) (m := Ex) "killing" = .ok R := ⟨_, rfl⟩
  obtain ⟨mv, hm⟩ : ∃ mv, sel_last_step (N := 31) (m := Ex) "forced" = .ok mv := ⟨_, rfl⟩
  obtain ⟨make, hk⟩ : ∃ make, SvType.kernel_maker (n := 127) (diagSvd 30) .MALA (svDynArgs 10 30) "auxiliary" (.level 0.5) R mv true = .ok make :=
    ⟨_, by simp only [SvType.kernel_maker, sv_get_mala_kernel]; rw [if_neg (by decide), if_pos trivial]⟩
  refine ⟨R, mv, make, hR, hm, hk, fun j A hA => ?_⟩
  have h := (C100_compare (n := 127) (M := 4) (k := .MALA) (tau := 10) (svd := diagSvd 30) (style := "auxiliary") (target_stat := .level 0.5)
    (backward := true) (N := 31) (by norm_num) hR hk (.inr rfl) 75 (delta_init := 0.01) (by norm_num) data 10000 5000 45000 [1] [2] [3] [4]).2
    (fun _ => A.indicator 1) j (fun _ => measurable_one.indicator hA) (fun _ _ => Set.indicator_le_self' (fun _ _ => zero_le) _)
  refine h.1.trans (add_le_add_right ?_ _)
  rw [← ENNReal.ofReal_natCast, ← ENNReal.ofReal_mul (Nat.cast_nonneg _)]
  exact ENNReal.ofReal_le_ofReal (by norm_num)

/-- The same options: the samples come from the law that `MALA` samples from, up to one percent and the guard. -/
example (ys : Traj 128 30) : ∃ R mv make, sel_resampling (N := 31) (m := Ex) "killing" = .ok R ∧
    sel_last_step (N := 31) (m := Ex) "forced" = .ok mv ∧
    SvType.kernel_maker (n := 127) (diagSvd 30) .MALA (svDynArgs 10 30) "auxiliary" (.level 0.5) R mv true = .ok make ∧
    ∃ n0 : ℕ, ∀ (data : SvData 128 30), data.ys = ys → ∀ (burnin n_samples : ℕ) (j : Fin 4) (l : Fin (strideLen n_samples 1)), n0 ≤ burnin + l →
      TVLe (ENNReal.ofReal 0.01 + (10000 + burnin + n_samples : ℕ) * ENNReal.ofReal 3e-12)
        (fun f => svSamples [1] [2] [3] [4] (svDynArgs 10 30) data (make ys) R mv (svCfg 75) 0.01 10000 burnin n_samples 4 (fun c => f ((c j).1 l)))
        (fun f => ∫⁻ x, f x ∂svPosterior .MALA 10 ys) := by
  obtain ⟨R, hR⟩ : ∃ R, sel_resampling (N := 31) (m := Ex) "killing" = .ok R := ⟨_, rfl⟩
  obtain ⟨mv, hm⟩ : ∃ mv, sel_last_step (N := 31) (m := Ex) "forced" = .ok mv := ⟨_, rfl⟩
  obtain ⟨make, hk⟩ : ∃ make, SvType.kernel_maker (n := 127) (diagSvd 30) .MALA (svDynArgs 10 30) "auxiliary" (.level 0.5) R mv true = .ok make :=
    ⟨_, by simp only [SvType.kernel_maker, sv_get_mala_kernel]; rw [if_neg (by decide), if_pos trivial]⟩
  obtain ⟨n0, h⟩ := C100_samples (n := 127) (k := .MALA) (tau := 10) (svd := diagSvd 30) (style := "auxiliary") (target_stat := .level 0.5)
    (backward := true) (N := 31) (by norm_num) hR (by norm_num) hk (.inr rfl) ys 75 (delta_init := 0.01) (by norm_num) 10000
    (ε := ENNReal.ofReal 0.01) (ENNReal.ofReal_pos.mpr (by norm_num)).ne'
  exact ⟨R, mv, make, hR, hm, hk, n0, fun data hdata burnin n_samples j l hl => h data hdata 4 burnin n_samples [1] [2] [3] [4] j l hl⟩

end Verif.Props
