import Verif.Model.SvRuns
import Verif.Props.ExpRunsKeys
import Verif.Props.Drivers

/-!
# `experiments/stochastic_volatility/experiment.py`: keys, step sizes, options (C65, C52)
-/

namespace Verif.Props
open Verif Verif.Model Verif.Spec MeasureTheory Verif.Poss
open scoped ENNReal

variable {N n d : ℕ}

/-! ## The shape of a constructed kernel -/

/-- The type of conditional SMC kernels with states (trajectory, indices). -/
abbrev CsmcStep (m : Type → Type) (N n d : ℕ) : Type :=
  Key → (Fin (n + 1) → Vec d) → (Fin (n + 1) → Fin (N + 1)) → (Fin (n + 1) → ℝ) →
    m ((Fin (n + 1) → Vec d) × (Fin (n + 1) → Fin (N + 1)))

/-- The type of multi-try kernels. -/
abbrev VgStep (m : Type → Type) (n d : ℕ) : Type := Key → VGState (n + 1) d → ℝ → m (VGState (n + 1) d × Bool)

/-- A conditional SMC kernel with the property `Pc`, or a multi-try kernel with the property `Pv`. -/
def SvShape {m : Type → Type} [RandM m] (N : ℕ) (K : SvKernel m (n + 1) d) (Pc : CsmcStep m N n d → Prop)
    (Pv : VgStep m n d → Prop) : Prop :=
  (∃ kernel : CsmcStep m N n d, Pc kernel ∧ (K = csmcSvPlain kernel ∨ ∃ stat, K = csmcSvTwisted stat kernel)) ∨
    ∃ kernel init, Pv kernel ∧ K = vgSv kernel init

section shape
variable {m : Type → Type} [RandM m]

theorem shape_plain {K : SvKernel m (n + 1) d} {Pc : CsmcStep m N n d → Prop} {Pv : VgStep m n d → Prop}
    {kernel : CsmcStep m N n d} (h : Pc kernel) (e : K = csmcSvPlain kernel) : SvShape N K Pc Pv :=
  .inl ⟨kernel, h, .inl e⟩

theorem shape_vg {K : SvKernel m (n + 1) d} {Pc : CsmcStep m N n d → Prop} {Pv : VgStep m n d → Prop}
    {kernel : VgStep m n d} {init : Traj (n + 1) d → VGState (n + 1) d} (h : Pv kernel) (e : K = vgSv kernel init) :
    SvShape N K Pc Pv :=
  .inr ⟨kernel, init, h, e⟩

end shape

/-- The kernel respects the discipline of keys. -/
def CsmcFresh (kernel : CsmcStep Poss N n d) : Prop := ∀ key x b delta, FreshKeys key (kernel key x b delta)

@[inherit_doc CsmcFresh]
def VgFresh (kernel : VgStep Poss n d) : Prop := ∀ key s delta, FreshKeys key (kernel key s delta)

theorem sv_tp_csmc_shape {svd : Mat d d → SvdOut d} {D : SvDyn d} {style : String} {ts : TargetStat} {R : Resampling Poss N}
    (hR : FreshResampling R) {mv : AncestorMove Poss N} (hm : FreshMove mv) {backward stop : Bool}
    {make : Traj (n + 1) d → SvKernel Poss (n + 1) d}
    (hk : sv_get_tp_csmc_kernel svd D style ts stop R mv backward = .ok make) (ys : Traj (n + 1) d) :
    SvShape N (make ys) CsmcFresh VgFresh := by
  unfold sv_get_tp_csmc_kernel at hk
  by_cases h1 : style = "marginal"
  · rw [if_pos h1] at hk
    cases hk
    exact shape_plain (fun key x b delta => within_outOf (C52_tp_csmc svd (svGauss ys D stop) _ _ _ _ _ hR hm _)) rfl
  rw [if_neg h1] at hk
  by_cases h2 : style = "filtering"
  · rw [if_pos h2] at hk
    cases hk
    exact shape_plain (fun key x b delta => within_outOf (C52_atp svd (svGauss ys D stop) _ _ _ _ _ hR hm _)) rfl
  rw [if_neg h2] at hk
  by_cases h3 : style = "smoothing"
  · rw [if_pos h3] at hk
    match n, make, hk, ys with
    | n + 2, _, rfl, ys =>
      exact shape_plain (fun key x b delta => C52_atps svd (svGauss ys D stop) _ _ _ _ _ _ hR hm _) rfl
  rw [if_neg h3] at hk
  by_cases h4 : style = "twisted"
  · rw [if_pos h4] at hk
    cases hs : statOf (k := n + 1) ts with
    | error e => rw [hs] at hk; cases hk
    | ok stat =>
      rw [hs] at hk
      cases hk
      exact .inl ⟨_, fun key x b delta => within_outOf (C52_t_atp (svLin ys D stop) _ _ _ _ _ hR hm _), .inr ⟨stat, rfl⟩⟩
  · rw [if_neg h4] at hk
    cases hk

/-- Every kernel that the script can select respects the discipline of keys. -/
theorem sv_maker_shape {svd : Mat d d → SvdOut d} {k : SvType} {D : SvDyn d} {style resampling last_step : String}
    {ts : TargetStat} {R : Resampling Poss N} {mv : AncestorMove Poss N} (hR : sel_resampling resampling = .ok R)
    (hm : sel_last_step last_step = .ok mv) {backward : Bool} {make : Traj (n + 1) d → SvKernel Poss (n + 1) d}
    (hk : k.kernel_maker svd D style ts R mv backward = .ok make) (ys : Traj (n + 1) d) :
    SvShape N (make ys) CsmcFresh VgFresh := by
  have hR := sel_resampling_fresh hR
  have hm := sel_last_step_fresh hm
  cases k with
  | TP =>
    cases hk
    exact shape_vg (fun key s delta => C52_tp key s delta (svDyn D n) (fun xs => sv_log_likelihood xs ys) _ N) rfl
  | MALA =>
    simp only [SvType.kernel_maker, sv_get_mala_kernel] at hk
    by_cases h1 : style = "marginal"
    · rw [if_pos h1] at hk
      cases hk
      exact shape_vg (fun key s delta => C52_mala key s delta (svFullLogPdf ys D) (jaxGrad2 (svFullLogPdf ys D)) N false) rfl
    rw [if_neg h1] at hk
    by_cases h2 : style = "auxiliary"
    · rw [if_pos h2] at hk
      cases hk
      exact shape_vg (fun key s delta => C52_mala key s delta (svFullLogPdf ys D) (jaxGrad2 (svFullLogPdf ys D)) N true) rfl
    · rw [if_neg h2] at hk
      cases hk
  | CSMC =>
    simp only [SvType.kernel_maker, sv_get_csmc_kernel] at hk
    by_cases h1 : style = "bootstrap"
    · rw [if_pos h1] at hk
      cases hk
      exact shape_plain (fun key x b delta => within_outOf (C52_csmc _ _ _ (svFK ys D) _ _
        (fun key => within_iff.mpr (within_normal2 _ _ _).bind_pure)
        (fun key x p => within_iff.mpr (within_normal2 _ _ _).bind_pure) hR hm _ _)) rfl
    · rw [if_neg h1] at hk
      cases hk
  | RW_CSMC =>
    cases hk
    exact shape_plain (fun key x b delta => within_outOf (C52_rw _ _ _ _ _ _ _ _ hR hm _)) rfl
  | MALA_CSMC =>
    simp only [SvType.kernel_maker, sv_get_mala_csmc_kernel] at hk
    by_cases h1 : style = "filtering"
    · rw [if_pos h1] at hk
      cases hk
      exact shape_plain (fun key x b delta => within_outOf (C52_al _ _ _ _ _ _ _ _ _ _ hR hm _)) rfl
    rw [if_neg h1] at hk
    by_cases h2 : style = "smoothing"
    · rw [if_pos h2] at hk
      match n, make, hk, ys with
      | n + 2, _, rfl, ys =>
        exact shape_plain (fun key x b delta => within_outOf (C52_als _ _ _ _ _ _ _ _ _ _ _ hR hm _)) rfl
    rw [if_neg h2] at hk
    by_cases h3 : style = "marginal"
    · rw [if_pos h3] at hk
      cases hk
      exact shape_plain (fun key x b delta => within_outOf (C52_l _ _ _ _ _ _ _ _ _ _ hR hm _)) rfl
    · rw [if_neg h3] at hk
      cases hk
  | TP_CSMC => exact sv_tp_csmc_shape hR hm hk ys
  | ADAPTED_CSMC => exact sv_tp_csmc_shape hR hm hk ys

/-! ## Keys -/

section keys

/-- The functions returned by a constructor respect the discipline of keys. -/
theorem sv_kernel_fresh {K : SvKernel Poss (n + 1) d} (h : SvShape N K CsmcFresh VgFresh) :
    (∀ key s cfg W delta0 n_steps, FreshKeys key (K.adaptation_loop key s K.kernel cfg W delta0 n_steps)) ∧
    (∀ key s delta n_steps, FreshKeys key (K.experiment_last key s (fun k s => K.kernel k s delta) n_steps)) ∧
    ∀ key s delta n_steps, FreshKeys key (K.experiment_all key s (fun k s => K.kernel k s delta) n_steps) := by
  rcases h with ⟨kernel, hk, rfl | ⟨stat, rfl⟩⟩ | ⟨kernel, init, hk, rfl⟩
  · refine ⟨fun key s cfg W delta0 n_steps => ?_, fun key s delta n_steps => ?_, fun key s delta n_steps => ?_⟩
    · exact within_iff.mpr (within_iff.mp (C52_adaptation key s.1 s.2 _ (fun key s δ => hk key s.1 s.2 δ) cfg W
        (fun _ => delta0 * 1) n_steps)).bind_pure
    · exact within_iff.mpr (within_iff.mp (C52_sampling key s.1 s.2 _ (fun key s => hk key s.1 s.2 delta.at) n_steps 1).2).bind_pure
    · exact (C52_sampling key s.1 s.2 _ (fun key s => hk key s.1 s.2 delta.at) n_steps 1).1
  · refine ⟨fun key s cfg W delta0 n_steps => ?_, fun key s delta n_steps => ?_, fun key s delta n_steps => ?_⟩
    · exact within_iff.mpr (within_iff.mp (C52_t_adaptation key s.1 s.2 _ (fun key s δ => hk key s.1 s.2 δ) cfg stat W
        (fun _ => delta0 * 1) n_steps)).bind_pure
    · exact within_iff.mpr (within_iff.mp (C52_sampling key s.1 s.2 _ (fun key s => hk key s.1 s.2 delta.at) n_steps 1).2).bind_pure
    · exact (C52_sampling key s.1 s.2 _ (fun key s => hk key s.1 s.2 delta.at) n_steps 1).1
  · refine ⟨fun key s cfg W delta0 n_steps => ?_, fun key s delta n_steps => ?_, fun key s delta n_steps => ?_⟩
    · exact within_iff.mpr (within_iff.mp (C52_tp_adaptation key s _ (fun key s δ => hk key s δ) cfg W delta0 n_steps)).bind_pure
    · exact within_iff.mpr (within_iff.mp (C52_tp_sampling key s _ (fun key s => hk key s delta.num) n_steps 1).2).bind_pure
    · exact (C52_tp_sampling key s _ (fun key s => hk key s delta.num) n_steps 1).1

theorem sv_init_fresh (key : Key) (ys : Traj (n + 1) d) (D : SvDyn d) {R : Resampling Poss N} (hR : FreshResampling R)
    {mv : AncestorMove Poss N} (hm : FreshMove mv) (xs : Fin (n + 1) → Vec d) :
    FreshKeys key (sv_init key ys D R mv xs) :=
  within_iff.mpr (within_iff.mp (C52_csmc _ _ _ (svFK ys D) _ _ (fun key => within_iff.mpr (within_normal2 _ _ _).bind_pure)
    (fun key x p => within_iff.mpr (within_normal2 _ _ _).bind_pure) hR hm _ _)).bind_pure

theorem sv_one_experiment_fresh (key : Key) (args : SvArgs) {R : Resampling Poss args.N} (hR : FreshResampling R)
    {mv : AncestorMove Poss args.N} (hm : FreshMove mv) {make : Traj (n + 1) args.D → SvKernel Poss (n + 1) args.D}
    (hK : ∀ ys, SvShape args.N (make ys) CsmcFresh VgFresh) :
    FreshKeys key (sv_one_experiment key n args R mv make) := by
  rw [within_iff]
  refine Within.of_splitSet (I := {0} ∪ ({1} ∪ ({2} ∪ ({3} ∪ {4})))) ?_
  refine (within_child (num := 5) (i := 0) (within_iff.mp (C53_stochastic_volatility _ _ _ _ _ _ _))).bind_split
    (fun data => ?_) (by simp)
  obtain ⟨h1, h2, h3⟩ := sv_kernel_fresh (hK data.ys)
  refine (within_child (num := 5) (i := 1) (within_iff.mp (sv_init_fresh _ _ _ hR hm _))).bind_split (fun xs => ?_) (by simp)
  refine (within_child (num := 5) (i := 2) (within_iff.mp (h1 _ _ _ _ _ _))).bind_split (fun r => ?_) (by simp)
  refine Within.bind_pure ?_
  refine (within_child (num := 5) (i := 3) (within_vmapM _ _ fun i => within_iff.mp (h2 _ _ _ _))).bind_split
    (fun bs => ?_) (by simp)
  exact within_child (num := 5) (i := 4) (within_vmapM _ _ fun i => within_iff.mp (h3 _ _ _ _))

end keys

/-! ## What the command line accepts -/

/-- The styles that the constructor of a kernel accepts. -/
def svStyleOK : SvType → String → Prop
  | .CSMC, s => s = "bootstrap"
  | .TP_CSMC, s => s = "marginal" ∨ s = "filtering" ∨ s = "smoothing" ∨ s = "twisted"
  | .ADAPTED_CSMC, s => s = "marginal" ∨ s = "filtering" ∨ s = "smoothing" ∨ s = "twisted"
  | .MALA_CSMC, s => s = "marginal" ∨ s = "filtering" ∨ s = "smoothing"
  | .MALA, s => s = "marginal" ∨ s = "auxiliary"
  | .TP, _ => True
  | .RW_CSMC, _ => True

/-- The target statistics that the adaptation of the twisted kernels accepts: a percentage or one of four names. -/
def svStatOK (s : String) : Prop := isNumeric s = true ∨ s = "mean" ∨ s = "median" ∨ s = "max" ∨ s = "min"

/-- The options for which the target statistic is used. -/
def svUsesStat (k : SvType) (style : String) : Prop := (k = .TP_CSMC ∨ k = .ADAPTED_CSMC) ∧ style = "twisted"

theorem statOf_ok {k : ℕ} {s : String} (h : svStatOK s) : ∃ stat, statOf (k := k) (target_stat_of s) = .ok stat := by
  unfold target_stat_of
  by_cases hn : isNumeric s = true
  · rw [if_pos hn]
    exact ⟨_, rfl⟩
  · rw [if_neg hn]
    rcases h with h | rfl | rfl | rfl | rfl
    · exact absurd h hn
    all_goals exact ⟨_, rfl⟩

theorem statOf_error {k : ℕ} {s : String} (h : ¬ svStatOK s) : statOf (k := k) (target_stat_of s) = .error "TypeError" := by
  simp only [svStatOK, not_or] at h
  obtain ⟨h0, h1, h2, h3, h4⟩ := h
  unfold target_stat_of
  rw [if_neg h0]
  simp only [statOf]
  rw [if_neg h1, if_neg h2, if_neg h3, if_neg h4]

section script
variable {m : Type → Type} [RandM m]

theorem sv_maker_style (svd : Mat d d → SvdOut d) (k : SvType) (D : SvDyn d) (style : String) (target_stat : String)
    (R : Resampling m N) (mv : AncestorMove m N) (backward : Bool) :
    (svStyleOK k style → (svUsesStat k style → svStatOK target_stat) →
      ∃ make, k.kernel_maker (n := n + 2) svd D style (target_stat_of target_stat) R mv backward = .ok make) ∧
    (svUsesStat k style → ¬ svStatOK target_stat →
      k.kernel_maker (n := n) svd D style (target_stat_of target_stat) R mv backward = .error "TypeError") ∧
    (¬ svStyleOK k style →
      k.kernel_maker (n := n) svd D style (target_stat_of target_stat) R mv backward = .error "NotImplementedError") := by
  have htp : ∀ stop, ((style = "marginal" ∨ style = "filtering" ∨ style = "smoothing" ∨ style = "twisted") →
        (style = "twisted" → svStatOK target_stat) →
        ∃ make, sv_get_tp_csmc_kernel (n := n + 2) svd D style (target_stat_of target_stat) stop R mv backward = .ok make) ∧
      (style = "twisted" → ¬ svStatOK target_stat →
        sv_get_tp_csmc_kernel (n := n) svd D style (target_stat_of target_stat) stop R mv backward = .error "TypeError") ∧
      (¬ (style = "marginal" ∨ style = "filtering" ∨ style = "smoothing" ∨ style = "twisted") →
        sv_get_tp_csmc_kernel (n := n) svd D style (target_stat_of target_stat) stop R mv backward =
          .error "NotImplementedError") := by
    intro stop
    unfold sv_get_tp_csmc_kernel
    refine ⟨?_, ?_, fun h => ?_⟩
    · rintro (rfl | rfl | rfl | rfl) hs
      · exact ⟨_, rfl⟩
      · exact ⟨_, rfl⟩
      · exact ⟨_, rfl⟩
      · obtain ⟨stat, h⟩ := statOf_ok (k := n + 2 + 1) (hs rfl)
        rw [if_neg (by decide), if_neg (by decide), if_neg (by decide), if_pos rfl, h]
        exact ⟨_, rfl⟩
    · rintro rfl hs
      rw [if_neg (by decide), if_neg (by decide), if_neg (by decide), if_pos rfl, statOf_error hs]
    · push Not at h
      rw [if_neg h.1, if_neg h.2.1, if_neg h.2.2.1, if_neg h.2.2.2]
  cases k with
  | TP => exact ⟨fun _ _ => ⟨_, rfl⟩, fun h => absurd h.1 (by simp), fun h => absurd trivial h⟩
  | RW_CSMC => exact ⟨fun _ _ => ⟨_, rfl⟩, fun h => absurd h.1 (by simp), fun h => absurd trivial h⟩
  | MALA =>
    refine ⟨?_, fun h => absurd h.1 (by simp), fun h => ?_⟩
    · rintro (rfl | rfl) _
      · exact ⟨_, rfl⟩
      · exact ⟨_, rfl⟩
    · simp only [svStyleOK, not_or] at h
      simp only [SvType.kernel_maker, sv_get_mala_kernel]
      rw [if_neg h.1, if_neg h.2]
  | TP_CSMC => exact ⟨fun h h' => (htp false).1 h fun e => h' ⟨.inl rfl, e⟩, fun h => (htp false).2.1 h.2, (htp false).2.2⟩
  | ADAPTED_CSMC => exact ⟨fun h h' => (htp true).1 h fun e => h' ⟨.inr rfl, e⟩, fun h => (htp true).2.1 h.2, (htp true).2.2⟩
  | CSMC =>
    refine ⟨?_, fun h => absurd h.1 (by simp), fun h => ?_⟩
    · rintro rfl _
      exact ⟨_, rfl⟩
    · exact if_neg h
  | MALA_CSMC =>
    refine ⟨?_, fun h => absurd h.1 (by simp), fun h => ?_⟩
    · rintro (rfl | rfl | rfl) _
      · exact ⟨_, rfl⟩
      · exact ⟨_, rfl⟩
      · exact ⟨_, rfl⟩
    · simp only [svStyleOK, not_or] at h
      simp only [SvType.kernel_maker, sv_get_mala_csmc_kernel]
      rw [if_neg h.2.1, if_neg h.2.2, if_neg h.1]

/-- The script once the options have been read. -/
theorem sv_script_eq (svd : ∀ d, Mat d d → SvdOut d) (seed : Key) (n : ℕ) (args : SvArgs) {k : SvType}
    {R : Resampling m args.N} {mv : AncestorMove m args.N} (hk : SvType.ofValue args.kernel = .ok k)
    (hR : sel_resampling args.resampling = .ok R) (hm : sel_last_step args.last_step = .ok mv) :
    sv_script svd seed n args =
      (k.kernel_maker (n := n) (svd args.D) (svDynArgs args.tau args.D) args.style (target_stat_of args.target_stat) R mv
        args.backward).map fun make =>
        vmapM (fun key => sv_one_experiment key n args R mv make >>= fun o => pure o.saved) (splitKey seed args.K) := by
  unfold sv_script
  rw [hk, hR, hm]
  cases h : k.kernel_maker (n := n) (svd args.D) (svDynArgs args.tau args.D) args.style (target_stat_of args.target_stat) R mv
    args.backward <;> simp only [bind, Except.bind, h] <;> rfl

/-- **C65** (errors): the script stops exactly for an unknown kernel, resampling or last step (`ValueError`), for a style
that the constructor of the kernel does not accept (`NotImplementedError`), or, with style `twisted`, for a target statistic
which is neither a percentage nor one of four names (`TypeError`).  `TP` and `RW_CSMC` accept every style, and all other
kernels every target statistic. -/
theorem C65_errors (svd : ∀ d, Mat d d → SvdOut d) (seed : Key) (n : ℕ) (args : SvArgs) :
    (¬ (args.kernel < 7 ∧ (args.resampling = "killing" ∨ args.resampling = "multinomial") ∧
        (args.last_step = "forced" ∨ args.last_step = "barker")) →
      sv_script (m := m) svd seed n args = .error "ValueError") ∧
    (∀ k, SvType.ofValue args.kernel = .ok k → (args.resampling = "killing" ∨ args.resampling = "multinomial") →
      (args.last_step = "forced" ∨ args.last_step = "barker") →
      (¬ svStyleOK k args.style → sv_script (m := m) svd seed n args = .error "NotImplementedError") ∧
      (svUsesStat k args.style → ¬ svStatOK args.target_stat → sv_script (m := m) svd seed n args = .error "TypeError") ∧
      (svStyleOK k args.style → (svUsesStat k args.style → svStatOK args.target_stat) →
        ∃ P, sv_script (m := m) svd seed (n + 2) args = .ok P)) := by
  have hk : args.kernel < 7 ∨ SvType.ofValue args.kernel = .error "ValueError" := by
    generalize args.kernel = k
    match k with
    | 0 | 1 | 2 | 3 | 4 | 5 | 6 => exact Or.inl (by norm_num)
    | k + 7 => exact Or.inr rfl
  refine ⟨fun h => ?_, fun k hk' hR hm => ?_⟩
  · unfold sv_script
    rcases hk with hk | hk
    swap
    · rw [hk]
      rfl
    cases hv : SvType.ofValue args.kernel with
    | error e =>
      exfalso
      generalize args.kernel = k at hk hv
      interval_cases k <;> cases hv
    | ok k =>
      by_cases hR : args.resampling = "killing" ∨ args.resampling = "multinomial"
      swap
      · push Not at hR
        have : sel_resampling (m := m) (N := args.N) args.resampling = .error "ValueError" := by
          rw [sel_resampling, if_neg hR.1, if_neg hR.2]
        rw [this]
        rfl
      · have hm : ¬ (args.last_step = "forced" ∨ args.last_step = "barker") := fun hm => h ⟨hk, hR, hm⟩
        push Not at hm
        have : sel_last_step (m := m) (N := args.N) args.last_step = .error "ValueError" := by
          rw [sel_last_step, if_neg hm.1, if_neg hm.2]
        obtain ⟨R, hR'⟩ := sel_resampling_ok (m := m) (N := args.N) hR
        rw [this, hR']
        rfl
  · obtain ⟨R, hR⟩ := sel_resampling_ok (m := m) (N := args.N) hR
    obtain ⟨mv, hm⟩ := sel_last_step_ok (m := m) (N := args.N) hm
    rw [sv_script_eq svd seed n args hk' hR hm, sv_script_eq svd seed (n + 2) args hk' hR hm]
    obtain ⟨-, h2, h3⟩ := sv_maker_style (n := n) (svd args.D) k (svDynArgs args.tau args.D) args.style args.target_stat R mv
      args.backward
    have h1 := (sv_maker_style (n := n) (svd args.D) k (svDynArgs args.tau args.D) args.style args.target_stat R mv
      args.backward).1
    refine ⟨fun h => ?_, fun h hs => ?_, fun h hs => ?_⟩
    · rw [h3 h]
      rfl
    · rw [h2 h hs]
      rfl
    · obtain ⟨make, hmk⟩ := h1 h hs
      rw [hmk]
      exact ⟨_, rfl⟩

/-- What an accepted command line runs. -/
theorem sv_script_ok {svd : ∀ d, Mat d d → SvdOut d} {seed : Key} {n : ℕ} {args : SvArgs}
    {P : m (Fin args.K → SvOut (strideLen args.n_samples 1) args.M (n + 1) args.D)} (hP : sv_script svd seed n args = .ok P) :
    ∃ (k : SvType) (R : Resampling m args.N) (mv : AncestorMove m args.N) (make : Traj (n + 1) args.D → SvKernel m (n + 1) args.D),
      SvType.ofValue args.kernel = .ok k ∧ sel_resampling args.resampling = .ok R ∧ sel_last_step args.last_step = .ok mv ∧
      k.kernel_maker (n := n) (svd args.D) (svDynArgs args.tau args.D) args.style (target_stat_of args.target_stat) R mv
        args.backward = .ok make ∧
      P = vmapM (fun key => sv_one_experiment key n args R mv make >>= fun o => pure o.saved) (splitKey seed args.K) := by
  have hsel : args.kernel < 7 ∧ (args.resampling = "killing" ∨ args.resampling = "multinomial") ∧
      (args.last_step = "forced" ∨ args.last_step = "barker") := by
    by_contra h
    rw [(C65_errors svd seed n args).1 h] at hP
    cases hP
  obtain ⟨R, hR⟩ := sel_resampling_ok (m := m) (N := args.N) hsel.2.1
  obtain ⟨mv, hm⟩ := sel_last_step_ok (m := m) (N := args.N) hsel.2.2
  obtain ⟨k, hk⟩ : ∃ k, SvType.ofValue args.kernel = .ok k := by
    have := hsel.1
    generalize args.kernel = k at this ⊢
    interval_cases k <;> exact ⟨_, rfl⟩
  rw [sv_script_eq svd seed n args hk hR hm] at hP
  cases hmk : k.kernel_maker (n := n) (svd args.D) (svDynArgs args.tau args.D) args.style (target_stat_of args.target_stat) R mv
      args.backward with
  | error e =>
    rw [hmk] at hP
    cases hP
  | ok make =>
    rw [hmk] at hP
    cases hP
    exact ⟨k, R, mv, make, hk, hR, hm, hmk, rfl⟩

end script

/-- **C65** (keys): whatever the options, the whole script — data, initial trajectory, adaptation, burn-in and sampling of
every chain, in every experiment — uses each key at most once. -/
theorem C65_keys {svd : ∀ d, Mat d d → SvdOut d} {seed : Key} {args : SvArgs}
    {P : Poss (Fin args.K → SvOut (strideLen args.n_samples 1) args.M (n + 1) args.D)}
    (hP : sv_script svd seed n args = .ok P) : FreshKeys seed P := by
  obtain ⟨k, R, mv, make, hk, hR, hm, hmk, rfl⟩ := sv_script_ok hP
  exact within_iff.mpr (within_vmapM _ _ fun i => (within_iff.mp (sv_one_experiment_fresh _ args (sel_resampling_fresh hR)
    (sel_last_step_fresh hm) fun ys => sv_maker_shape hR hm hmk ys)).bind_pure)

/-! ## Step sizes and acceptance rates -/

theorem always_vmapM {I O : Type} {M : ℕ} {f : I → Poss O} {Q : O → Prop} (xs : Fin M → I) (h : ∀ i, Always (f (xs i)) Q) :
    Always (vmapM f xs) fun os => ∀ i, Q (os i) := by
  unfold vmapM
  refine always_bind (always_scanM_forall () xs (fun _ o => Q o) fun i c => ?_) fun r hr => always_pure hr
  exact always_bind (h i) fun o ho => always_pure ho

theorem t_final {X B : Type} [DecidableEq B] {T : ℕ} {cfg : AdaptCfg} (h : cfg.min_delta ≤ cfg.max_delta)
    (stat : (Fin T → Option ℝ) → Option ℝ)
    (kernel : Key → (Fin T → X) × (Fin T → B) → (Fin T → ℝ) → Poss ((Fin T → X) × (Fin T → B)))
    (key : Key) (init_xs : Fin T → X) (init_bs : Fin T → B) (W : ℕ) (initial_deltas : Fin T → ℝ) (n : ℕ) :
    Always (t_delta_adaptation_routine key init_xs init_bs kernel cfg stat W initial_deltas (n + 1)) (fun r =>
      ∀ t, cfg.min_delta ≤ r.2 t ∧ r.2 t ≤ cfg.max_delta) := by
  simp only [t_delta_adaptation_routine]
  rw [scanM_snoc, bind_assoc]
  refine always_bind' fun rs => ?_
  refine always_bind (R := fun r => ∀ t, cfg.min_delta ≤ r.1.deltas t ∧ r.1.deltas t ≤ cfg.max_delta) ?_
    fun r hr => always_pure hr
  refine always_bind (R := fun r => ∀ t, cfg.min_delta ≤ r.1.deltas t ∧ r.1.deltas t ≤ cfg.max_delta) ?_
    fun r hr => always_pure hr
  exact always_bind' fun next => always_pure fun t => clip_mem h

theorem tp_final {S : Type} {cfg : AdaptCfg} (h : cfg.min_delta ≤ cfg.max_delta) (kernel : Key → S → ℝ → Poss (S × Bool))
    (key : Key) (init : S) (W : ℕ) (delta : ℝ) (n : ℕ) :
    Always (tp_delta_adaptation_routine key init kernel cfg W delta (n + 1)) (fun r =>
      cfg.min_delta ≤ r.2 ∧ r.2 ≤ cfg.max_delta) := by
  simp only [tp_delta_adaptation_routine]
  rw [scanM_snoc, bind_assoc]
  refine always_bind' fun rs => ?_
  refine always_bind (R := fun r => cfg.min_delta ≤ r.1.delta ∧ r.1.delta ≤ cfg.max_delta) ?_ fun r hr => always_pure hr
  refine always_bind (R := fun r => cfg.min_delta ≤ r.1.delta ∧ r.1.delta ≤ cfg.max_delta) ?_ fun r hr => always_pure hr
  exact always_bind' fun next => always_pure (clip_mem h)

theorem sv_adaptation_bounds {K : SvKernel Poss (n + 1) d} {Pc Pv} (h : SvShape N K Pc Pv) (key : Key) (s : K.S)
    {cfg : AdaptCfg} (hc : cfg.min_delta ≤ cfg.max_delta) (W : ℕ) (delta : ℝ) (n_steps : ℕ) :
    Always (K.adaptation_loop key s K.kernel cfg W delta n_steps) fun r =>
      (0 < n_steps → ∀ t, cfg.min_delta ≤ r.2.at t ∧ r.2.at t ≤ cfg.max_delta) ∧ (n_steps = 0 → ∀ t, r.2.at t = delta) := by
  rcases h with ⟨kernel, -, rfl | ⟨stat, rfl⟩⟩ | ⟨kernel, init, -, rfl⟩
  · cases n_steps with
    | zero =>
      refine always_bind (R := fun r => r.2 = fun _ => delta * 1) ?_ fun r hr => always_pure
        ⟨fun h => absurd h (lt_irrefl 0), fun _ t => by simp [StepSize.at, hr]⟩
      exact always_bind (R := fun r => r.1.deltas = fun _ => delta * 1) (always_pure rfl) fun r hr => always_pure hr
    | succ n_steps =>
      exact always_bind (C46_csmc_final hc _ key s.1 s.2 W _ n_steps) fun r hr => always_pure
        ⟨fun _ t => hr t, fun h => absurd h (Nat.succ_ne_zero _)⟩
  · cases n_steps with
    | zero =>
      refine always_bind (R := fun r => r.2 = fun _ => delta * 1) ?_ fun r hr => always_pure
        ⟨fun h => absurd h (lt_irrefl 0), fun _ t => by simp [StepSize.at, hr]⟩
      exact always_bind (R := fun r => r.1.deltas = fun _ => delta * 1) (always_pure rfl) fun r hr => always_pure hr
    | succ n_steps =>
      exact always_bind (t_final hc stat _ key s.1 s.2 W _ n_steps) fun r hr => always_pure
        ⟨fun _ t => hr t, fun h => absurd h (Nat.succ_ne_zero _)⟩
  · cases n_steps with
    | zero =>
      refine always_bind (R := fun r => r.2 = delta) ?_ fun r hr => always_pure
        ⟨fun h => absurd h (lt_irrefl 0), fun _ t => by simp [StepSize.at, hr]⟩
      exact always_bind (R := fun r => r.1.delta = delta) (always_pure rfl) fun r hr => always_pure hr
    | succ n_steps =>
      exact always_bind (tp_final hc _ key s W _ n_steps) fun r hr => always_pure
        ⟨fun _ t => hr, fun h => absurd h (Nat.succ_ne_zero _)⟩

theorem meanA_unit {k : ℕ} {a : Fin k → ℝ} (h : ∀ i, 0 ≤ a i ∧ a i ≤ 1) : 0 ≤ meanA a ∧ meanA a ≤ 1 := by
  unfold meanA
  refine ⟨div_nonneg (Finset.sum_nonneg fun i _ => (h i).1) (Nat.cast_nonneg k), ?_⟩
  refine div_le_one_of_le₀ ?_ (Nat.cast_nonneg k)
  calc ∑ i, a i ≤ ∑ _i : Fin k, (1 : ℝ) := Finset.sum_le_sum fun i _ => (h i).2
    _ = k := by simp

theorem pct_unit {m : Type → Type} [RandM m] {K : SvKernel m (n + 1) d} {Pc Pv} (h : SvShape N K Pc Pv) (F : K.F)
    (t : Fin (n + 1)) : 0 ≤ K.pct F t ∧ K.pct F t ≤ 1 := by
  have hb : ∀ b, 0 ≤ boolF b ∧ boolF b ≤ 1 := fun b => by cases b <;> simp [boolF]
  rcases h with ⟨kernel, -, rfl | ⟨stat, rfl⟩⟩ | ⟨kernel, init, -, rfl⟩
  · exact hb _
  · exact hb _
  · exact hb _

/-- **C65** (results): in every run of the script with at least one adaptation step, all saved step sizes lie between
`MIN_DELTA` and `MAX_DELTA`; without adaptation they are `--delta-init`; and all saved acceptance rates lie between 0
and 1. -/
theorem C65_results {svd : ∀ d, Mat d d → SvdOut d} {seed : Key} {args : SvArgs}
    {P : Poss (Fin args.K → SvOut (strideLen args.n_samples 1) args.M (n + 1) args.D)}
    (hP : sv_script svd seed n args = .ok P) :
    Always P fun os => ∀ k : Fin args.K,
      (0 < args.adaptation → ∀ t, 0.00001 ≤ (os k).adapted_delta.at t ∧ (os k).adapted_delta.at t ≤ 10) ∧
      (args.adaptation = 0 → ∀ t, (os k).adapted_delta.at t = args.delta_init) ∧
      ∀ i t, 0 ≤ (os k).final_pct i t ∧ (os k).final_pct i t ≤ 1 := by
  obtain ⟨k, R, mv, make, hk, hR, hm, hmk, rfl⟩ := sv_script_ok hP
  refine always_vmapM (Q := fun o : SvOut (strideLen args.n_samples 1) args.M (n + 1) args.D =>
      (0 < args.adaptation → ∀ t, 0.00001 ≤ o.adapted_delta.at t ∧ o.adapted_delta.at t ≤ 10) ∧
      (args.adaptation = 0 → ∀ t, o.adapted_delta.at t = args.delta_init) ∧
      ∀ i t, 0 ≤ o.final_pct i t ∧ o.final_pct i t ≤ 1) _ fun i => ?_
  refine always_bind (R := fun o => (0 < args.adaptation → ∀ t, 0.00001 ≤ o.adapted_delta.at t ∧ o.adapted_delta.at t ≤ 10) ∧
      (args.adaptation = 0 → ∀ t, o.adapted_delta.at t = args.delta_init) ∧
      ∀ i t, 0 ≤ o.final_pct i t ∧ o.final_pct i t ≤ 1) ?_ fun o ho => always_pure ?_
  · refine always_bind' fun data => ?_
    have hK := sv_maker_shape hR hm hmk data.ys
    refine always_bind' fun xs => ?_
    refine always_bind (sv_adaptation_bounds hK _ _ (cfg := svCfg args.target) (by norm_num [svCfg]) _ _ _) fun r hr => ?_
    refine always_bind' fun chains => always_pure ⟨fun h t => ?_, fun h t => hr.2 h t, fun i t => ?_⟩
    · have := hr.1 h t
      norm_num [svCfg] at this ⊢
      exact this
    · show 0 ≤ meanA _ * 1 ∧ meanA _ * 1 ≤ 1
      rw [mul_one]
      exact meanA_unit fun j => pct_unit hK _ t
  · obtain ⟨h1, h2, h3⟩ := ho
    refine ⟨fun h t => ?_, fun h t => ?_, h3⟩
    · show 0.00001 ≤ o.adapted_delta.at t * 1 ∧ o.adapted_delta.at t * 1 ≤ 10
      rw [mul_one]
      exact h1 h t
    · show o.adapted_delta.at t * 1 = _
      rw [mul_one, h2 h t]

/-! ## Examples -/

/-- `--T 10 --D 2 --kernel 2 --style twisted --target-stat 50 …`. -/
def svExampleArgs : SvArgs where
  D := 2
  K := 5
  M := 4
  tau := 10
  n_samples := 450
  adaptation := 100
  burnin := 50
  delta_init := 0.01
  target := 75
  target_stat := "50"
  kernel := 2
  style := "twisted"
  backward := true
  resampling := "killing"
  last_step := "barker"
  N := 31

theorem svExample_ok {m : Type → Type} [RandM m] : ∃ P, sv_script (m := m) diagSvd [7] 9 svExampleArgs = .ok P :=
  (((C65_errors diagSvd [7] 7 svExampleArgs).2 .TP_CSMC rfl (Or.inl rfl) (Or.inr rfl)).2.2
    (Or.inr (Or.inr (Or.inr rfl))) fun _ => Or.inl (by decide))

example : ∃ P, sv_script diagSvd [7] 9 svExampleArgs = .ok P ∧ FreshKeys [7] P ∧
    Always P fun os => ∀ k t, 0.00001 ≤ (os k).adapted_delta.at t ∧ (os k).adapted_delta.at t ≤ 10 := by
  obtain ⟨P, hP⟩ := svExample_ok (m := Poss)
  exact ⟨P, hP, C65_keys hP, always_mono (C65_results hP) fun os h k t => (h k).1 (by decide) t⟩

/-- `--target-stat mode`: an error for the twisted kernel only. -/
example : sv_script (m := Poss) diagSvd [7] 9 { svExampleArgs with target_stat := "mode" } = .error "TypeError" ∧
    ∃ P, sv_script (m := Poss) diagSvd [7] 9 { svExampleArgs with target_stat := "mode", style := "marginal" } = .ok P :=
  ⟨((C65_errors diagSvd [7] 9 { svExampleArgs with target_stat := "mode" }).2 .TP_CSMC rfl (Or.inl rfl)
    (Or.inr rfl)).2.1 ⟨.inl rfl, rfl⟩ (by simp only [svStatOK]; decide),
   ((C65_errors diagSvd [7] 7 { svExampleArgs with target_stat := "mode", style := "marginal" }).2 .TP_CSMC rfl (Or.inl rfl)
    (Or.inr rfl)).2.2 (Or.inl rfl) fun h => absurd h.2 (by decide)⟩

/-- `--kernel 7`, and `--kernel 6 --style filtering`. -/
example : sv_script (m := Poss) diagSvd [7] 9 { svExampleArgs with kernel := 7 } = .error "ValueError" ∧
    sv_script (m := Poss) diagSvd [7] 9 { svExampleArgs with kernel := 6, style := "filtering" } = .error "NotImplementedError" :=
  ⟨(C65_errors diagSvd [7] 9 { svExampleArgs with kernel := 7 }).1 (by simp),
   ((C65_errors diagSvd [7] 9 { svExampleArgs with kernel := 6, style := "filtering" }).2 .MALA rfl (Or.inl rfl)
    (Or.inr rfl)).1 (by rintro (h | h) <;> revert h <;> decide)⟩

end Verif.Props
