import Verif.Props.ExpRuns
import Verif.Props.Keys
import Verif.Props.ExpData

/-!
# The replicates of `experiments/lgssm_scaling/experiment.py`: keys and selection (C63, C52)
-/

namespace Verif.Props
open Verif Verif.Model Verif.Spec MeasureTheory
open scoped ENNReal

variable {N n d : ℕ}

theorem within_vmapM {I O : Type} {M : ℕ} {f : I → Poss O} (xs : Fin M → I) (key : Key)
    (h : ∀ i, Within (f (xs i)) {splitKey key M i}) : Within (vmapM f xs) {key} :=
  (Within.of_splitSet (within_scanM_split () xs key (fun i : Fin M => i.1) Fin.val_injective
    fun i _ => (h i).bind_pure)).bind_pure

theorem within_outOf {P : Poss (KOut (Vec d) N n)} {key : Key} (h : FreshKeys key P) : FreshKeys key (outOf P) :=
  within_iff.mpr (within_iff.mp h).bind_pure

theorem sel_resampling_fresh {resampling : String} {R : Resampling Poss N} (h : sel_resampling resampling = .ok R) :
    FreshResampling R := by
  unfold sel_resampling at h
  split_ifs at h <;> cases h
  · exact killing_fresh
  · exact multinomial_fresh

theorem sel_last_step_fresh {last_step : String} {mv : AncestorMove Poss N} (h : sel_last_step last_step = .ok mv) :
    FreshMove mv := by
  unfold sel_last_step at h
  split_ifs at h <;> cases h
  · exact force_fresh
  · exact barker_fresh

theorem tp_csmc_fresh {svd : Mat d d → SvdOut d} {sigma : ℝ} {style : String} {R : Resampling Poss N} (hR : FreshResampling R)
    {mv : AncestorMove Poss N} (hm : FreshMove mv) {backward stop : Bool} {make : Traj (n + 1) d → KernelPair Poss (n + 1) d}
    (hk : lg_get_tp_csmc_kernel svd sigma style stop R mv backward = .ok make) (ys : Traj (n + 1) d) (key : Key)
    (s : (make ys).S) (delta : StepSize (n + 1)) : FreshKeys key ((make ys).kernel key s delta) := by
  unfold lg_get_tp_csmc_kernel at hk
  split_ifs at hk
  · cases hk
    exact within_outOf (C52_tp_csmc svd _ _ _ _ _ _ hR hm _)
  · cases hk
    exact within_outOf (C52_atp svd _ _ _ _ _ _ hR hm _)
  · match n, make, hk, ys, s, delta with
    | n + 2, _, rfl, ys, s, delta => exact C52_atps svd _ _ _ _ _ _ _ hR hm _
  · cases hk
    exact within_outOf (C52_t_atp _ _ _ _ _ _ hR hm _)

theorem fresh_fst {S B : Type} {P : Poss (S × B)} {key : Key} (h : FreshKeys key P) :
    FreshKeys key (do
      let r ← P
      pure r.1) :=
  within_iff.mpr (within_iff.mp h).bind_pure

theorem mala_step_fresh (ys : Traj (n + 1) d) (sigma : ℝ) (N : ℕ) (auxiliary stop : Bool) (key : Key) (s : VGState (n + 1) d)
    (delta : ℝ) : FreshKeys key (lg_mala_kernel ys sigma N auxiliary stop key s delta) :=
  C52_mala key s delta (fun xs => lg_log_pdf xs ys sigma)
    (fun xs => if stop then 0 else jaxGrad2 (fun xs => lg_log_pdf xs ys sigma) xs) N auxiliary

theorem tp_step_fresh (ys : Traj (n + 1) d) (sigma : ℝ) (N : ℕ) (key : Key) (s : VGState (n + 1) d)
    (delta : ℝ) : FreshKeys key (lg_tp_kernel ys sigma N key s delta) :=
  C52_tp key s delta (lgDyn sigma n d) (fun xs => lg_log_likelihood xs ys) (jaxGrad2 fun xs => lg_log_likelihood xs ys) N

theorem mala_fresh {sigma : ℝ} {style : String} {stop : Bool} {make : Traj (n + 1) d → KernelPair Poss (n + 1) d}
    (hk : lg_get_mala_kernel sigma N style stop = .ok make) (ys : Traj (n + 1) d) (key : Key)
    (s : (make ys).S) (delta : StepSize (n + 1)) : FreshKeys key ((make ys).kernel key s delta) := by
  unfold lg_get_mala_kernel at hk
  dsimp only at hk
  by_cases h1 : style = "marginal"
  · rw [if_pos h1] at hk
    cases hk
    exact fresh_fst (mala_step_fresh ys sigma N false stop key s delta.num)
  · by_cases h2 : style = "auxiliary"
    · rw [if_neg h1, if_pos h2] at hk
      cases hk
      exact fresh_fst (mala_step_fresh ys sigma N true stop key s delta.num)
    · rw [if_neg h1, if_neg h2] at hk
      cases hk

/-- **C52** (every kernel that the scaling script can select): each step consumes every key at most once. -/
theorem C52_lgssm_makers {svd : Mat d d → SvdOut d} {k : LgType} {sigma : ℝ} {style resampling last_step : String}
    {R : Resampling Poss N} {mv : AncestorMove Poss N} (hR : sel_resampling resampling = .ok R)
    (hm : sel_last_step last_step = .ok mv) {backward : Bool} {make : Traj (n + 1) d → KernelPair Poss (n + 1) d}
    (hk : k.kernel_maker svd sigma style R mv backward = .ok make) (ys : Traj (n + 1) d) (key : Key) (s : (make ys).S)
    (delta : StepSize (n + 1)) : FreshKeys key ((make ys).kernel key s delta) := by
  have hR := sel_resampling_fresh hR
  have hm := sel_last_step_fresh hm
  cases k with
  | TP =>
    cases hk
    exact fresh_fst (tp_step_fresh ys sigma N key s delta.num)
  | IMH =>
    cases hk
    exact within_iff.mpr (within_iff.mp (C52_imh key s _ _ N)).bind_pure
  | MALA => exact mala_fresh hk ys key s delta
  | RW => exact mala_fresh hk ys key s delta
  | CSMC =>
    simp only [LgType.kernel_maker, lg_get_csmc_kernel] at hk
    split_ifs at hk
    cases hk
    exact within_outOf (C52_csmc _ _ _ _ _ _ (fun key => within_iff.mpr (within_normal2 _ _ _).bind_pure)
      (fun key x p => within_iff.mpr (within_normal2 _ _ _).bind_pure) hR hm _ _)
  | RW_CSMC =>
    cases hk
    exact within_outOf (C52_rw _ _ _ _ _ _ _ _ hR hm _)
  | MALA_CSMC =>
    simp only [LgType.kernel_maker, lg_get_mala_csmc_kernel] at hk
    split_ifs at hk
    · cases hk
      exact within_outOf (C52_al _ _ _ _ _ _ _ _ _ _ hR hm _)
    · match n, make, hk, ys, s, delta with
      | n + 2, _, rfl, ys, s, delta => exact within_outOf (C52_als _ _ _ _ _ _ _ _ _ _ _ hR hm _)
    · cases hk
      exact within_outOf (C52_l _ _ _ _ _ _ _ _ _ _ hR hm _)
  | TP_CSMC => exact tp_csmc_fresh hR hm hk ys key s delta
  | ADAPTED_CSMC => exact tp_csmc_fresh hR hm hk ys key s delta

/-- **C63** (keys): with a kernel that respects the discipline, the replicates of one experiment use every key at most
once, across the initial trajectories and all chains, and no key of the data. (The data themselves use one key twice:
`C53_lgssm_false`.) -/
theorem C63_keys {K : KernelPair Poss (n + 1) d} (hK : ∀ key s delta, FreshKeys key (K.kernel key s delta)) (key : Key)
    (ys : Traj (n + 1) d) (sigma : ℝ) (DELTA : StepSize (n + 1)) (M : ℕ) :
    FreshKeys key (lg_measure (splitKey key 3 1) (splitKey key 3 2) ys sigma K DELTA M) ∧
    ∀ a L, lg_measure (m := Poss) (splitKey key 3 1) (splitKey key 3 2) ys sigma K DELTA M a L →
      ∀ k ∈ L, KeyDisj (splitKey key 3 0) k := by
  have h : Within (lg_measure (splitKey key 3 1) (splitKey key 3 2) ys sigma K DELTA M) (splitSet key ({1} ∪ {2})) := by
    refine (within_child (num := 3) (i := 1) ?_).bind_split (fun xs => ?_) (by simp)
    · exact (within_normal3 _ _ _ _).bind_pure
    · refine (within_child (num := 3) (i := 2) ?_).bind_pure
      exact within_vmapM _ _ fun i => (within_iff.mp (hK _ _ _)).bind_pure
  refine ⟨within_iff.mpr h.of_splitSet, fun a L hL k hk => ?_⟩
  obtain ⟨s, ⟨i, hi, rfl⟩, hs⟩ := (h a L hL).1 k hk
  refine KeyDisj.mono (keyDisj_child key (i := 0) (j := i) ?_) List.suffix_rfl hs
  rcases hi with hi | hi <;> rw [Set.mem_singleton_iff.mp hi] <;> decide

/-- **C63** (keys of one experiment): apart from the key that the data use twice, no key is used twice, across the data, the
initial trajectories and all chains. -/
theorem C63_keys_experiment {make : Traj (n + 1) d → KernelPair Poss (n + 1) d}
    (hK : ∀ ys key s delta, FreshKeys key ((make ys).kernel key s delta)) (key : Key) (sigma : ℝ) (DELTA : StepSize (n + 1)) (M : ℕ)
    (r : Fin (n + 1) → ℝ) (L : List Key) (h : lg_one_experiment key sigma make DELTA M r L) :
    ∃ k₀ L', L = k₀ :: k₀ :: L' ∧ (∀ k ∈ k₀ :: L', key <:+ k) ∧ (k₀ :: L').Pairwise KeyDisj := by
  obtain ⟨data, L₁, L₂, h1, h2, rfl⟩ := h
  have h3 := C53_lgssm_log _ _ _ _ _ _ h1
  have h4 := C63_keys (hK data.2) key data.2 sigma DELTA M
  obtain ⟨h5, h6⟩ := h4.1 r L₂ h2
  have h7 : splitKey key 3 0 <:+ (splitKey key 3 0).child 0 := ⟨[0], rfl⟩
  refine ⟨(splitKey key 3 0).child 0, L₂, by rw [h3]; rfl, ?_, ?_⟩
  · rintro k (_ | ⟨_, hk⟩)
    · exact List.IsSuffix.trans ⟨[0], rfl⟩ h7
    · exact h5 k hk
  · exact List.pairwise_cons.mpr ⟨fun k hk => KeyDisj.mono (h4.2 r L₂ h2 k hk) h7 List.suffix_rfl, h6⟩

/-! ## What the command line accepts -/

/-- The styles that the constructor of a kernel accepts. -/
def styleOK : LgType → String → Prop
  | .CSMC, s => s = "bootstrap"
  | .TP_CSMC, s => s = "marginal" ∨ s = "filtering" ∨ s = "smoothing" ∨ s = "twisted"
  | .ADAPTED_CSMC, s => s = "marginal" ∨ s = "filtering" ∨ s = "smoothing" ∨ s = "twisted"
  | .MALA_CSMC, s => s = "marginal" ∨ s = "filtering" ∨ s = "smoothing"
  | .MALA, s => s = "marginal" ∨ s = "auxiliary"
  | .RW, s => s = "marginal" ∨ s = "auxiliary"
  | .TP, _ => True
  | .IMH, _ => True
  | .RW_CSMC, _ => True

section script
variable {m : Type → Type} [RandM m]

theorem maker_style (svd : Mat d d → SvdOut d) (k : LgType) (sigma : ℝ) (style : String) (R : Resampling m N)
    (mv : AncestorMove m N) (backward : Bool) :
    (styleOK k style → ∃ make, k.kernel_maker (n := n + 2) svd sigma style R mv backward = .ok make) ∧
    (¬ styleOK k style → k.kernel_maker (n := n) svd sigma style R mv backward = .error "NotImplementedError") := by
  have htp : ∀ stop, ((style = "marginal" ∨ style = "filtering" ∨ style = "smoothing" ∨ style = "twisted") →
        ∃ make, lg_get_tp_csmc_kernel (n := n + 2) svd sigma style stop R mv backward = .ok make) ∧
      (¬ (style = "marginal" ∨ style = "filtering" ∨ style = "smoothing" ∨ style = "twisted") →
        lg_get_tp_csmc_kernel (n := n) svd sigma style stop R mv backward = .error "NotImplementedError") := by
    intro stop
    unfold lg_get_tp_csmc_kernel
    refine ⟨?_, fun h => ?_⟩
    · rintro (rfl | rfl | rfl | rfl)
      · exact ⟨_, rfl⟩
      · exact ⟨_, rfl⟩
      · exact ⟨_, rfl⟩
      · exact ⟨_, rfl⟩
    · push Not at h
      rw [if_neg h.1, if_neg h.2.1, if_neg h.2.2.1, if_neg h.2.2.2]
  have hma : ∀ stop, ((style = "marginal" ∨ style = "auxiliary") →
        ∃ make, lg_get_mala_kernel (m := m) (n := n + 2) (d := d) sigma N style stop = .ok make) ∧
      (¬ (style = "marginal" ∨ style = "auxiliary") →
        lg_get_mala_kernel (m := m) (n := n) (d := d) sigma N style stop = .error "NotImplementedError") := by
    intro stop
    unfold lg_get_mala_kernel
    dsimp only
    refine ⟨?_, fun h => ?_⟩
    · rintro (rfl | rfl)
      · exact ⟨_, rfl⟩
      · exact ⟨_, rfl⟩
    · push Not at h
      rw [if_neg h.1, if_neg h.2]
  cases k with
  | TP => exact ⟨fun _ => ⟨_, rfl⟩, fun h => absurd trivial h⟩
  | IMH => exact ⟨fun _ => ⟨_, rfl⟩, fun h => absurd trivial h⟩
  | RW_CSMC => exact ⟨fun _ => ⟨_, rfl⟩, fun h => absurd trivial h⟩
  | MALA => exact hma false
  | RW => exact hma true
  | TP_CSMC => exact htp false
  | ADAPTED_CSMC => exact htp true
  | CSMC =>
    refine ⟨?_, fun h => ?_⟩
    · rintro rfl
      exact ⟨_, rfl⟩
    · exact if_neg h
  | MALA_CSMC =>
    refine ⟨?_, fun h => ?_⟩
    · rintro (rfl | rfl | rfl)
      · exact ⟨_, rfl⟩
      · exact ⟨_, rfl⟩
      · exact ⟨_, rfl⟩
    · simp only [styleOK, not_or] at h
      simp only [LgType.kernel_maker, lg_get_mala_csmc_kernel]
      rw [if_neg h.2.1, if_neg h.2.2, if_neg h.1]

theorem sel_resampling_ok {resampling : String} (h : resampling = "killing" ∨ resampling = "multinomial") :
    ∃ R, sel_resampling (m := m) (N := N) resampling = .ok R := by
  unfold sel_resampling
  rcases h with rfl | rfl <;> exact ⟨_, rfl⟩

theorem sel_last_step_ok {last_step : String} (h : last_step = "forced" ∨ last_step = "barker") :
    ∃ mv, sel_last_step (m := m) (N := N) last_step = .ok mv := by
  unfold sel_last_step
  rcases h with rfl | rfl <;> exact ⟨_, rfl⟩

/-- The script once the options have been read. -/
theorem lg_script_eq (svd : ∀ d, Mat d d → SvdOut d) (seed : Key) (n : ℕ) (args : LgArgs) {k : LgType}
    {R : Resampling m args.N} {mv : AncestorMove m args.N} (hk : LgType.ofValue args.kernel = .ok k)
    (hR : sel_resampling args.resampling = .ok R) (hm : sel_last_step args.last_step = .ok mv) :
    lg_script svd seed n args =
      (k.kernel_maker (n := n) (svd args.D) (lg_sigma args.log_var) args.style R mv args.backward).map fun make =>
        vmapM (fun key => lg_one_experiment key (lg_sigma args.log_var) make
          (k.shape_delta (lg_delta args.delta_arg args.delta args.delta_scale args.D (n + 1)) (n + 1)) args.M)
          (splitKey seed args.K) := by
  unfold lg_script
  rw [hk, hR, hm]
  cases h : k.kernel_maker (n := n) (svd args.D) (lg_sigma args.log_var) args.style R mv args.backward <;>
    simp only [bind, Except.bind, h] <;> rfl

/-- **C63** (errors): the script stops exactly for an unknown kernel, resampling or last step (`ValueError`), or for a style
that the constructor of the kernel does not accept (`NotImplementedError`); `TP`, `IMH` and `RW_CSMC` accept every style. -/
theorem C63_errors (svd : ∀ d, Mat d d → SvdOut d) (seed : Key) (n : ℕ) (args : LgArgs) :
    (¬ (args.kernel < 9 ∧ (args.resampling = "killing" ∨ args.resampling = "multinomial") ∧
        (args.last_step = "forced" ∨ args.last_step = "barker")) →
      lg_script (m := m) svd seed n args = .error "ValueError") ∧
    (∀ k, LgType.ofValue args.kernel = .ok k → (args.resampling = "killing" ∨ args.resampling = "multinomial") →
      (args.last_step = "forced" ∨ args.last_step = "barker") →
      (¬ styleOK k args.style → lg_script (m := m) svd seed n args = .error "NotImplementedError") ∧
      (styleOK k args.style → ∃ P, lg_script (m := m) svd seed (n + 2) args = .ok P)) := by
  have hk : args.kernel < 9 ∨ LgType.ofValue args.kernel = .error "ValueError" := by
    rcases args with ⟨_, _, _, _, _, _, _, k, _⟩
    dsimp only
    match k with
    | 0 | 1 | 2 | 3 | 4 | 5 | 6 | 7 | 8 => exact Or.inl (by norm_num)
    | k + 9 => exact Or.inr rfl
  refine ⟨fun h => ?_, fun k hk' hR hm => ?_⟩
  · unfold lg_script
    rcases hk with hk | hk
    swap
    · rw [hk]
      rfl
    cases hv : LgType.ofValue args.kernel with
    | error e =>
      exfalso
      rcases args with ⟨_, _, _, _, _, _, _, k, _⟩
      dsimp only at hk hv
      interval_cases k <;> cases hv
    | ok k =>
      by_cases hR : args.resampling = "killing" ∨ args.resampling = "multinomial"
      swap
      · push Not at hR
        have : sel_resampling (m := m) (N := args.N) args.resampling = .error "ValueError" := by
          rw [sel_resampling, if_neg hR.1, if_neg hR.2]
        rw [this]
        rfl
      · have hm : ¬ (args.last_step = "forced" ∨ args.last_step = "barker") := fun hm => h ⟨hk, hR, hm⟩
        push Not at hm
        have : sel_last_step (m := m) (N := args.N) args.last_step = .error "ValueError" := by
          rw [sel_last_step, if_neg hm.1, if_neg hm.2]
        obtain ⟨R, hR'⟩ := sel_resampling_ok (m := m) (N := args.N) hR
        rw [this, hR']
        rfl
  · obtain ⟨R, hR⟩ := sel_resampling_ok (m := m) (N := args.N) hR
    obtain ⟨mv, hm⟩ := sel_last_step_ok (m := m) (N := args.N) hm
    rw [lg_script_eq svd seed n args hk' hR hm, lg_script_eq svd seed (n + 2) args hk' hR hm]
    refine ⟨fun h => ?_, fun h => ?_⟩
    · rw [(maker_style (svd args.D) k (lg_sigma args.log_var) args.style R mv args.backward).2 h]
      rfl
    · obtain ⟨make, hmk⟩ := (maker_style (n := n) (svd args.D) k (lg_sigma args.log_var) args.style R mv args.backward).1 h
      rw [hmk]
      exact ⟨_, rfl⟩

end script

/-- **C63** (the script): if the command line is accepted, the output is that of `K` experiments with the keys of the split
of the seed.  In each of them, given the data, the `M` measured pairs (state, next state) are independent with a common law
`μ`; the first component of `μ` is the posterior and the second one is the posterior up to `lgErr`.  The smoothing styles are
excluded. -/
theorem C63_script {svd : ∀ d, Mat d d → SvdOut d} {seed : Key} {args : LgArgs} {P : Ex (Fin args.K → Fin (n + 1) → ℝ)}
    (hP : lg_script svd seed n args = .ok P) (hstyle : args.style ≠ "smoothing") (hd : 0 < args.delta) (hD : 0 < args.D)
    (hM : 0 < args.M) {k : LgType} (hk : LgType.ofValue args.kernel = .ok k)
    (hsvd : let sigma := lg_sigma args.log_var
      let delta := lg_delta args.delta_arg args.delta args.delta_scale args.D (n + 1)
      k = .TP_CSMC ∨ k = .ADAPTED_CSMC →
      IsSvd (sigma ^ 2 • 1) (svd args.D (sigma ^ 2 • 1)).U (svd args.D (sigma ^ 2 • 1)).Gamma (svd args.D (sigma ^ 2 • 1)).U_t ∧
      1e-15 ≤ sigma ^ 2 * (delta / 2) / (sigma ^ 2 + delta / 2)) :
    ∃ (make : Traj (n + 1) args.D → KernelPair Ex (n + 1) args.D) (DELTA : StepSize (n + 1)),
      P = vmapM (fun key => lg_one_experiment key (lg_sigma args.log_var) make DELTA args.M) (splitKey seed args.K) ∧
      ∀ ys init_key sample_key, ∃ μ : Measure (Traj (n + 1) args.D × Traj (n + 1) args.D), IsProbabilityMeasure μ ∧
        (∀ key, IsJump (lgPosterior (lg_sigma args.log_var) ys) (jumpStep (make ys) DELTA key) μ) ∧
        (∀ f, Measurable f → ∫⁻ p, f p.1 ∂μ = ∫⁻ x, f x ∂lgPosterior (lg_sigma args.log_var) ys) ∧
        TVLe (lgErr k args.last_step) (fun f => ∫⁻ p, f p.2 ∂μ) (fun f => ∫⁻ x, f x ∂lgPosterior (lg_sigma args.log_var) ys) ∧
        ∀ F, Measurable F → lg_measure init_key sample_key ys (lg_sigma args.log_var) (make ys) DELTA args.M F =
          ∫⁻ p, F (meanSqJump p) ∂(Measure.pi fun _ : Fin args.M => μ) := by
  have hs := (C63_sigma args.log_var).1
  have hd' : 0 < lg_delta args.delta_arg args.delta args.delta_scale args.D (n + 1) :=
    (C63_delta hd args.delta_scale hD (Nat.succ_pos n) args.delta_arg).1
  have hsel : (args.resampling = "killing" ∨ args.resampling = "multinomial") ∧
      (args.last_step = "forced" ∨ args.last_step = "barker") := by
    by_contra h
    rw [(C63_errors svd seed n args).1 fun h' => h h'.2] at hP
    cases hP
  obtain ⟨R, hR⟩ := sel_resampling_ok (m := Ex) (N := args.N) hsel.1
  obtain ⟨mv, hm⟩ := sel_last_step_ok (m := Ex) (N := args.N) hsel.2
  rw [lg_script_eq svd seed n args hk hR hm] at hP
  cases hmk : k.kernel_maker (n := n) (svd args.D) (lg_sigma args.log_var) args.style R mv args.backward with
  | error e =>
    rw [hmk] at hP
    cases hP
  | ok make =>
    rw [hmk] at hP
    cases hP
    exact ⟨make, _, rfl, fun ys init_key sample_key =>
      C63_replicates hs ys (C63_makers hs hR hm hmk hstyle hd' hsvd ys) hM init_key sample_key⟩

/-! ## Examples -/

/-- `--T 10 --D 2 --kernel 2 --style marginal --resampling killing --last-step barker --backward`. -/
def lgExampleArgs : LgArgs where
  D := 2
  K := 4
  M := 100
  log_var := 0
  delta := 1
  delta_scale := 0
  delta_arg := "T"
  kernel := 2
  style := "marginal"
  backward := true
  resampling := "killing"
  last_step := "barker"
  N := 31

/-- A singular value decomposition of diagonal matrices. -/
def diagSvd (d : ℕ) (A : Mat d d) : SvdOut d := ⟨1, fun j => A j j, 1⟩

theorem diagSvd_smul (d : ℕ) {c : ℝ} (hc : 0 ≤ c) :
    IsSvd (c • 1) (diagSvd d (c • 1)).U (diagSvd d (c • 1)).Gamma (diagSvd d (c • 1)).U_t := by
  have h : (c • 1 : Mat d d) = Matrix.diagonal fun _ => c := by
    rw [Matrix.smul_one_eq_diagonal]
  have hg : (diagSvd d (c • 1)).Gamma = fun _ => c := by
    funext j
    simp [diagSvd]
  rw [hg]
  nth_rewrite 1 [h]
  exact isSvd_diag fun _ => hc

/-- The script with these options measures independent pairs whose components both have the law of the posterior. -/
example : ∃ P, lg_script (m := Ex) diagSvd [7] 9 lgExampleArgs = .ok P ∧
    ∃ (make : Traj 10 2 → KernelPair Ex 10 2) (DELTA : StepSize 10),
      P = vmapM (fun key => lg_one_experiment key (lg_sigma 0) make DELTA 100) (splitKey [7] 4) ∧
      ∀ ys init_key sample_key, ∃ μ : Measure (Traj 10 2 × Traj 10 2), IsProbabilityMeasure μ ∧
        (∀ key, IsJump (lgPosterior (lg_sigma 0) ys) (jumpStep (make ys) DELTA key) μ) ∧
        (∀ f, Measurable f → ∫⁻ p, f p.1 ∂μ = ∫⁻ x, f x ∂lgPosterior (lg_sigma 0) ys) ∧
        TVLe 0 (fun f => ∫⁻ p, f p.2 ∂μ) (fun f => ∫⁻ x, f x ∂lgPosterior (lg_sigma 0) ys) ∧
        ∀ F, Measurable F → lg_measure init_key sample_key ys (lg_sigma 0) (make ys) DELTA 100 F =
          ∫⁻ p, F (meanSqJump p) ∂(Measure.pi fun _ : Fin 100 => μ) := by
  have hk : LgType.ofValue lgExampleArgs.kernel = .ok .TP_CSMC := rfl
  obtain ⟨P, hP⟩ := (((C63_errors (m := Ex) diagSvd [7] 7 lgExampleArgs).2 _ hk (Or.inl rfl) (Or.inr rfl)).2 (Or.inl rfl))
  refine ⟨P, hP, ?_⟩
  refine (C63_script (n := 9) (args := lgExampleArgs) hP (by decide) one_pos (by decide) (by decide) hk ?_)
  intro sigma delta _
  have h1 : sigma ^ 2 = 1 := by
    show lg_sigma 0 ^ 2 = 1
    rw [(C63_sigma 0).2, Real.rpow_zero]
  have h2 : delta = 1 := (C63_delta one_pos 0 (D := 2) (T := 10) (by norm_num) (by norm_num) "T").2.2.2.2.2
  refine ⟨diagSvd_smul 2 (by rw [h1]; norm_num), ?_⟩
  rw [h1, h2]
  norm_num

/-- The kernel `TP` with an unknown style runs, the kernel `MALA_CSMC` does not. -/
example : (∃ P, lg_script (m := Ex) diagSvd [7] 9 { lgExampleArgs with kernel := 1, style := "twisted" } = .ok P) ∧
    lg_script (m := Ex) diagSvd [7] 9 { lgExampleArgs with kernel := 3, style := "twisted" } = .error "NotImplementedError" :=
  ⟨((C63_errors diagSvd [7] 7 { lgExampleArgs with kernel := 1, style := "twisted" }).2 .TP rfl (Or.inl rfl) (Or.inr rfl)).2
    trivial,
   ((C63_errors diagSvd [7] 9 { lgExampleArgs with kernel := 3, style := "twisted" }).2 .MALA_CSMC rfl (Or.inl rfl)
    (Or.inr rfl)).1 (by rintro (h | h | h) <;> revert h <;> decide)⟩

/-- `--kernel 9`. -/
example : lg_script (m := Ex) diagSvd [7] 9 { lgExampleArgs with kernel := 9 } = .error "ValueError" :=
  (C63_errors diagSvd [7] 9 { lgExampleArgs with kernel := 9 }).1 (by simp)

/-- The keys of 100 chains of Particle-aGRAD. -/
example (make : Traj 10 2 → KernelPair Poss 10 2) (ys : Traj 10 2)
    (h : LgType.ADAPTED_CSMC.kernel_maker (n := 9) (N := 31) (diagSvd 2) 1 "filtering" (fun key w i j c => killing key w i j c)
      (fun key w k => force_move key w k) false = .ok make) :=
  C63_keys (K := make ys) (fun key s delta => C52_lgssm_makers (resampling := "killing") (last_step := "forced") rfl rfl h ys
    key s delta) [3] ys 1 (.perStep fun _ => 1) 100

/-- The keys of the whole experiment. -/
example (make : Traj 10 2 → KernelPair Poss 10 2)
    (h : LgType.ADAPTED_CSMC.kernel_maker (n := 9) (N := 31) (diagSvd 2) 1 "filtering" (fun key w i j c => killing key w i j c)
      (fun key w k => force_move key w k) false = .ok make) :=
  C63_keys_experiment (make := make) (fun ys key s delta => C52_lgssm_makers (resampling := "killing") (last_step := "forced") rfl rfl h ys
    key s delta) [3] 1 (.perStep fun _ => 1) 100

end Verif.Props
