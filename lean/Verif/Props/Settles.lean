import Verif.Lemmas.DoeblinNear
import Verif.Props.Ergodic
import Verif.Props.MultiTryReach
import Verif.Spec.Settles

/-!
# C83: chains with bounded weights settle near their target; the rounding of `force_move` does not accumulate
-/

open scoped ENNReal
open MeasureTheory Finset

namespace Verif.Props
open Verif Verif.Model Verif.Spec Matrix

variable {N n d : ℕ} {resampling last_step : String} {R : Resampling Ex N} {mv : AncestorMove Ex N}

/-- **C83** (`mcmc_utils.sampling_routine` with `csmc.kernel`): if the weights are bounded, then from every trajectory and reference
indices, sample `k` of a chain that keeps every `g`-th state is within `(1 - rate) ^ (k g + 1) + ε / rate` of the target in
total variation, with `ε = 0` for `barker` and the rounding of `force_move` otherwise: the error of a long run is bounded. -/
theorem C83_csmc {X P G : Type} [MeasurableSpace X] (lam : Measure X) [SigmaFinite lam] {M : FK Ex X P G N} (hM : ProperFK lam M)
    {Mparams : Fin n → P} {Gparams : Fin n → G} {B : Fin (n + 1) → ℝ} (hB : BoundedFK lam M Mparams Gparams B)
    (hZ : ∫⁻ x, ENNReal.ofReal (Real.exp (pathLogDensity M.Gamma0 (fun t y x => M.Gammat y x (Gparams t)) x)) ∂(Measure.pi fun _ => lam) ≠ 0 ∧
      ∫⁻ x, ENNReal.ofReal (Real.exp (pathLogDensity M.Gamma0 (fun t y x => M.Gammat y x (Gparams t)) x)) ∂(Measure.pi fun _ => lam) ≠ ∞)
    (hR : sel_resampling resampling = .ok R) (hm : sel_last_step last_step = .ok mv) (backward : Bool) (key : Key)
    (x : Fin (n + 1) → X) (b : Fin (n + 1) → Fin (N + 1)) (n_samples g : ℕ) (k : Fin (strideLen n_samples g)) :
    let logpi := pathLogDensity M.Gamma0 (fun t y x => M.Gammat y x (Gparams t))
    let rate := csmcRate N n (awayOf N last_step) (spreadOf N resampling backward) B
          (∫⁻ x, ENNReal.ofReal (Real.exp (logpi x)) ∂(Measure.pi fun _ => lam))
    TVLe ((1 - rate) ^ (k * g + 1 : ℕ) + (if last_step = "barker" then 0 else forceErr) / rate)
      (fun f => sampling_routine key x b (fun key s => csmc_kernel key s.1 s.2 M Mparams Gparams R mv backward true >>= fun r =>
        pure (r.xs, r.Bs)) n_samples g fun r => f (r.1 k))
      fun f => ∫⁻ x, f x ∂lawOf (Measure.pi fun _ => lam) logpi := by
  intro logpi rate
  have hS := sel_ok hR hm
  have hmr := fun key => csmc_markov_relabels (N := N) lam key hM Mparams Gparams hS.cond hS.ker backward
  have hnear : ∀ key, LeavesNearInvariant (if last_step = "barker" then 0 else forceErr) lam logpi (fun x b => do
      let r ← csmc_kernel key x b M Mparams Gparams R mv backward true
      pure (r.xs, r.Bs)) := fun key => by
    rcases hS.near with ⟨h, e⟩ | ⟨h, e⟩
    · rw [e]
      exact (C15_C16_csmc_invariant lam key M hM Mparams Gparams R hS.cond mv h backward).near_zero
    · rw [e]
      subst h
      exact C61_csmc hS.cond key backward lam hM Mparams Gparams
  have h := indexed_chain_settles (measurable_pathLogDensity hM.Gamma0_meas fun _ => hM.Gammat_meas _) hZ
    (step := fun key s => csmc_kernel key s.1 s.2 M Mparams Gparams R mv backward true >>= fun r => pure (r.xs, r.Bs))
    (fun key => (hmr key).1 hS.mass) (fun key => (hmr key).2 hS.rotR hS.rot) hnear
    (fun key x b f hf => csmc_ge key hM hB hS.cond (fun key => sel_spreads hR backward key) hS.ker (fun key => sel_movesAway hm key)
      x b hf) (splitKey key n_samples) ⟨k * g + 1, Nat.succ_lt_succ (strideLen_lt k)⟩ (x, b)
  intro f hf hf1
  have e := congrFun (C49_sampling (m := Ex) key x b (fun key s => csmc_kernel key s.1 s.2 M Mparams Gparams R mv backward true >>= fun r =>
    pure (r.xs, r.Bs)) n_samples g) fun r => f (r.1 k)
  obtain ⟨h1, h2⟩ := h f hf hf1
  exact ⟨(le_of_eq e).trans h1, h2.trans (le_of_eq (congrArg (· + _) e.symm))⟩

/-- **C83** (`experiments/lgssm_scaling`, `CSMC`): for all observations, from every state. -/
theorem C83_lgssm {sigma : ℝ} (hs : 0 < sigma) (ys : Traj (n + 1) d) (hR : sel_resampling resampling = .ok R)
    (hm : sel_last_step last_step = .ok mv) (backward : Bool) (key : Key) (x : Traj (n + 1) d) (b : Fin (n + 1) → Fin (N + 1))
    (n_samples g : ℕ) (k : Fin (strideLen n_samples g)) :
    let rate := csmcRate N n (awayOf N last_step) (spreadOf N resampling backward) (fun _ => lgMaxLog d)
          (∫⁻ x, ENNReal.ofReal (Real.exp (lgTarget sigma ys x)) ∂trajVol (n + 1) d)
    TVLe ((1 - rate) ^ (k * g + 1 : ℕ) + (if last_step = "barker" then 0 else forceErr) / rate)
      (fun f => sampling_routine key x b (fun key s => outOf (lg_csmc_kernel ys sigma R mv backward key s.1 s.2)) n_samples g
        fun r => f (r.1 k))
      fun f => ∫⁻ x, f x ∂lawOf (trajVol (n + 1) d) (lgTarget sigma ys) := by
  have e := lgTarget_gamma ys hs
  have hZ := lgTarget_mass hs ys
  rw [← e] at hZ ⊢
  exact C83_csmc volume (C19_lgssm_proper ys hs) (lgFK_bounded ys hs) hZ hR hm backward key x b n_samples g k

/-- `lgssm`, multinomial resampling and backward sampling, from the zero trajectory: a million steps. -/
example (ys : Traj 20 3) := C83_lgssm (N := 25) (n := 19) (sigma := 2) (by norm_num) ys (resampling := "multinomial") (last_step := "forced")
  rfl rfl true [5] 0 (fun _ => 0) 1000000 10 ⟨99999, by decide⟩

section sv
variable {svd : Mat d d → SvdOut d} {tau : ℤ} {style : String} {target_stat : TargetStat} {backward : Bool}
  {make : Traj (n + 1) d → SvKernel Ex (n + 1) d}

/-- **C83** (`experiments/stochastic_volatility`, `CSMC`): if no observation is zero. -/
theorem C83_sv (ht : 0 < tau) (hR : sel_resampling resampling = .ok R) (hm : sel_last_step last_step = .ok mv)
    (hk : SvType.CSMC.kernel_maker svd (svDynArgs tau d) style target_stat R mv backward = .ok make)
    {ys : Traj (n + 1) d} (hy : ∀ t j, ys t j ≠ 0) (delta : StepSize (n + 1)) :
    SettlesNear (1 - svRate N resampling last_step backward tau ys) (svErr .CSMC last_step / svRate N resampling last_step backward tau ys)
      (svPosterior .CSMC tau ys) (make ys) delta := by
  have hS := sel_ok hR hm
  have hP := svDynArgs_P0 ht d
  have hQ := svDynArgs_Q ht d
  obtain ⟨hl, hZ⟩ := svSampled_mass .CSMC ht ys
  simp only [SvType.kernel_maker, sv_get_csmc_kernel] at hk
  split_ifs at hk
  cases hk
  intro key n_steps k s f hf hf1
  have hok := sv_csmc_ok ys hS hP hQ backward
  have hlt : k.1 * 1 + 1 < n_steps + 1 := Nat.succ_lt_succ (strideLen_lt k)
  obtain ⟨h1, h2⟩ := indexed_chain_settles hl hZ
    (step := fun key s => outOf (sv_csmc_kernel ys (svDynArgs tau d) R mv backward true key s.1 s.2))
    (fun key => hok.markov key) (fun key => hok.relabels key) hok.near
    (fun key x b f hf => sv_csmc_ge hP hQ hy hR hm backward key x b hf) (splitKey key n_steps) ⟨k * 1 + 1, hlt⟩ s f hf hf1
  have e := congrFun (C49_sampling (m := Ex) key s.1 s.2
    (fun key s => outOf (sv_csmc_kernel ys (svDynArgs tau d) R mv backward true key s.1 s.2)) n_steps 1) fun r => f (r.1 k)
  have hc : ((⟨k * 1 + 1, hlt⟩ : Fin (n_steps + 1)) : ℕ) = (k : ℕ) + 1 := by simp
  have hE : svErr .CSMC last_step = if last_step = "barker" then 0 else forceErr := by simp [svErr]
  have e3 : csmcRate N n (awayOf N last_step) (spreadOf N resampling backward) (fun t => svMaxLog (ys t)) 1 *
      ∫⁻ x, ENNReal.ofReal (Real.exp (svSampled .CSMC tau ys x)) ∂(Measure.pi fun _ => volume) =
      svRate N resampling last_step backward tau ys := by
    rw [svRate, csmcRate, csmcRate, mul_one]
  rw [hc, e3] at h1 h2
  rw [hE]
  exact ⟨(le_of_eq e).trans h1, h2.trans (le_of_eq (congrArg (· + _) e.symm))⟩

/-- **C83** (script): the chains of `one_experiment`, whatever the adaptation returned. Sample `k` of every chain after the
burn-in is within `(1 - svRate) ^ (burnin + k + 1) + svErr / svRate` of the posterior. -/
theorem C83_sv_chains (ht : 0 < tau) (hR : sel_resampling resampling = .ok R) (hm : sel_last_step last_step = .ok mv)
    (hk : SvType.CSMC.kernel_maker svd (svDynArgs tau d) style target_stat R mv backward = .ok make)
    {ys : Traj (n + 1) d} (hy : ∀ t j, ys t j ≠ 0) (delta : StepSize (n + 1)) (s : (make ys).S) (burnin_key sample_key : Key)
    (burnin n_samples : ℕ) {M : ℕ} (i : Fin M) (k : Fin (strideLen n_samples 1)) :
    TVLe ((1 - svRate N resampling last_step backward tau ys) ^ (burnin + k + 1 : ℕ) +
        svErr .CSMC last_step / svRate N resampling last_step backward tau ys)
      (fun f => sv_chains burnin_key sample_key (make ys) s delta burnin n_samples M fun c => f ((c i).1 k))
      fun f => ∫⁻ x, f x ∂svPosterior .CSMC tau ys := by
  have hA := C83_sv ht hR hm hk hy delta
  have hch : ∃ Good : (make ys).S → Prop, ChainsOK (make ys) delta Good ∧ ∀ s, Good s := by
    simp only [SvType.kernel_maker, sv_get_csmc_kernel] at hk
    split_ifs at hk
    cases hk
    have hok := sv_csmc_ok ys (sel_ok hR hm) (svDynArgs_P0 ht d) (svDynArgs_Q ht d) backward
    exact ⟨_, csmcSv_chainsOK (fun key => hok.markov key) (fun key => hok.relabels key) hok.free, fun _ => trivial⟩
  obtain ⟨Good, hok, hg⟩ := hch
  obtain ⟨ν, hν, hlaw, hc⟩ := hok.law (hg s) burnin n_samples
  intro f hf hf1
  have hk' : k + burnin < strideLen (n_samples + burnin) 1 := by
    have := k.2
    simp only [strideLen] at this ⊢
    omega
  have e1 : sv_chains burnin_key sample_key (make ys) s delta burnin n_samples M (fun c => f ((c i).1 k)) = ∫⁻ r, f (r.1 k) ∂ν := by
    have h1 := hc M burnin_key sample_key (fun c => f ((c i).1 k)) (by fun_prop)
    refine h1.trans ?_
    have hp := measurePreserving_eval (fun _ : Fin M => ν) i
    exact hp.lintegral_comp (f := fun r : Run (strideLen n_samples 1) (n + 1) d => f (r.1 k)) (by fun_prop)
  have e2 : ∫⁻ r, f (r.1 k) ∂ν = (make ys).experiment_all [] s (fun k s => (make ys).kernel k s delta) (n_samples + burnin)
      fun r => f (r.1 ⟨k + burnin, hk'⟩) := hlaw [] (fun r => f (r.1 k)) (by fun_prop)
  have e3 := hA [] (n_samples + burnin) ⟨k + burnin, hk'⟩ s f hf hf1
  have e4 : burnin + (k : ℕ) + 1 = (k : ℕ) + burnin + 1 := by omega
  simp only [e1, e2, e4]
  exact e3

end sv

/-- The defaults of the script with `forced`: 32 particles, 50 observations. -/
example : ∃ make, SvType.kernel_maker (m := Ex) (N := 31) (n := 49) (diagSvd 30) .CSMC (svDynArgs 10 30) "bootstrap"
    (.level 0.5) (fun key w i j c => killing key w i j c) (fun key w k => force_move key w k) false = .ok make ∧
    SettlesNear (1 - svRate (n := 49) (d := 30) 31 "killing" "forced" false 10 (fun _ _ => 1))
      (svErr .CSMC "forced" / svRate (n := 49) (d := 30) 31 "killing" "forced" false 10 (fun _ _ => 1))
      (svPosterior .CSMC 10 fun _ _ => 1) (make fun _ _ => 1) (.scalar 0.01) :=
  ⟨_, rfl, C83_sv (n := 49) (d := 30) (svd := diagSvd 30) (tau := 10) (style := "bootstrap") (target_stat := .level 0.5)
    (resampling := "killing") (last_step := "forced") (backward := false) (by norm_num) rfl rfl rfl (fun _ _ => one_ne_zero) _⟩

/-! ## Independent Metropolis-Hastings -/

/-- **C83** (rate of `imh`): with at least one proposal the rate is positive. -/
theorem C83_imh_rate (hN : N ≠ 0) (B : ℝ) {Z : ℝ≥0∞} (hZ : Z ≠ 0) : imhRate N B Z ≠ 0 := by
  have hN' : (N : ℝ≥0∞) ≠ 0 := by exact_mod_cast hN
  exact mul_ne_zero (mul_ne_zero (mul_ne_zero (ENNReal.ofReal_pos.mpr (by positivity)).ne' hN')
    (ENNReal.ofReal_pos.mpr (by positivity)).ne') hZ

section imh
variable {D : Dyn n d} (hP : D.P0.PosDef) (hQ : ∀ t, (D.Qs t).PosDef) {log_pdf : Traj (n + 1) d → ℝ} (hl : Measurable log_pdf)
include hP hQ hl

/-- One step of the chain of positions. -/
noncomputable def imhStep (D : Dyn n d) (log_pdf : Traj (n + 1) d → ℝ) (N : ℕ) (key : Key) (x : Traj (n + 1) d) : Ex (Traj (n + 1) d) :=
  stateStep (fun key s => imh_kernel key s D log_pdf N) key (x, log_pdf x) >>= fun s => pure s.1

theorem imhStep_ker (key : Key) : IsKer (imhStep D log_pdf N key) :=
  ((imh_step_ker hP hQ hl key N).comp (g := fun x : Traj (n + 1) d => (x, log_pdf x)) (measurable_id.prodMk hl)).bind
    (IsKer.pure (g := fun p : Traj (n + 1) d × (Traj (n + 1) d × ℝ) => p.2.1) (by fun_prop))

omit hl in
theorem imhStep_mass (key : Key) (x : Traj (n + 1) d) : imhStep D log_pdf N key x (fun _ => 1) = 1 :=
  imh_step_mass hP hQ log_pdf key N (x, log_pdf x)

/-- The target has a finite mass, each step draws from it with probability at least the rate, and leaves it nearly invariant. -/
theorem imh_doeblin {B : ℝ} (hB : ∀ x, log_pdf x ≤ B) :
    let Z := ∫⁻ x, ENNReal.ofReal (Real.exp (mtTarget D log_pdf x)) ∂trajVol (n + 1) d
    let π := lawOf (trajVol (n + 1) d) (mtTarget D log_pdf)
    (Z ≠ 0 ∧ Z ≠ ∞) ∧ (∃ ν : Measure (Traj (n + 1) d), ν Set.univ = imhRate N B Z ∧
      ∀ key x g, Measurable g → ∫⁻ y, g y ∂ν ≤ imhStep D log_pdf N key x g) ∧
    ∀ key, TVLe forceErr (fun f => ∫⁻ x, imhStep D log_pdf N key x f ∂π) fun f => ∫⁻ x, f x ∂π := by
  intro Z π
  have hmt := measurable_mtTarget D hl
  -- the mass of the target
  have hS := C39_prior (N := 1) D.m0 hP (Fs := D.Fs) hQ D.bs []
  have hE : Measurable fun x => ENNReal.ofReal (Real.exp (mtTarget D log_pdf x)) := measurable_expR hmt
  have hZ : Z ≠ 0 ∧ Z ≠ ∞ := by
    constructor
    · rw [Ne, lintegral_eq_zero_iff hE]
      intro h
      have : (ae (trajVol (n + 1) d)).NeBot := ae_neBot.mpr trajVol_ne
      obtain ⟨y, hy⟩ := h.exists
      exact absurd hy (ENNReal.ofReal_pos.mpr (Real.exp_pos _)).ne'
    · refine ne_top_of_le_ne_top (b := ENNReal.ofReal (Real.exp B)) ENNReal.ofReal_ne_top ?_
      calc _ ≤ ∫⁻ x, ENNReal.ofReal (Real.exp B) * ENNReal.ofReal (Real.exp (gaussPathLog D.m0 D.P0 D.Fs D.Qs D.bs x)) ∂trajVol (n + 1) d := by
            refine lintegral_mono fun x => ?_
            rw [← ENNReal.ofReal_mul (Real.exp_pos _).le, ← Real.exp_add]
            exact ENNReal.ofReal_le_ofReal (Real.exp_le_exp.mpr (by unfold mtTarget; linarith [hB x]))
        _ = ENNReal.ofReal (Real.exp B) := by
            rw [lintegral_const_mul _ (measurable_expR (hS.meas 0)), hS.norm 0, mul_one]
  refine ⟨hZ, ?_, fun key f hf hf1 => ?_⟩
  · obtain ⟨C, hC⟩ : ∃ C, C = ENNReal.ofReal (1 / (N + 1)) * N * ENNReal.ofReal (Real.exp (-B) / (N + 1)) := ⟨_, rfl⟩
    let ν : Measure (Traj (n + 1) d) := C • (trajVol (n + 1) d).withDensity fun x => ENNReal.ofReal (Real.exp (mtTarget D log_pdf x))
    have hνi : ∀ f, Measurable f → ∫⁻ x, f x ∂ν = C * ∫⁻ y, ENNReal.ofReal (Real.exp (mtTarget D log_pdf y)) * f y ∂trajVol (n + 1) d :=
      fun f hf => by
        show ∫⁻ x, f x ∂(C • _) = _
        rw [lintegral_smul_measure, lintegral_withDensity_eq_lintegral_mul _ hE hf]
        rfl
    refine ⟨ν, ?_, fun key x g hg => (hνi g hg).le.trans (by rw [hC]; exact imh_ge hP hQ hl hB key x hg)⟩
    rw [← lintegral_one, hνi _ measurable_const]
    simp only [mul_one]
    rw [hC]
    rfl
  · have h := C44_imh hP hQ hl key N (fun s => f s.1) (by fun_prop) fun s => hf1 _
    have hKm : Measurable fun x => imhStep D log_pdf N key x f := (imhStep_ker hP hQ hl key).measurable' hf
    dsimp only at h ⊢
    rw [lintegral_lawOf hmt hKm, lintegral_lawOf hmt hf]
    have hkey : ∀ a b : ℝ≥0∞, a ≤ b + forceErr * Z → Z⁻¹ * a ≤ Z⁻¹ * b + forceErr := fun a b h => by
      calc Z⁻¹ * a ≤ Z⁻¹ * (b + forceErr * Z) := by gcongr
        _ = Z⁻¹ * b + forceErr * (Z * Z⁻¹) := by ring
        _ = _ := by rw [ENNReal.mul_inv_cancel hZ.1 hZ.2, mul_one]
    exact ⟨hkey _ _ h.1, hkey _ _ h.2⟩

omit hP hQ hl in
/-- A run is a chain of positions. -/
theorem imh_run_eq (key : Key) (x : Traj (n + 1) d) (n_steps g : ℕ) (F : (Fin (strideLen n_steps g) → Traj (n + 1) d) → ℝ≥0∞) :
    (tp_sampling_routine key (imh_init log_pdf x) (fun key s => imh_kernel key s D log_pdf N) n_steps g : Ex _) (fun r => F r.1) =
      chain (imhStep D log_pdf N) x (splitKey key n_steps) fun tr => F fun k => tr ⟨k * g + 1, Nat.succ_lt_succ (strideLen_lt k)⟩ := by
  rw [C49_tp_sampling key (imh_init log_pdf x) false (fun key s => imh_kernel key s D log_pdf N) n_steps g]
  refine (chain_fst (fun key s => imh_kernel key s D log_pdf N) (splitKey key n_steps) (imh_init log_pdf x) false
    (fun tr => F fun k => (tr ⟨k * g + 1, Nat.succ_lt_succ (strideLen_lt k)⟩).1)).trans ?_
  exact chain_lift (cache := log_pdf) (step := stateStep fun key s => imh_kernel key s D log_pdf N)
    (fun key x f => imh_cached key D log_pdf x f) (splitKey key n_steps) x
    (fun tr => F fun k => (tr ⟨k * g + 1, Nat.succ_lt_succ (strideLen_lt k)⟩).1)

/-- **C83** (`tp.sampling_routine` with the kernel of `imh.get_kernel`): if `log_pdf ≤ B`, then from every trajectory, sample `k` of
a chain that keeps every `g`-th state is within `(1 - rate) ^ (k g + 1) + 3e-12 / rate` of the target in total variation. -/
theorem C83_imh {B : ℝ} (hB : ∀ x, log_pdf x ≤ B) (key : Key) (x : Traj (n + 1) d) (n_steps g : ℕ) (k : Fin (strideLen n_steps g)) :
    let rate := imhRate N B (∫⁻ x, ENNReal.ofReal (Real.exp (mtTarget D log_pdf x)) ∂trajVol (n + 1) d)
    TVLe ((1 - rate) ^ (k * g + 1 : ℕ) + forceErr / rate)
      (fun f => (tp_sampling_routine key (imh_init log_pdf x) (fun key s => imh_kernel key s D log_pdf N) n_steps g : Ex _)
        fun r => f (r.1 k))
      fun f => ∫⁻ x, f x ∂lawOf (trajVol (n + 1) d) (mtTarget D log_pdf) := by
  intro rate
  obtain ⟨hZ, ⟨ν, hν1, hν⟩, hδ⟩ := imh_doeblin (N := N) hP hQ hl hB
  have hPr := lawOf_isProb hZ (measurable_mtTarget D hl)
  have h := doeblin_converges (imhStep_ker hP hQ hl) (imhStep_mass hP hQ) (p := fun x => x) (σ := fun x => x) measurable_id
    measurable_id (fun _ => rfl) (ν := ν) hν (fun _ _ _ _ _ => rfl) hδ
    (splitKey key n_steps) ⟨k * g + 1, Nat.succ_lt_succ (strideLen_lt k)⟩ x
  rw [hν1] at h
  intro f hf hf1
  have e := imh_run_eq (N := N) (D := D) (log_pdf := log_pdf) key x n_steps g fun tr => f (tr k)
  obtain ⟨h1, h2⟩ := h f hf hf1
  exact ⟨(le_of_eq e).trans h1, h2.trans (le_of_eq (congrArg (· + _) e.symm))⟩

end imh

/-- **C83** (`experiments/lgssm_scaling`, `IMH`): for all observations, from every trajectory. -/
theorem C83_lgssm_imh {sigma : ℝ} (hs : 0 < sigma) (ys : Traj (n + 1) d) (key : Key) (x : Traj (n + 1) d) (n_steps g : ℕ)
    (k : Fin (strideLen n_steps g)) :
    let rate := imhRate N ((n + 1) * lgMaxLog d) (∫⁻ x, ENNReal.ofReal (Real.exp (lgTarget sigma ys x)) ∂trajVol (n + 1) d)
    TVLe ((1 - rate) ^ (k * g + 1 : ℕ) + forceErr / rate)
      (fun f => (tp_sampling_routine key (imh_init (fun xs => lg_log_likelihood xs ys) x) (fun key s => lg_imh_kernel ys sigma N key s)
        n_steps g : Ex _) fun r => f (r.1 k))
      fun f => ∫⁻ x, f x ∂lawOf (trajVol (n + 1) d) (lgTarget sigma ys) := by
  rw [← lg_mtTarget ys]
  refine C83_imh (posDef_smul_one (pow_pos hs 2)) (fun _ => posDef_smul_one (pow_pos hs 2)) (measurable_lg_log_likelihood ys)
    (fun x => ?_) key x n_steps g k
  refine (sum_le_sum fun t _ => lg_log_potential_le (x t) (ys t)).trans (le_of_eq ?_)
  simp

/-- An instance of the experiment: the rate is positive. -/
example (ys : Traj 20 3) :
    imhRate 25 ((19 + 1) * lgMaxLog 3) (∫⁻ x, ENNReal.ofReal (Real.exp (lgTarget 2 ys x)) ∂trajVol 20 3) ≠ 0 :=
  C83_imh_rate (by norm_num) _ (lgTarget_mass (n := 19) (by norm_num) ys).1

example (ys : Traj 20 3) (x : Traj 20 3) :=
  C83_lgssm_imh (N := 25) (n := 19) (sigma := 2) (by norm_num) ys [5] x 1000 10 ⟨99, by decide⟩

end Verif.Props
