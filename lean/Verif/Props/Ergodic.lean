import Verif.Lemmas.ErgodicExp
import Verif.Props.SvRuns

/-!
# Chains of conditional SMC approach their target from every state, at a geometric rate (C68)
-/

open scoped ENNReal
open MeasureTheory Finset

namespace Verif.Props
open Verif Verif.Model Verif.Spec Matrix

variable {N n d : ℕ} {resampling last_step : String} {R : Resampling Ex N} {mv : AncestorMove Ex N}

/-- **C68** (rate): with at least one particle besides the reference (two for `killing`), unless `killing` is used with backward
sampling, one step draws from the target with positive probability: the rate of the theorems below is less than one. -/
theorem C68_rate {B : Fin (n + 1) → ℝ} {Z : ℝ≥0∞} (hZ : Z ≠ 0) {backward : Bool}
    (h : resampling = "multinomial" ∧ 1 ≤ N ∨ resampling = "killing" ∧ 2 ≤ N ∧ backward = false) :
    1 - csmcRate N n (awayOf N last_step) (spreadOf N resampling backward) B Z < 1 := by
  refine ENNReal.sub_lt_self ENNReal.one_ne_top one_ne_zero ?_
  have hN1 : 1 ≤ N := by omega
  have ha : awayOf N last_step ≠ 0 := by
    unfold awayOf
    split_ifs
    · exact one_ne_zero
    · exact (ENNReal.ofReal_pos.mpr (by positivity)).ne'
  have hq : spreadOf N resampling backward ≠ 0 := by
    unfold spreadOf
    rcases h with ⟨rfl, h⟩ | ⟨rfl, h, rfl⟩
    · simpa using by omega
    · simp only [String.reduceEq, if_false, Bool.false_eq_true]
      exact_mod_cast (by omega : N - 1 ≠ 0)
  have hN : (N : ℝ≥0∞) ≠ 0 := by exact_mod_cast (by omega : N ≠ 0)
  refine mul_ne_zero (mul_ne_zero (mul_ne_zero (mul_ne_zero ha hN) (pow_ne_zero _ hq)) (prod_ne_zero_iff.mpr fun t _ => ?_)) hZ
  exact (ENNReal.ofReal_pos.mpr (by positivity)).ne'

/-- **C68** (one step): from every trajectory, reference indices and key, one step of `csmc.kernel` draws its next trajectory from
the target with probability at least `csmcRate`. -/
theorem C68_one_step {X P G : Type} [MeasurableSpace X] (lam : Measure X) [SigmaFinite lam] {M : FK Ex X P G N} (hM : ProperFK lam M)
    {Mparams : Fin n → P} {Gparams : Fin n → G} {B : Fin (n + 1) → ℝ} (hB : BoundedFK lam M Mparams Gparams B)
    (hZ : ∫⁻ x, ENNReal.ofReal (Real.exp (pathLogDensity M.Gamma0 (fun t y x => M.Gammat y x (Gparams t)) x)) ∂(Measure.pi fun _ => lam) ≠ 0 ∧
      ∫⁻ x, ENNReal.ofReal (Real.exp (pathLogDensity M.Gamma0 (fun t y x => M.Gammat y x (Gparams t)) x)) ∂(Measure.pi fun _ => lam) ≠ ∞)
    (hR : sel_resampling resampling = .ok R) (hm : sel_last_step last_step = .ok mv) (backward : Bool) (key : Key)
    (x : Fin (n + 1) → X) (b : Fin (n + 1) → Fin (N + 1)) {f : (Fin (n + 1) → X) → ℝ≥0∞} (hf : Measurable f) :
    let logpi := pathLogDensity M.Gamma0 (fun t y x => M.Gammat y x (Gparams t))
    csmcRate N n (awayOf N last_step) (spreadOf N resampling backward) B
        (∫⁻ x, ENNReal.ofReal (Real.exp (logpi x)) ∂(Measure.pi fun _ => lam)) *
      ∫⁻ x, f x ∂lawOf (Measure.pi fun _ => lam) logpi ≤
    csmc_kernel key x b M Mparams Gparams R mv backward true fun r => f r.xs := by
  intro logpi
  have hS := sel_ok hR hm
  have h := csmc_ge key hM hB hS.cond (fun key => sel_spreads hR backward key) hS.ker (fun key => sel_movesAway hm key) x b hf
  refine le_trans (le_of_eq ?_) h
  rw [lintegral_lawOf (measurable_pathLogDensity hM.Gamma0_meas fun _ => hM.Gammat_meas _) hf, csmcRate, mul_assoc _ (∫⁻ x, _ ∂_),
    ← mul_assoc (∫⁻ x, _ ∂_), ENNReal.mul_inv_cancel hZ.1 hZ.2, one_mul]

/-- **C68** (`mcmc_utils.sampling_routine` with `csmc.kernel`): if the weights are bounded, then from every trajectory and reference
indices, sample `k` of a chain that keeps every `g`-th state is within `(1 - csmcRate) ^ (k g + 1) + (k g + 1) ε` of the target in
total variation, with `ε = 0` for `barker` and the rounding of `force_move` otherwise. -/
theorem C68_csmc {X P G : Type} [MeasurableSpace X] (lam : Measure X) [SigmaFinite lam] {M : FK Ex X P G N} (hM : ProperFK lam M)
    {Mparams : Fin n → P} {Gparams : Fin n → G} {B : Fin (n + 1) → ℝ} (hB : BoundedFK lam M Mparams Gparams B)
    (hZ : ∫⁻ x, ENNReal.ofReal (Real.exp (pathLogDensity M.Gamma0 (fun t y x => M.Gammat y x (Gparams t)) x)) ∂(Measure.pi fun _ => lam) ≠ 0 ∧
      ∫⁻ x, ENNReal.ofReal (Real.exp (pathLogDensity M.Gamma0 (fun t y x => M.Gammat y x (Gparams t)) x)) ∂(Measure.pi fun _ => lam) ≠ ∞)
    (hR : sel_resampling resampling = .ok R) (hm : sel_last_step last_step = .ok mv) (backward : Bool) (key : Key)
    (x : Fin (n + 1) → X) (b : Fin (n + 1) → Fin (N + 1)) (n_samples g : ℕ) (k : Fin (strideLen n_samples g)) :
    let logpi := pathLogDensity M.Gamma0 (fun t y x => M.Gammat y x (Gparams t))
    TVLe ((1 - csmcRate N n (awayOf N last_step) (spreadOf N resampling backward) B
          (∫⁻ x, ENNReal.ofReal (Real.exp (logpi x)) ∂(Measure.pi fun _ => lam))) ^ (k * g + 1 : ℕ) +
        (k * g + 1 : ℕ) * if last_step = "barker" then 0 else forceErr)
      (fun f => sampling_routine key x b (fun key s => csmc_kernel key s.1 s.2 M Mparams Gparams R mv backward true >>= fun r =>
        pure (r.xs, r.Bs)) n_samples g fun r => f (r.1 k))
      fun f => ∫⁻ x, f x ∂lawOf (Measure.pi fun _ => lam) logpi := by
  intro logpi
  have hS := sel_ok hR hm
  have hmr := fun key => csmc_markov_relabels (N := N) lam key hM Mparams Gparams hS.cond hS.ker backward
  have hnear : ∀ key, LeavesNearInvariant (if last_step = "barker" then 0 else forceErr) lam logpi (fun x b => do
      let r ← csmc_kernel key x b M Mparams Gparams R mv backward true
      pure (r.xs, r.Bs)) := fun key => by
    rcases hS.near with ⟨h, e⟩ | ⟨h, e⟩
    · rw [e]
      exact (C15_C16_csmc_invariant lam key M hM Mparams Gparams R hS.cond mv h backward).near_zero
    · rw [e]
      subst h
      exact C61_csmc hS.cond key backward lam hM Mparams Gparams
  have h := indexed_chain_converges (measurable_pathLogDensity hM.Gamma0_meas fun _ => hM.Gammat_meas _) hZ
    (step := fun key s => csmc_kernel key s.1 s.2 M Mparams Gparams R mv backward true >>= fun r => pure (r.xs, r.Bs))
    (fun key => (hmr key).1 hS.mass) (fun key => (hmr key).2 hS.rotR hS.rot) hnear
    (fun key x b f hf => csmc_ge key hM hB hS.cond (fun key => sel_spreads hR backward key) hS.ker (fun key => sel_movesAway hm key)
      x b hf) (splitKey key n_samples) ⟨k * g + 1, Nat.succ_lt_succ (strideLen_lt k)⟩ (x, b)
  intro f hf hf1
  have e := congrFun (C49_sampling (m := Ex) key x b (fun key s => csmc_kernel key s.1 s.2 M Mparams Gparams R mv backward true >>= fun r =>
    pure (r.xs, r.Bs)) n_samples g) fun r => f (r.1 k)
  obtain ⟨h1, h2⟩ := h f hf hf1
  exact ⟨(le_of_eq e).trans h1, h2.trans (le_of_eq (congrArg (· + _) e.symm))⟩

/-- **C68** (limit): the expectations tend to those of the target, for `barker`. -/
theorem C68_limit {X P G : Type} [MeasurableSpace X] (lam : Measure X) [SigmaFinite lam] {M : FK Ex X P G N} (hM : ProperFK lam M)
    {Mparams : Fin n → P} {Gparams : Fin n → G} {B : Fin (n + 1) → ℝ} (hB : BoundedFK lam M Mparams Gparams B)
    (hZ : ∫⁻ x, ENNReal.ofReal (Real.exp (pathLogDensity M.Gamma0 (fun t y x => M.Gammat y x (Gparams t)) x)) ∂(Measure.pi fun _ => lam) ≠ 0 ∧
      ∫⁻ x, ENNReal.ofReal (Real.exp (pathLogDensity M.Gamma0 (fun t y x => M.Gammat y x (Gparams t)) x)) ∂(Measure.pi fun _ => lam) ≠ ∞)
    (hR : sel_resampling resampling = .ok R) (hm : sel_last_step "barker" = .ok mv) (backward : Bool)
    (h : resampling = "multinomial" ∧ 1 ≤ N ∨ resampling = "killing" ∧ 2 ≤ N ∧ backward = false) (keys : ℕ → Key)
    (x : ℕ → Fin (n + 1) → X) (b : ℕ → Fin (n + 1) → Fin (N + 1)) {f : (Fin (n + 1) → X) → ℝ≥0∞} (hf : Measurable f) (hf1 : ∀ x, f x ≤ 1) :
    Filter.Tendsto (fun i => sampling_routine (keys i) (x i) (b i) (fun key s =>
        csmc_kernel key s.1 s.2 M Mparams Gparams R mv backward true >>= fun r => pure (r.xs, r.Bs)) (i + 1) 1
          fun r => f (r.1 ⟨i, by simp [strideLen]⟩)) Filter.atTop
      (nhds (∫⁻ x, f x ∂lawOf (Measure.pi fun _ => lam) (pathLogDensity M.Gamma0 (fun t y x => M.Gammat y x (Gparams t))))) := by
  have hr := C68_rate (last_step := "barker") (B := B) hZ.1 h
  have ht := ENNReal.tendsto_pow_atTop_nhds_zero_of_lt_one hr
  have hP := lawOf_isProb hZ (measurable_pathLogDensity hM.Gamma0_meas fun _ => hM.Gammat_meas _)
  have hfin : ∫⁻ x, f x ∂lawOf (Measure.pi fun _ => lam) (pathLogDensity M.Gamma0 (fun t y x => M.Gammat y x (Gparams t))) ≠ ∞ :=
    ((lintegral_mono hf1).trans (by rw [lintegral_one, measure_univ])).trans_lt ENNReal.one_lt_top |>.ne
  have main : ∀ i, _ := fun i => C68_csmc lam hM hB hZ hR hm backward (keys i) (x i) (b i) (i + 1) 1 ⟨i, by simp [strideLen]⟩ f hf hf1
  rw [ENNReal.tendsto_nhds hfin]
  intro ε hε
  obtain ⟨m, hm'⟩ := Filter.eventually_atTop.mp (ENNReal.tendsto_nhds_zero.mp ht ε hε)
  refine Filter.eventually_atTop.mpr ⟨m, fun i hi => ?_⟩
  obtain ⟨h1, h2⟩ := main i
  rw [if_pos rfl, mul_zero, add_zero] at h1 h2
  have h3 := hm' (i * 1 + 1) (by omega)
  exact ⟨tsub_le_iff_right.mpr (h2.trans (by gcongr)), h1.trans (by gcongr)⟩

/-! ## The experiments -/

/-- **C68** (`experiments/lgssm_scaling`, `CSMC`): for all observations, from every state; the weights are at most
`(2π)^(-d/2)`. -/
theorem C68_lgssm {sigma : ℝ} (hs : 0 < sigma) (ys : Traj (n + 1) d) (hR : sel_resampling resampling = .ok R)
    (hm : sel_last_step last_step = .ok mv) (backward : Bool) (key : Key) (x : Traj (n + 1) d) (b : Fin (n + 1) → Fin (N + 1))
    (n_samples g : ℕ) (k : Fin (strideLen n_samples g)) :
    TVLe ((1 - csmcRate N n (awayOf N last_step) (spreadOf N resampling backward) (fun _ => lgMaxLog d)
          (∫⁻ x, ENNReal.ofReal (Real.exp (lgTarget sigma ys x)) ∂trajVol (n + 1) d)) ^ (k * g + 1 : ℕ) +
        (k * g + 1 : ℕ) * if last_step = "barker" then 0 else forceErr)
      (fun f => sampling_routine key x b (fun key s => outOf (lg_csmc_kernel ys sigma R mv backward key s.1 s.2)) n_samples g
        fun r => f (r.1 k))
      fun f => ∫⁻ x, f x ∂lawOf (trajVol (n + 1) d) (lgTarget sigma ys) := by
  have e := lgTarget_gamma ys hs
  have hZ := lgTarget_mass hs ys
  rw [← e] at hZ ⊢
  exact C68_csmc volume (C19_lgssm_proper ys hs) (lgFK_bounded ys hs) hZ hR hm backward key x b n_samples g k

/-- One step of the bootstrap kernel of the stochastic volatility experiment. -/
theorem sv_csmc_ge {D : SvDyn d} (hP : D.P0.PosDef) (hQ : D.Q.PosDef) {ys : Traj (n + 1) d} (hy : ∀ t j, ys t j ≠ 0)
    (hR : sel_resampling resampling = .ok R) (hm : sel_last_step last_step = .ok mv) (backward : Bool) (key : Key)
    (x : Fin (n + 1) → Vec d) (b : Fin (n + 1) → Fin (N + 1)) {f : (Fin (n + 1) → Vec d) → ℝ≥0∞} (hf : Measurable f) :
    csmcRate N n (awayOf N last_step) (spreadOf N resampling backward) (fun t => svMaxLog (ys t)) 1 *
      ∫⁻ y, ENNReal.ofReal (Real.exp (svTarget D.m0 D.P0 D.F D.Q D.b ys y)) * f y ∂trajVol (n + 1) d ≤
    outOf (sv_csmc_kernel ys D R mv backward true key x b) fun r => f r.1 := by
  have hS := sel_ok hR hm
  have h := csmc_ge key (C19_sv_proper ys hP hQ) (svFK_bounded hy hP hQ) hS.cond (fun key => sel_spreads hR backward key) hS.ker
    (fun key => sel_movesAway hm key) x b hf
  refine le_trans (le_of_eq ?_) h
  have e : ∀ y : Fin (n + 1) → Vec d, ENNReal.ofReal (Real.exp (pathLogDensity (svFK (m := Ex) (N := N) ys D).Gamma0
      (fun t y x => (svFK (m := Ex) (N := N) ys D).Gammat y x (tailA ys t)) y)) * f y =
      ENNReal.ofReal (Real.exp (∑ t : Fin (n + 1), svConst D t)) *
        (ENNReal.ofReal (Real.exp (svTarget D.m0 D.P0 D.F D.Q D.b ys y)) * f y) := fun y => by
    rw [svFK_path hP hQ, Real.exp_add, mul_comm (Real.exp _), ENNReal.ofReal_mul (Real.exp_pos _).le, mul_assoc]
  rw [lintegral_congr e, lintegral_const_mul' _ _ ENNReal.ofReal_ne_top, mul_assoc _ (∏ t, _), svFK_scale, csmcRate, mul_one, mul_assoc]

section sv
variable {svd : Mat d d → SvdOut d} {tau : ℤ} {style : String} {target_stat : TargetStat} {backward : Bool}
  {make : Traj (n + 1) d → SvKernel Ex (n + 1) d}

/-- The rate of the bootstrap kernel in the stochastic volatility experiment. -/
noncomputable def svRate (N : ℕ) (resampling last_step : String) (backward : Bool) (tau : ℤ) (ys : Traj (n + 1) d) : ℝ≥0∞ :=
  csmcRate N n (awayOf N last_step) (spreadOf N resampling backward) (fun t => svMaxLog (ys t))
    (∫⁻ x, ENNReal.ofReal (Real.exp (svSampled .CSMC tau ys x)) ∂trajVol (n + 1) d)

/-- **C68** (`experiments/stochastic_volatility`, `CSMC`): if no observation is zero, then with any step size (it is unused) and
from every state, the samples approach the posterior. -/
theorem C68_sv (ht : 0 < tau) (hR : sel_resampling resampling = .ok R) (hm : sel_last_step last_step = .ok mv)
    (hk : SvType.CSMC.kernel_maker svd (svDynArgs tau d) style target_stat R mv backward = .ok make)
    {ys : Traj (n + 1) d} (hy : ∀ t j, ys t j ≠ 0) (delta : StepSize (n + 1)) :
    ApproachesLaw (1 - svRate N resampling last_step backward tau ys) (svErr .CSMC last_step) (svPosterior .CSMC tau ys) (make ys) delta := by
  have hS := sel_ok hR hm
  have hP := svDynArgs_P0 ht d
  have hQ := svDynArgs_Q ht d
  obtain ⟨hl, hZ⟩ := svSampled_mass .CSMC ht ys
  simp only [SvType.kernel_maker, sv_get_csmc_kernel] at hk
  split_ifs at hk
  cases hk
  intro key n_steps k s f hf hf1
  have hok := sv_csmc_ok ys hS hP hQ backward
  have hlt : k.1 * 1 + 1 < n_steps + 1 := Nat.succ_lt_succ (strideLen_lt k)
  obtain ⟨h1, h2⟩ := indexed_chain_converges hl hZ
    (step := fun key s => outOf (sv_csmc_kernel ys (svDynArgs tau d) R mv backward true key s.1 s.2))
    (fun key => hok.markov key) (fun key => hok.relabels key) hok.near
    (fun key x b f hf => sv_csmc_ge hP hQ hy hR hm backward key x b hf) (splitKey key n_steps) ⟨k * 1 + 1, hlt⟩ s f hf hf1
  have e := congrFun (C49_sampling (m := Ex) key s.1 s.2
    (fun key s => outOf (sv_csmc_kernel ys (svDynArgs tau d) R mv backward true key s.1 s.2)) n_steps 1) fun r => f (r.1 k)
  have hr : csmcRate N n (awayOf N last_step) (spreadOf N resampling backward) (fun t => svMaxLog (ys t)) 1 *
      ∫⁻ x, ENNReal.ofReal (Real.exp (svSampled .CSMC tau ys x)) ∂trajVol (n + 1) d = svRate N resampling last_step backward tau ys := by
    rw [svRate, csmcRate, csmcRate, mul_one]
  have hc : ((⟨k * 1 + 1, hlt⟩ : Fin (n_steps + 1)) : ℕ) = (k : ℕ) + 1 := by simp
  have hE : svErr .CSMC last_step = if last_step = "barker" then 0 else forceErr := by simp [svErr]
  have e3 : csmcRate N n (awayOf N last_step) (spreadOf N resampling backward) (fun t => svMaxLog (ys t)) 1 *
      ∫⁻ x, ENNReal.ofReal (Real.exp (svSampled .CSMC tau ys x)) ∂(Measure.pi fun _ => volume) =
      svRate N resampling last_step backward tau ys := hr
  rw [hc, e3] at h1 h2
  rw [hE]
  exact ⟨(le_of_eq e).trans h1, h2.trans (le_of_eq (congrArg (· + _) e.symm))⟩

/-- **C68** (script): the chains of `one_experiment`, whatever the adaptation returned. Sample `k` of every chain after the
burn-in is within `(1 - svRate) ^ (burnin + k + 1) + (burnin + k + 1) svErr` of the posterior. -/
theorem C68_sv_chains (ht : 0 < tau) (hR : sel_resampling resampling = .ok R) (hm : sel_last_step last_step = .ok mv)
    (hk : SvType.CSMC.kernel_maker svd (svDynArgs tau d) style target_stat R mv backward = .ok make)
    {ys : Traj (n + 1) d} (hy : ∀ t j, ys t j ≠ 0) (delta : StepSize (n + 1)) (s : (make ys).S) (burnin_key sample_key : Key)
    (burnin n_samples : ℕ) {M : ℕ} (i : Fin M) (k : Fin (strideLen n_samples 1)) :
    TVLe ((1 - svRate N resampling last_step backward tau ys) ^ (burnin + k + 1 : ℕ) + (burnin + k + 1 : ℕ) * svErr .CSMC last_step)
      (fun f => sv_chains burnin_key sample_key (make ys) s delta burnin n_samples M fun c => f ((c i).1 k))
      fun f => ∫⁻ x, f x ∂svPosterior .CSMC tau ys := by
  have hA := C68_sv ht hR hm hk hy delta
  have hch : ∃ Good : (make ys).S → Prop, ChainsOK (make ys) delta Good ∧ ∀ s, Good s := by
    simp only [SvType.kernel_maker, sv_get_csmc_kernel] at hk
    split_ifs at hk
    cases hk
    have hok := sv_csmc_ok ys (sel_ok hR hm) (svDynArgs_P0 ht d) (svDynArgs_Q ht d) backward
    exact ⟨_, csmcSv_chainsOK (fun key => hok.markov key) (fun key => hok.relabels key) hok.free, fun _ => trivial⟩
  obtain ⟨Good, hok, hg⟩ := hch
  obtain ⟨ν, hν, hlaw, hc⟩ := hok.law (hg s) burnin n_samples
  intro f hf hf1
  have hk' : k + burnin < strideLen (n_samples + burnin) 1 := by
    have := k.2
    simp only [strideLen] at this ⊢
    omega
  have e1 : sv_chains burnin_key sample_key (make ys) s delta burnin n_samples M (fun c => f ((c i).1 k)) = ∫⁻ r, f (r.1 k) ∂ν := by
    have h1 := hc M burnin_key sample_key (fun c => f ((c i).1 k)) (by fun_prop)
    refine h1.trans ?_
    have hp := measurePreserving_eval (fun _ : Fin M => ν) i
    exact hp.lintegral_comp (f := fun r : Run (strideLen n_samples 1) (n + 1) d => f (r.1 k)) (by fun_prop)
  have e2 : ∫⁻ r, f (r.1 k) ∂ν = (make ys).experiment_all [] s (fun k s => (make ys).kernel k s delta) (n_samples + burnin)
      fun r => f (r.1 ⟨k + burnin, hk'⟩) := hlaw [] (fun r => f (r.1 k)) (by fun_prop)
  have e3 := hA [] (n_samples + burnin) ⟨k + burnin, hk'⟩ s f hf hf1
  have e4 : burnin + (k : ℕ) + 1 = (k : ℕ) + burnin + 1 := by omega
  simp only [e1, e2, e4]
  exact e3

end sv

/-! ## Examples -/

/-- The defaults of the script (`killing`, no backward sampling) with `barker`, 32 particles and 50 observations: the rate is
positive and the chains approach the posterior of data without a zero. -/
example (x : Traj 50 30) : ∃ make, SvType.kernel_maker (m := Ex) (N := 31) (n := 49) (diagSvd 30) .CSMC (svDynArgs 10 30) "bootstrap"
    (.level 0.5) (fun key w i j c => killing key w i j c) (fun key w k => barker_move key w k) false = .ok make ∧
    1 - svRate (n := 49) (d := 30) 31 "killing" "barker" false 10 (fun _ _ => 1) < 1 ∧
    TVLe ((1 - svRate (n := 49) (d := 30) 31 "killing" "barker" false 10 (fun _ _ => 1)) ^ 2501)
      (fun f => sv_chains [1] [2] (make fun _ _ => 1) ((make fun _ _ => 1).init x) (.scalar 0.01) 2500 10000 4
        fun c => f ((c 3).1 ⟨0, by decide⟩))
      fun f => ∫⁻ x, f x ∂svPosterior .CSMC 10 fun _ _ => 1 := by
  have hR : sel_resampling (N := 31) (m := Ex) "killing" = .ok fun key w i j c => killing key w i j c := rfl
  have hm : sel_last_step (N := 31) (m := Ex) "barker" = .ok fun key w k => barker_move key w k := rfl
  refine ⟨_, rfl, C68_rate (svSampled_mass .CSMC (by norm_num) _).2.1 (Or.inr ⟨rfl, by norm_num, rfl⟩), ?_⟩
  have h := C68_sv_chains (n := 49) (d := 30) (svd := diagSvd 30) (tau := 10) (style := "bootstrap") (target_stat := .level 0.5)
    (backward := false) (by norm_num) hR hm rfl (ys := fun _ _ => 1) (fun _ _ => one_ne_zero) (.scalar 0.01) (x, fun _ => 0) [1] [2]
    2500 10000 (M := 4) 3 ⟨0, by decide⟩
  have e : svErr .CSMC "barker" = 0 := by simp [svErr]
  rw [e, mul_zero, add_zero] at h
  exact h

/-- `lgssm`, multinomial resampling and backward sampling, from the zero trajectory. -/
example (ys : Traj 20 3) := C68_lgssm (N := 25) (n := 19) (sigma := 2) (by norm_num) ys (resampling := "multinomial") (last_step := "forced")
  rfl rfl true [5] 0 (fun _ => 0) 1000 10 ⟨99, by decide⟩

end Verif.Props
