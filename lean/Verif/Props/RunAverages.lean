import Verif.Lemmas.RunAverages
import Verif.Props.SoleLaw

/-!
# C85: averages over the samples of a chain with bounded weights estimate expectations under the target
-/

open scoped ENNReal
open MeasureTheory Finset

namespace Verif.Props
open Verif Verif.Model Verif.Spec Matrix

variable {N n d : ℕ} {resampling last_step : String} {R : Resampling Ex N} {mv : AncestorMove Ex N}

/-- A chain of trajectories and indices: averages over every `g`-th state. -/
theorem indexed_averages {X : Type} [MeasurableSpace X] {lam : Measure X} {ε : ℝ≥0∞} {l : (Fin (n + 1) → X) → ℝ} (hl : Measurable l)
    (hZ : ∫⁻ x, ENNReal.ofReal (Real.exp (l x)) ∂(Measure.pi fun _ => lam) ≠ 0 ∧
      ∫⁻ x, ENNReal.ofReal (Real.exp (l x)) ∂(Measure.pi fun _ => lam) ≠ ∞)
    {step : Key → (Fin (n + 1) → X) × (Fin (n + 1) → Fin (N + 1)) → Ex ((Fin (n + 1) → X) × (Fin (n + 1) → Fin (N + 1)))}
    (hmk : ∀ key, MarkovStep fun x b => step key (x, b)) (hrel : ∀ key, Relabels fun x b => step key (x, b))
    (hnear : ∀ key, LeavesNearInvariant ε lam l fun x b => step key (x, b)) {C : ℝ≥0∞}
    (hC : ∀ key x b f, Measurable f → C * ∫⁻ y, ENNReal.ofReal (Real.exp (l y)) * f y ∂(Measure.pi fun _ => lam) ≤
      step key (x, b) fun r => f r.1)
    {T M g : ℕ} (hM : M ≠ 0) (hg : g ≠ 0) (keys : Fin T → Key) {τ : Fin M → Fin (T + 1)} {o : ℕ} (hτ : ∀ k, (τ k : ℕ) = k * g + o)
    (s : (Fin (n + 1) → X) × (Fin (n + 1) → Fin (N + 1))) :
    AveragesNear (2 / (C * (∫⁻ x, ENNReal.ofReal (Real.exp (l x)) ∂(Measure.pi fun _ => lam)) * M) +
        ε / (C * ∫⁻ x, ENNReal.ofReal (Real.exp (l x)) ∂(Measure.pi fun _ => lam)))
      (lawOf (Measure.pi fun _ => lam) l) fun F => chain step s keys fun tr => F fun k => (tr (τ k)).1 := by
  have hP := lawOf_isProb hZ hl
  have hc : C * ∫⁻ x, ENNReal.ofReal (Real.exp (l x)) ∂(Measure.pi fun _ => lam) ≤ 1 := by
    have h := hC [] s.1 s.2 (fun _ => 1) measurable_const
    simp only [mul_one] at h
    exact h.trans ((hmk []).mass s.1 s.2).le
  exact averages_of_settles (fun key => (hmk key).ker) (fun key s => (hmk key).mass s.1 s.2)
    (p := fun s : (Fin (n + 1) → X) × (Fin (n + 1) → Fin (N + 1)) => s.1) measurable_fst hc
    (fun keys i s => indexed_chain_settles hl hZ hmk hrel hnear hC keys i s) hM hg keys hτ s

/-- **C85** (`mcmc_utils.sampling_routine` with `csmc.kernel`): if the weights are bounded, then from every trajectory and reference
indices, the average of a bounded function over the `M` samples that a run keeps (every `g`-th state) has a mean squared error
of at most `2 / (rate M) + ε / rate` times the squared range of the function, with `ε = 0` for `barker`. -/
theorem C85_csmc {X P G : Type} [MeasurableSpace X] (lam : Measure X) [SigmaFinite lam] {M : FK Ex X P G N} (hM : ProperFK lam M)
    {Mparams : Fin n → P} {Gparams : Fin n → G} {B : Fin (n + 1) → ℝ} (hB : BoundedFK lam M Mparams Gparams B)
    (hZ : ∫⁻ x, ENNReal.ofReal (Real.exp (pathLogDensity M.Gamma0 (fun t y x => M.Gammat y x (Gparams t)) x)) ∂(Measure.pi fun _ => lam) ≠ 0 ∧
      ∫⁻ x, ENNReal.ofReal (Real.exp (pathLogDensity M.Gamma0 (fun t y x => M.Gammat y x (Gparams t)) x)) ∂(Measure.pi fun _ => lam) ≠ ∞)
    (hR : sel_resampling resampling = .ok R) (hm : sel_last_step last_step = .ok mv) (backward : Bool) (key : Key)
    (x : Fin (n + 1) → X) (b : Fin (n + 1) → Fin (N + 1)) {n_samples g : ℕ} (hn : strideLen n_samples g ≠ 0) :
    let logpi := pathLogDensity M.Gamma0 (fun t y x => M.Gammat y x (Gparams t))
    let rate := csmcRate N n (awayOf N last_step) (spreadOf N resampling backward) B
          (∫⁻ x, ENNReal.ofReal (Real.exp (logpi x)) ∂(Measure.pi fun _ => lam))
    AveragesNear (2 / (rate * strideLen n_samples g) + (if last_step = "barker" then 0 else forceErr) / rate)
      (lawOf (Measure.pi fun _ => lam) logpi) fun F =>
        sampling_routine key x b (fun key s => csmc_kernel key s.1 s.2 M Mparams Gparams R mv backward true >>= fun r =>
          pure (r.xs, r.Bs)) n_samples g fun r => F r.1 := by
  intro logpi rate
  have hS := sel_ok hR hm
  have hmr := fun key => csmc_markov_relabels (N := N) lam key hM Mparams Gparams hS.cond hS.ker backward
  have hnear : ∀ key, LeavesNearInvariant (if last_step = "barker" then 0 else forceErr) lam logpi (fun x b => do
      let r ← csmc_kernel key x b M Mparams Gparams R mv backward true
      pure (r.xs, r.Bs)) := fun key => by
    rcases hS.near with ⟨h, e⟩ | ⟨h, e⟩
    · rw [e]
      exact (C15_C16_csmc_invariant lam key M hM Mparams Gparams R hS.cond mv h backward).near_zero
    · rw [e]
      subst h
      exact C61_csmc hS.cond key backward lam hM Mparams Gparams
  have hg : g ≠ 0 := fun h => hn (by rw [h, strideLen, Nat.div_zero])
  have h := indexed_averages (measurable_pathLogDensity hM.Gamma0_meas fun _ => hM.Gammat_meas _) hZ
    (step := fun key s => csmc_kernel key s.1 s.2 M Mparams Gparams R mv backward true >>= fun r => pure (r.xs, r.Bs))
    (fun key => (hmr key).1 hS.mass) (fun key => (hmr key).2 hS.rotR hS.rot) hnear
    (fun key x b f hf => csmc_ge key hM hB hS.cond (fun key => sel_spreads hR backward key) hS.ker (fun key => sel_movesAway hm key)
      x b hf) hn hg (splitKey key n_samples) (τ := fun k => ⟨k * g + 1, Nat.succ_lt_succ (strideLen_lt k)⟩) (o := 1) (fun k => rfl) (x, b)
  intro lo hi f hf hb
  exact (le_of_eq (congrFun (C49_sampling (m := Ex) key x b (fun key s => csmc_kernel key s.1 s.2 M Mparams Gparams R mv backward true >>= fun r =>
    pure (r.xs, r.Bs)) n_samples g) fun r => ENNReal.ofReal ((avgOf f r.1 - ∫ x, f x ∂lawOf (Measure.pi fun _ => lam) logpi) ^ 2))).trans
    (h lo hi f hf hb)

/-- **C85** (consistency): with Barker's move, the probability that the average over a run is `η` away from the expectation under the
target tends to zero as the run gets longer, for any start and keys. -/
theorem C85_consistent {X P G : Type} [MeasurableSpace X] (lam : Measure X) [SigmaFinite lam] {M : FK Ex X P G N} (hM : ProperFK lam M)
    {Mparams : Fin n → P} {Gparams : Fin n → G} {B : Fin (n + 1) → ℝ} (hB : BoundedFK lam M Mparams Gparams B)
    (hZ : ∫⁻ x, ENNReal.ofReal (Real.exp (pathLogDensity M.Gamma0 (fun t y x => M.Gammat y x (Gparams t)) x)) ∂(Measure.pi fun _ => lam) ≠ 0 ∧
      ∫⁻ x, ENNReal.ofReal (Real.exp (pathLogDensity M.Gamma0 (fun t y x => M.Gammat y x (Gparams t)) x)) ∂(Measure.pi fun _ => lam) ≠ ∞)
    (hR : sel_resampling resampling = .ok R) (hm : sel_last_step "barker" = .ok mv) (backward : Bool)
    (h : resampling = "multinomial" ∧ 1 ≤ N ∨ resampling = "killing" ∧ 2 ≤ N ∧ backward = false) (keys : ℕ → Key)
    (x : ℕ → Fin (n + 1) → X) (b : ℕ → Fin (n + 1) → Fin (N + 1)) {lo hi : ℝ} {f : (Fin (n + 1) → X) → ℝ} (hf : Measurable f)
    (hb : ∀ x, lo ≤ f x ∧ f x ≤ hi) {η : ℝ} (hη : 0 < η) :
    let logpi := pathLogDensity M.Gamma0 (fun t y x => M.Gammat y x (Gparams t))
    Filter.Tendsto (fun i => sampling_routine (keys i) (x i) (b i) (fun key s =>
        csmc_kernel key s.1 s.2 M Mparams Gparams R mv backward true >>= fun r => pure (r.xs, r.Bs)) (i + 1) 1
          fun r => {xs | η ≤ |avgOf f xs - ∫ x, f x ∂lawOf (Measure.pi fun _ => lam) logpi|}.indicator 1 r.1) Filter.atTop (nhds 0) := by
  intro logpi
  have hS := sel_ok hR hm
  have hmr := fun key => csmc_markov_relabels (N := N) lam key hM Mparams Gparams hS.cond hS.ker backward
  have hs1 : ∀ i, strideLen (i + 1) 1 = i + 1 := fun i => by simp [strideLen]
  obtain ⟨rate, hr⟩ : ∃ r, r = csmcRate N n (awayOf N "barker") (spreadOf N resampling backward) B
          (∫⁻ x, ENNReal.ofReal (Real.exp (logpi x)) ∂(Measure.pi fun _ => lam)) := ⟨_, rfl⟩
  have hr0 : rate ≠ 0 := by
    rw [hr]
    exact csmcRate_ne hZ.1 h
  have main : ∀ i, sampling_routine (keys i) (x i) (b i) (fun key s =>
        csmc_kernel key s.1 s.2 M Mparams Gparams R mv backward true >>= fun r => pure (r.xs, r.Bs)) (i + 1) 1
          (fun r => {xs | η ≤ |avgOf f xs - ∫ x, f x ∂lawOf (Measure.pi fun _ => lam) logpi|}.indicator 1 r.1) ≤
      2 / rate * ENNReal.ofReal ((hi - lo) ^ 2) * ENNReal.ofReal ((η ^ 2)⁻¹) * ((i + 1 : ℕ) : ℝ≥0∞)⁻¹ := fun i => by
    have hA := C85_csmc lam hM hB hZ hR hm backward (keys i) (x i) (b i) (n_samples := i + 1) (g := 1) (by rw [hs1]; omega)
    have hD : IsKer fun _ : Unit => (fun F => sampling_routine (keys i) (x i) (b i) (fun key s =>
        csmc_kernel key s.1 s.2 M Mparams Gparams R mv backward true >>= fun r => pure (r.xs, r.Bs)) (i + 1) 1 fun r => F r.1 :
          Ex (Fin (strideLen (i + 1) 1) → Fin (n + 1) → X)) := by
      have hch := chain_ker (step := fun key (s : (Fin (n + 1) → X) × (Fin (n + 1) → Fin (N + 1))) =>
        csmc_kernel key s.1 s.2 M Mparams Gparams R mv backward true >>= fun r => pure (r.xs, r.Bs)) (fun key => ((hmr key).1 hS.mass).ker)
        (splitKey (keys i) (i + 1))
      refine ((hch.comp (g := fun _ : Unit => (x i, b i)) measurable_const).bind
        (F := fun _ tr => pure fun k : Fin (strideLen (i + 1) 1) => (tr ⟨k * 1 + 1, Nat.succ_lt_succ (strideLen_lt k)⟩).1)
        (IsKer.pure (g := fun q : Unit × (Fin (i + 1 + 1) → (Fin (n + 1) → X) × (Fin (n + 1) → Fin (N + 1))) =>
          fun k : Fin (strideLen (i + 1) 1) => (q.2 ⟨k * 1 + 1, Nat.succ_lt_succ (strideLen_lt k)⟩).1) (by fun_prop))).congr
          fun _ F _ => ?_
      exact (congrFun (C49_sampling (m := Ex) (keys i) (x i) (b i) (fun key s =>
        csmc_kernel key s.1 s.2 M Mparams Gparams R mv backward true >>= fun r => pure (r.xs, r.Bs)) (i + 1) 1) fun r => F r.1).symm
    refine (AveragesNear.cheb hA hD hη hf hb).trans (le_of_eq ?_)
    have e : ((strideLen (i + 1) 1 : ℕ) : ℝ≥0∞) = (i + 1 : ℕ) := congrArg _ (hs1 i)
    rw [if_pos rfl, ENNReal.zero_div, add_zero, e, ← hr, ENNReal.div_eq_inv_mul, ENNReal.div_eq_inv_mul,
      ENNReal.mul_inv (Or.inl hr0) (Or.inr (by simp))]
    ring
  have hc : 2 / rate * ENNReal.ofReal ((hi - lo) ^ 2) * ENNReal.ofReal ((η ^ 2)⁻¹) ≠ ∞ :=
    ENNReal.mul_ne_top (ENNReal.mul_ne_top (ENNReal.div_ne_top (by simp) hr0) ENNReal.ofReal_ne_top) ENNReal.ofReal_ne_top
  have ht := ENNReal.Tendsto.const_mul ((ENNReal.tendsto_inv_nat_nhds_zero).comp (Filter.tendsto_add_atTop_nat 1))
    (Or.inr hc) (a := 2 / rate * ENNReal.ofReal ((hi - lo) ^ 2) * ENNReal.ofReal ((η ^ 2)⁻¹))
  rw [mul_zero] at ht
  exact tendsto_of_tendsto_of_tendsto_of_le_of_le tendsto_const_nhds ht (fun _ => bot_le) main

/-- **C85** (`experiments/lgssm_scaling`, `CSMC`): for all observations, from every state. -/
theorem C85_lgssm {sigma : ℝ} (hs : 0 < sigma) (ys : Traj (n + 1) d) (hR : sel_resampling resampling = .ok R)
    (hm : sel_last_step last_step = .ok mv) (backward : Bool) (key : Key) (x : Traj (n + 1) d) (b : Fin (n + 1) → Fin (N + 1))
    {n_samples g : ℕ} (hn : strideLen n_samples g ≠ 0) :
    let rate := csmcRate N n (awayOf N last_step) (spreadOf N resampling backward) (fun _ => lgMaxLog d)
          (∫⁻ x, ENNReal.ofReal (Real.exp (lgTarget sigma ys x)) ∂trajVol (n + 1) d)
    AveragesNear (2 / (rate * strideLen n_samples g) + (if last_step = "barker" then 0 else forceErr) / rate)
      (lawOf (trajVol (n + 1) d) (lgTarget sigma ys)) fun F =>
        sampling_routine key x b (fun key s => outOf (lg_csmc_kernel ys sigma R mv backward key s.1 s.2)) n_samples g fun r => F r.1 := by
  have e := lgTarget_gamma ys hs
  have hZ := lgTarget_mass hs ys
  rw [← e] at hZ ⊢
  exact C85_csmc volume (C19_lgssm_proper ys hs) (lgFK_bounded ys hs) hZ hR hm backward key x b hn

/-- `lgssm`, multinomial resampling, backward sampling and Barker's move: the error vanishes as the run gets longer. -/
example (ys : Traj 20 3) := C85_lgssm (N := 25) (n := 19) (sigma := 2) (by norm_num) ys (resampling := "multinomial") (last_step := "barker")
  rfl rfl true [5] 0 (fun _ => 0) (n_samples := 1000000) (g := 10) (by decide)

/-- Consistency for `lgssm`: the average over time of the clipped first coordinate. -/
example (ys : Traj 20 3) := C85_consistent (N := 25) (n := 19) (resampling := "multinomial") volume
  (C19_lgssm_proper (N := 25) (n := 19) (sigma := 2) ys (by norm_num)) (lgFK_bounded ys (by norm_num))
  (by have h := lgTarget_mass (n := 19) (sigma := 2) (by norm_num) ys; rw [← lgTarget_gamma ys (by norm_num)] at h; exact h) rfl rfl true
  (Or.inl ⟨rfl, by norm_num⟩) (fun i => [i]) (fun _ => 0) (fun _ _ => 0) (lo := -1) (hi := 1) (f := fun x => max (-1) (min 1 (x 4 0)))
  (by fun_prop) (fun x => ⟨le_max_left _ _, max_le (by norm_num) (min_le_left _ _)⟩) (η := 0.01) (by norm_num)

section sv
variable {svd : Mat d d → SvdOut d} {tau : ℤ} {style : String} {target_stat : TargetStat} {backward : Bool}
  {make : Traj (n + 1) d → SvKernel Ex (n + 1) d}

/-- **C85** (`experiments/stochastic_volatility`, script, `CSMC`): if no observation is zero, the averages over the samples of every
chain of `one_experiment` after the burn-in, from every state and whatever the adaptation returned. -/
theorem C85_sv_chains (ht : 0 < tau) (hR : sel_resampling resampling = .ok R) (hm : sel_last_step last_step = .ok mv)
    (hk : SvType.CSMC.kernel_maker svd (svDynArgs tau d) style target_stat R mv backward = .ok make)
    {ys : Traj (n + 1) d} (hy : ∀ t j, ys t j ≠ 0) (delta : StepSize (n + 1)) (s : (make ys).S) (burnin_key sample_key : Key)
    (burnin : ℕ) {n_samples : ℕ} (hn : n_samples ≠ 0) {M : ℕ} (i : Fin M) :
    AveragesNear (2 / (svRate N resampling last_step backward tau ys * n_samples) +
        svErr .CSMC last_step / svRate N resampling last_step backward tau ys) (svPosterior .CSMC tau ys) fun F =>
      sv_chains burnin_key sample_key (make ys) s delta burnin n_samples M fun c => F (c i).1 := by
  have hch : ∃ Good : (make ys).S → Prop, ChainsOK (make ys) delta Good ∧ ∀ s, Good s := by
    simp only [SvType.kernel_maker, sv_get_csmc_kernel] at hk
    split_ifs at hk
    cases hk
    have hok := sv_csmc_ok ys (sel_ok hR hm) (svDynArgs_P0 ht d) (svDynArgs_Q ht d) backward
    exact ⟨_, csmcSv_chainsOK (fun key => hok.markov key) (fun key => hok.relabels key) hok.free, fun _ => trivial⟩
  obtain ⟨Good, hgood, hg⟩ := hch
  obtain ⟨ν, hν, hlaw, hc⟩ := hgood.law (hg s) burnin n_samples
  have hs1 : strideLen n_samples 1 = n_samples := by simp [strideLen]
  have hk' : ∀ k : Fin (strideLen n_samples 1), k + burnin < strideLen (n_samples + burnin) 1 := fun k => by
    have := k.2
    simp only [strideLen] at this ⊢
    omega
  intro lo hi f hf hb
  let F : (Fin (strideLen n_samples 1) → Traj (n + 1) d) → ℝ≥0∞ := fun xs =>
    ENNReal.ofReal ((avgOf f xs - ∫ x, f x ∂svPosterior .CSMC tau ys) ^ 2)
  have hF : Measurable F := by
    unfold F avgOf
    fun_prop
  have e1 : sv_chains burnin_key sample_key (make ys) s delta burnin n_samples M (fun c => F (c i).1) = ∫⁻ r, F r.1 ∂ν := by
    have h1 := hc M burnin_key sample_key (fun c => F (c i).1) (by fun_prop)
    refine h1.trans ?_
    have hp := measurePreserving_eval (fun _ : Fin M => ν) i
    exact hp.lintegral_comp (f := fun r : Run (strideLen n_samples 1) (n + 1) d => F r.1) (by fun_prop)
  have e2 : ∫⁻ r, F r.1 ∂ν = (make ys).experiment_all [] s (fun k s => (make ys).kernel k s delta) (n_samples + burnin)
      fun r => F fun k => r.1 ⟨k + burnin, hk' k⟩ := hlaw [] (fun r => F r.1) (by fun_prop)
  refine (le_of_eq (e1.trans e2)).trans ?_
  have hS := sel_ok hR hm
  have hP := svDynArgs_P0 ht d
  have hQ := svDynArgs_Q ht d
  obtain ⟨hl, hZ⟩ := svSampled_mass .CSMC ht ys
  clear e1 e2 hlaw hc hν hgood hg Good ν
  simp only [SvType.kernel_maker, sv_get_csmc_kernel] at hk
  split_ifs at hk
  cases hk
  have hok := sv_csmc_ok ys hS hP hQ backward
  have h := indexed_averages (M := strideLen n_samples 1) hl hZ
    (step := fun key s => outOf (sv_csmc_kernel ys (svDynArgs tau d) R mv backward true key s.1 s.2))
    (fun key => hok.markov key) (fun key => hok.relabels key) hok.near
    (fun key x b f hf => sv_csmc_ge hP hQ hy hR hm backward key x b hf) (by rw [hs1]; exact hn) one_ne_zero
    (splitKey [] (n_samples + burnin)) (τ := fun k => ⟨(k + burnin) * 1 + 1, Nat.succ_lt_succ (strideLen_lt ⟨k + burnin, hk' k⟩)⟩)
    (o := burnin + 1) (fun k => by simp [add_assoc]) s lo hi f hf hb
  have e3 : csmcRate N n (awayOf N last_step) (spreadOf N resampling backward) (fun t => svMaxLog (ys t)) 1 *
      ∫⁻ x, ENNReal.ofReal (Real.exp (svSampled .CSMC tau ys x)) ∂(Measure.pi fun _ => volume) =
      svRate N resampling last_step backward tau ys := by
    rw [svRate, csmcRate, csmcRate, mul_one]
  have hE : svErr .CSMC last_step = if last_step = "barker" then 0 else forceErr := by simp [svErr]
  have e4 : ((strideLen n_samples 1 : ℕ) : ℝ≥0∞) = n_samples := congrArg _ hs1
  rw [e3, e4] at h
  rw [hE]
  exact (le_of_eq (congrFun (C49_sampling (m := Ex) [] s.1 s.2
    (fun key s => outOf (sv_csmc_kernel ys (svDynArgs tau d) R mv backward true key s.1 s.2)) (n_samples + burnin) 1)
      fun r => F fun k => r.1 ⟨k + burnin, hk' k⟩)).trans h

end sv

/-- The defaults of the script with `barker`: 32 particles, 50 observations, 4 chains of 10000 samples after 2500 steps of burn-in. -/
example (x : Traj 50 30) : ∃ make, SvType.kernel_maker (m := Ex) (N := 31) (n := 49) (diagSvd 30) .CSMC (svDynArgs 10 30) "bootstrap"
    (.level 0.5) (fun key w i j c => killing key w i j c) (fun key w k => barker_move key w k) false = .ok make ∧
    AveragesNear (2 / (svRate (n := 49) (d := 30) 31 "killing" "barker" false 10 (fun _ _ => 1) * (10000 : ℕ)))
      (svPosterior .CSMC 10 fun _ _ => 1)
      fun F => sv_chains [1] [2] (make fun _ _ => 1) ((make fun _ _ => 1).init x) (.scalar 0.01) 2500 10000 4 fun c => F (c 3).1 := by
  refine ⟨_, rfl, ?_⟩
  have h := C85_sv_chains (n := 49) (d := 30) (svd := diagSvd 30) (tau := 10) (style := "bootstrap") (target_stat := .level 0.5)
    (resampling := "killing") (last_step := "barker") (N := 31) (backward := false) (by norm_num) rfl rfl rfl (ys := fun _ _ => 1)
    (fun _ _ => one_ne_zero) (.scalar 0.01) (x, fun _ => 0) [1] [2] 2500 (n_samples := 10000) (by norm_num) (M := 4) 3
  have e : svErr .CSMC "barker" = 0 := by simp [svErr]
  rw [e, ENNReal.zero_div, add_zero] at h
  exact h

section imh
variable {D : Dyn n d} (hP : D.P0.PosDef) (hQ : ∀ t, (D.Qs t).PosDef) {log_pdf : Traj (n + 1) d → ℝ} (hl : Measurable log_pdf)
include hP hQ hl

/-- **C85** (`tp.sampling_routine` with the kernel of `imh.get_kernel`): if `log_pdf ≤ B`, from every trajectory. -/
theorem C85_imh {B : ℝ} (hB : ∀ x, log_pdf x ≤ B) (key : Key) (x : Traj (n + 1) d) {n_steps g : ℕ} (hn : strideLen n_steps g ≠ 0) :
    let rate := imhRate N B (∫⁻ x, ENNReal.ofReal (Real.exp (mtTarget D log_pdf x)) ∂trajVol (n + 1) d)
    AveragesNear (2 / (rate * strideLen n_steps g) + forceErr / rate) (lawOf (trajVol (n + 1) d) (mtTarget D log_pdf)) fun F =>
      (tp_sampling_routine key (imh_init log_pdf x) (fun key s => imh_kernel key s D log_pdf N) n_steps g : Ex _) fun r => F r.1 := by
  intro rate
  obtain ⟨hZ, ⟨ν, hν1, hν⟩, hδ⟩ := imh_doeblin (N := N) hP hQ hl hB
  have hPr := lawOf_isProb hZ (measurable_mtTarget D hl)
  have hc : rate ≤ 1 := by
    have h := hν [] x (fun _ => 1) measurable_const
    rwa [lintegral_one, hν1, imhStep_mass hP hQ] at h
  have hg : g ≠ 0 := fun h => hn (by rw [h, strideLen, Nat.div_zero])
  have h := averages_of_settles (imhStep_ker hP hQ hl) (imhStep_mass hP hQ) (p := fun x => x) measurable_id (c := rate) (δ := forceErr / rate) hc
    (fun keys i s => by
      have h := doeblin_converges (imhStep_ker hP hQ hl) (imhStep_mass hP hQ) (p := fun x => x) (σ := fun x => x) measurable_id
        measurable_id (fun _ => rfl) (ν := ν) hν (fun _ _ _ _ _ => rfl) hδ keys i s
      rwa [hν1] at h)
    hn hg (splitKey key n_steps) (τ := fun k => ⟨k * g + 1, Nat.succ_lt_succ (strideLen_lt k)⟩) (o := 1) (fun k => rfl) x
  intro lo hi f hf hb
  exact (le_of_eq (imh_run_eq (N := N) (D := D) (log_pdf := log_pdf) key x n_steps g fun xs =>
    ENNReal.ofReal ((avgOf f xs - ∫ x, f x ∂lawOf (trajVol (n + 1) d) (mtTarget D log_pdf)) ^ 2))).trans (h lo hi f hf hb)

end imh

/-- **C85** (`experiments/lgssm_scaling`, `IMH`): for all observations, from every trajectory. -/
theorem C85_lgssm_imh {sigma : ℝ} (hs : 0 < sigma) (ys : Traj (n + 1) d) (key : Key) (x : Traj (n + 1) d) {n_steps g : ℕ}
    (hn : strideLen n_steps g ≠ 0) :
    let rate := imhRate N ((n + 1) * lgMaxLog d) (∫⁻ x, ENNReal.ofReal (Real.exp (lgTarget sigma ys x)) ∂trajVol (n + 1) d)
    AveragesNear (2 / (rate * strideLen n_steps g) + forceErr / rate) (lawOf (trajVol (n + 1) d) (lgTarget sigma ys)) fun F =>
      (tp_sampling_routine key (imh_init (fun xs => lg_log_likelihood xs ys) x) (fun key s => lg_imh_kernel ys sigma N key s)
        n_steps g : Ex _) fun r => F r.1 := by
  rw [← lg_mtTarget ys]
  refine C85_imh (posDef_smul_one (pow_pos hs 2)) (fun _ => posDef_smul_one (pow_pos hs 2)) (measurable_lg_log_likelihood ys)
    (fun x => ?_) key x hn
  refine (sum_le_sum fun t _ => lg_log_potential_le (x t) (ys t)).trans (le_of_eq ?_)
  simp

example (ys : Traj 20 3) (x : Traj 20 3) :=
  C85_lgssm_imh (N := 25) (n := 19) (sigma := 2) (by norm_num) ys [5] x (n_steps := 1000) (g := 10) (by decide)

end Verif.Props
