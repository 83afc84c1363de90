import Verif.Lemmas.DoeblinNear
import Verif.Lemmas.MinorizeSchemes
import Verif.Lemmas.MultiTryProg
import Verif.Lemmas.Unique
import Verif.Spec.OneInvariant

/-!
# Multi-try kernels can go everywhere: helper lemmas
-/

open scoped ENNReal
open MeasureTheory Finset

namespace Verif
open Verif.Spec Verif.Model

variable {N n d T : ℕ}

/-! ## States with cached values -/

section cache
variable {X R : Type} [MeasurableSpace X] [MeasurableSpace R]

/-- What makes the invariant law of a chain of states with cached values unique. -/
theorem stateOnly {lam : Measure X} (hlam : lam ≠ 0) {cache : X → R} (hc : Measurable cache)
    (hU : MeasurableSet {s : X × R | s.2 = cache s.1}) {K : X × R → Ex (X × R)} (hK : IsKer K) (hmass : ∀ s, K s (fun _ => 1) = 1)
    (hr : ∀ s f, Measurable f → ∫⁻ x, f (x, cache x) ∂lam ≤ ∞ * K s f)
    (hcons : ∀ x f, K (x, cache x) f = K (x, cache x) (fun s => f (s.1, cache s.1))) :
    Reaches (lam.map fun x => (x, cache x)) K ∧ AtMostOneInvariant K ∧ CacheSettles cache K := by
  have hi : Measurable fun x => (x, cache x) := measurable_id.prodMk hc
  have hR : Reaches (lam.map fun x => (x, cache x)) K := Spec.Reaches.of_le fun s f hf => by
    rw [lintegral_map hf hi]
    exact hr s f hf
  have hne : lam.map (fun x => (x, cache x)) ≠ 0 := fun h => hlam ((Measure.map_eq_zero_iff hi.aemeasurable).mp h)
  refine ⟨hR, fun π₁ π₂ _ _ h₁ h₂ => invariant_unique hne hK hmass hR h₁ h₂, fun ρ _ hρ => ?_⟩
  let U : Set (X × R) := {s | s.2 = cache s.1}
  have hI : Measurable (U.indicator (1 : X × R → ℝ≥0∞)) := measurable_one.indicator hU
  have h1 := hρ _ hI
  rw [lintegral_indicator_one hU, ← lintegral_add_compl _ hU] at h1
  have e : ∫⁻ s in U, K s (U.indicator 1) ∂ρ = ρ U := by
    rw [setLIntegral_congr_fun hU (g := fun _ => 1)]
    · rw [lintegral_one, Measure.restrict_apply_univ]
    · rintro ⟨x, c⟩ h
      have h' : c = cache x := h
      subst h'
      show K (x, cache x) (U.indicator 1) = 1
      rw [hcons, ← hmass (x, cache x)]
      exact congrArg _ (funext fun s => Set.indicator_of_mem (show (s.1, cache s.1) ∈ U from rfl) _)
  rw [e] at h1
  have h2 : ∫⁻ s in Uᶜ, K s (U.indicator 1) ∂ρ = 0 := by
    have : ρ U + ∫⁻ s in Uᶜ, K s (U.indicator 1) ∂ρ = ρ U + 0 := by rw [h1, add_zero]
    exact (ENNReal.add_right_inj (measure_ne_top _ _)).mp this
  have hpos : ∀ s, K s (U.indicator 1) ≠ 0 := fun s => hR s U hU (by
    rw [Measure.map_apply hi hU]
    have : (fun x => (x, cache x)) ⁻¹' U = Set.univ := Set.eq_univ_of_forall fun x => rfl
    rw [this]
    exact fun h => hlam (Measure.measure_univ_eq_zero.mp h))
  have h3 := (lintegral_eq_zero_iff (hK.measurable' hI)).mp h2
  have h4 : ρ Uᶜ = 0 := by
    have h5 : ρ.restrict Uᶜ Set.univ = 0 := measure_mono_null (fun s _ => hpos s) (ae_iff.mp h3)
    rwa [Measure.restrict_apply_univ] at h5
  exact h4

omit [MeasurableSpace X] [MeasurableSpace R] in
/-- A chain started with the right cached values is a chain of positions. -/
theorem chain_lift {cache : X → R} {step : Key → X × R → Ex (X × R)}
    (hcons : ∀ key x f, step key (x, cache x) f = step key (x, cache x) (fun s => f (s.1, cache s.1))) {m : ℕ} (keys : Fin m → Key)
    (x : X) (F : (Fin (m + 1) → X × R) → ℝ≥0∞) :
    chain step (x, cache x) keys F =
      chain (fun key x => (step key (x, cache x) >>= fun s => pure s.1 : Ex X)) x keys (fun tr => F fun i => (tr i, cache (tr i))) := by
  induction m generalizing x with
  | zero =>
    refine congrArg F (funext fun i => ?_)
    rfl
  | succ m ih =>
    show step (keys 0) (x, cache x) (fun s1 => chain step s1 (tailA keys) fun rest => F (insert0 (x, cache x) rest)) =
      step (keys 0) (x, cache x) (fun s1 => chain (fun key x => (step key (x, cache x) >>= fun s => pure s.1 : Ex X)) s1.1 (tailA keys)
        fun rest => F fun i => (insert0 x rest i, cache (insert0 x rest i)))
    rw [hcons]
    refine congrArg (step (keys 0) (x, cache x)) (funext fun s => ?_)
    refine (ih (tailA keys) s.1 fun rest => F (insert0 (x, cache x) rest)).trans ?_
    refine congrArg (chain (fun key x => (step key (x, cache x) >>= fun s => pure s.1 : Ex X)) s.1 (tailA keys)) (funext fun rest => ?_)
    refine congrArg F (funext fun i => ?_)
    exact Fin.cases rfl (fun _ => rfl) i

end cache

/-! ## Selection -/

/-- If a function of the selected candidate vanishes, it vanishes at every proposal. -/
theorem drawSelect_null {E S : Type} [MeasurableSpace E] [MeasurableSpace S] {D : Ex E} (hD : IsKer fun _ : Unit => D)
    {W : E → Fin (N + 1) → ℝ} (hW : Measurable W) (hp : ∀ e, IsProb (W e)) (hpos : ∀ e i, 0 < W e i)
    {g : E → Fin (N + 1) → S} (hg : Measurable g) (key : Key) {f : S → ℝ≥0∞} (hf : Measurable f)
    (h0 : drawSelect D W g (forcedIdx key) f = 0) (i : Fin N) : D (fun e => f (g e i.succ)) = 0 := by
  obtain ⟨κ, _, hκ⟩ := hD
  have hM := measurable_select hW hg (force_moveKer key) hf
  have hm : Measurable fun e => f (g e i.succ) := hf.comp ((measurable_pi_apply _).comp hg)
  have e1 := (hκ () _ hM).symm.trans h0
  refine (hκ () _ hm).trans ?_
  rw [lintegral_eq_zero_iff hm]
  refine ((lintegral_eq_zero_iff hM).mp e1).mono fun e he => ?_
  have h1 := force_movesAway key (W e) (hp e) (hpos e) 0 (fun k => f (g e k))
  have h2 : moveIndex (fun key w k => force_move key w k) key (W e) 0 (fun k => f (g e k)) = 0 := he
  rw [h2, nonpos_iff_eq_zero, mul_eq_zero] at h1
  rcases h1 with h1 | h1
  · exact absurd h1 (ENNReal.ofReal_pos.mpr (by positivity)).ne'
  · have h3 := (sum_eq_zero_iff.mp h1) i.succ (mem_erase.mpr ⟨Fin.succ_ne_zero i, mem_univ _⟩)
    rcases mul_eq_zero.mp h3 with h3 | h3
    · exact absurd h3 (ENNReal.ofReal_pos.mpr (hpos e _)).ne'
    · exact h3

/-- A function of one coordinate that vanishes almost everywhere for a positive density. -/
theorem pi_eval_null {X : Type} [MeasurableSpace X] {lam : Measure X} [SigmaFinite lam] (hlam : lam ≠ 0) (i : Fin N)
    {F : X → ℝ≥0∞} (hF : Measurable F) {p : (Fin N → X) → ℝ≥0∞} (hp : Measurable p) (hpos : ∀ y, p y ≠ 0)
    (h : ∫⁻ y, p y * F (y i) ∂(Measure.pi fun _ => lam) = 0) : ∫⁻ x, F x ∂lam = 0 := by
  have hm : Measurable fun y : Fin N → X => p y * F (y i) := hp.mul (hF.comp (measurable_pi_apply i))
  have h1 := (lintegral_eq_zero_iff hm).mp h
  rw [lintegral_eq_zero_iff hF]
  by_contra hne
  have hA : MeasurableSet {x | F x ≠ 0} := (measurableSet_eq_fun hF measurable_const).compl
  have hA0 : lam {x | F x ≠ 0} ≠ 0 := fun h0 => hne (ae_iff.mpr h0)
  have h2 : (Measure.pi fun _ : Fin N => lam) (Set.pi Set.univ fun j => if j = i then {x | F x ≠ 0} else Set.univ) = 0 := by
    refine measure_mono_null (fun y hy => ?_) (ae_iff.mp h1)
    have : y i ∈ (if i = i then {x | F x ≠ 0} else Set.univ) := hy i (Set.mem_univ _)
    rw [if_pos rfl] at this
    exact mul_ne_zero (hpos y) this
  rw [Measure.pi_pi, prod_eq_zero_iff] at h2
  obtain ⟨j, -, hj⟩ := h2
  split_ifs at hj
  · exact hA0 hj
  · exact hlam (Measure.measure_univ_eq_zero.mp hj)

theorem trajVol_ne : (Measure.pi fun _ : Fin T => (volume : Measure (Vec d))) ≠ 0 := by
  intro h
  have := congrArg (fun μ : Measure (Fin T → Vec d) => μ Set.univ) h
  have h2 : (Measure.pi fun _ : Fin T => (volume : Measure (Vec d))) Set.univ ≠ 0 := by
    rw [Measure.pi_univ, prod_ne_zero_iff]
    exact fun _ _ => (Measure.measure_univ_ne_zero).mpr (NeZero.ne _)
  exact h2 this

/-- The same with an auxiliary variable. -/
theorem aux_pi_null {X Θ : Type} [MeasurableSpace X] [MeasurableSpace Θ] {lam : Measure X} [SigmaFinite lam] (hlam : lam ≠ 0)
    {μ : Measure Θ} (hμ : μ ≠ 0) {r : Θ → ℝ} (hr : Measurable r) {q : Θ → X → ℝ} (hq : Measurable fun p : Θ × X => q p.1 p.2)
    (i : Fin N) {F : X → ℝ≥0∞} (hF : Measurable F)
    (h : ∫⁻ u, ENNReal.ofReal (Real.exp (r u)) * ∫⁻ y, ENNReal.ofReal (Real.exp (∑ i, q u (y i))) * F (y i)
      ∂(Measure.pi fun _ : Fin N => lam) ∂μ = 0) : ∫⁻ x, F x ∂lam = 0 := by
  have hp : Measurable fun p : Θ × (Fin N → X) => ENNReal.ofReal (Real.exp (∑ i, q p.1 (p.2 i))) :=
    measurable_expR (Finset.measurable_fun_sum _ fun i _ => hq.comp (by fun_prop : Measurable fun p : Θ × (Fin N → X) => (p.1, p.2 i)))
  have hin : Measurable fun u => ∫⁻ y, ENNReal.ofReal (Real.exp (∑ i, q u (y i))) * F (y i) ∂(Measure.pi fun _ : Fin N => lam) :=
    Measurable.lintegral_prod_right' (f := fun p : Θ × (Fin N → X) => ENNReal.ofReal (Real.exp (∑ i, q p.1 (p.2 i))) * F (p.2 i))
      (hp.mul (hF.comp (by fun_prop)))
  have h1 := (lintegral_eq_zero_iff ((measurable_expR hr).mul hin)).mp h
  have : (ae μ).NeBot := ae_neBot.mpr hμ
  obtain ⟨u, hu⟩ := h1.exists
  rcases mul_eq_zero.mp hu with h2 | h2
  · exact absurd h2 (by simp [Real.exp_pos])
  · exact pi_eval_null hlam i hF (hp.comp (by fun_prop : Measurable fun y : Fin N → X => (u, y))) (fun y => by simp [Real.exp_pos]) h2

/-! ## The three kernels -/

section mala
variable {delta : ℝ} (hd : 0 < delta) {log_pdf : Traj T d → ℝ} (hl : Measurable log_pdf) {grad : Traj T d → Traj T d}
  (hg : Measurable grad)

omit hd hl hg in
theorem mala_cached (key : Key) (auxiliary : Bool) (delta : ℝ) (log_pdf : Traj T d → ℝ) (grad : Traj T d → Traj T d) (x : Traj T d)
    (f : VGState T d → ℝ≥0∞) :
    stateStep (fun key s => mala_kernel key s delta log_pdf grad N auxiliary) key (x, log_pdf x, grad x) f =
    stateStep (fun key s => mala_kernel key s delta log_pdf grad N auxiliary) key (x, log_pdf x, grad x)
      (fun s => f (s.1, log_pdf s.1, grad s.1)) := by
  rw [mala_step_eq]
  refine congrArg (malaNoise key N T d) (funext fun e => ?_)
  refine congrArg (forcedIdx (splitKey key 3 1) _ 0) (funext fun k => ?_)
  exact congrArg f (Fin.cases rfl (fun _ => rfl) k)

include hd hl hg in
theorem mala_reach (hN : N ≠ 0) (key : Key) (auxiliary : Bool) (s : VGState T d) (f : VGState T d → ℝ≥0∞) (hf : Measurable f) :
    ∫⁻ x, f (x, log_pdf x, grad x) ∂(Measure.pi fun _ : Fin T => (volume : Measure (Vec d))) ≤
      ∞ * stateStep (fun key s => mala_kernel key s delta log_pdf grad N auxiliary) key s f := by
  rw [le_top_mul_iff]
  intro h
  rw [mala_step_eq] at h
  have h1 := drawSelect_null (malaNoise_ker key) ((measurable_malaW hl hg delta auxiliary).comp measurable_prodMk_left)
    (fun e => normalize_isProb _) (fun e i => normalize_pos _ i)
    ((measurable_candStates hl hg measurable_fst (measurable_malaProp delta)).comp measurable_prodMk_left) _ hf h
    ⟨0, Nat.pos_of_ne_zero hN⟩
  have hF : Measurable fun x => f (x, log_pdf x, grad x) := hf.comp (measurable_id.prodMk (hl.prodMk hg))
  have h2 := malaNoise_law (N := N) key hd (fun _ => s.2.1) (fun _ => s.2.2) s.1
    (M := fun _ y => f (y ⟨0, Nat.pos_of_ne_zero hN⟩, log_pdf (y ⟨0, Nat.pos_of_ne_zero hN⟩), grad (y ⟨0, Nat.pos_of_ne_zero hN⟩)))
    (hF.comp (by fun_prop))
  have h3 := h2.symm.trans h1
  exact aux_pi_null trajVol_ne trajVol_ne (measurable_isoT _ measurable_const measurable_id)
    (measurable_isoT _ measurable_fst measurable_snd) _ hF h3

end mala

section tp
variable {delta : ℝ} (hd : 0 < delta) {D : Dyn n d} (hP : D.P0.PosDef) (hQ : ∀ t, (D.Qs t).PosDef)
  {log_pdf : Traj (n + 1) d → ℝ} (hl : Measurable log_pdf) {grad : Traj (n + 1) d → Traj (n + 1) d} (hg : Measurable grad)

omit hd hP hQ hl hg in
theorem mtp_cached (key : Key) (delta : ℝ) (D : Dyn n d) (log_pdf : Traj (n + 1) d → ℝ) (grad : Traj (n + 1) d → Traj (n + 1) d)
    (x : Traj (n + 1) d) (f : VGState (n + 1) d → ℝ≥0∞) :
    stateStep (fun key s => tp_kernel key s delta D log_pdf grad N) key (x, log_pdf x, grad x) f =
    stateStep (fun key s => tp_kernel key s delta D log_pdf grad N) key (x, log_pdf x, grad x)
      (fun s => f (s.1, log_pdf s.1, grad s.1)) := by
  rw [tp_step_eq]
  refine congrArg (mtpNoise key delta D N (x, log_pdf x, grad x)) (funext fun e => ?_)
  refine congrArg (forcedIdx (splitKey key 3 1) _ 0) (funext fun k => ?_)
  exact congrArg f (Fin.cases rfl (fun _ => rfl) k)

include hd hP hQ hl hg in
theorem mtp_reach (hN : N ≠ 0) (key : Key) (s : VGState (n + 1) d) (f : VGState (n + 1) d → ℝ≥0∞) (hf : Measurable f) :
    ∫⁻ x, f (x, log_pdf x, grad x) ∂(Measure.pi fun _ : Fin (n + 1) => (volume : Measure (Vec d))) ≤
      ∞ * stateStep (fun key s => tp_kernel key s delta D log_pdf grad N) key s f := by
  rw [le_top_mul_iff]
  intro h
  rw [tp_step_eq] at h
  have h1 := drawSelect_null ((mtpNoise_ker hP hQ hd key).comp (g := fun _ : Unit => s) measurable_const)
    ((measurable_tpW hl hg delta).comp measurable_prodMk_left)
    (fun e => normalize_isProb _) (fun e i => normalize_pos _ i)
    ((measurable_candStates hl hg (β := VGState (n + 1) d × (Traj (n + 1) d × (Fin N → Traj (n + 1) d))) measurable_fst
      (by fun_prop : Measurable fun p : VGState (n + 1) d × (Traj (n + 1) d × (Fin N → Traj (n + 1) d)) => p.2.2)).comp measurable_prodMk_left)
    _ hf h ⟨0, Nat.pos_of_ne_zero hN⟩
  have hF : Measurable fun x => f (x, log_pdf x, grad x) := hf.comp (measurable_id.prodMk (hl.prodMk hg))
  have h2 := mtpNoise_law (N := N) hP hQ hd key (fun _ => s.2.1) (fun _ => s.2.2) s.1
    (M := fun _ y => f (y ⟨0, Nat.pos_of_ne_zero hN⟩, log_pdf (y ⟨0, Nat.pos_of_ne_zero hN⟩), grad (y ⟨0, Nat.pos_of_ne_zero hN⟩)))
    (hF.comp (by fun_prop))
  have h3 := h2.symm.trans h1
  exact aux_pi_null trajVol_ne trajVol_ne (measurable_isoT _ measurable_const measurable_id)
    (measurable_tpQ hP hQ hd) _ hF h3

end tp

section imh
variable {D : Dyn n d} (hP : D.P0.PosDef) (hQ : ∀ t, (D.Qs t).PosDef) {log_pdf : Traj (n + 1) d → ℝ} (hl : Measurable log_pdf)

omit hP hQ hl in
theorem imh_cached (key : Key) (D : Dyn n d) (log_pdf : Traj (n + 1) d → ℝ) (x : Traj (n + 1) d) (f : Traj (n + 1) d × ℝ → ℝ≥0∞) :
    stateStep (fun key s => imh_kernel key s D log_pdf N) key (x, log_pdf x) f =
    stateStep (fun key s => imh_kernel key s D log_pdf N) key (x, log_pdf x) (fun s => f (s.1, log_pdf s.1)) := by
  rw [imh_step_eq]
  refine congrArg (prior_sampling (splitKey key 3 0) D.m0 D.P0 D.Fs D.Qs D.bs N : Ex _) (funext fun e => ?_)
  refine congrArg (forcedIdx (splitKey key 3 1) _ 0) (funext fun k => ?_)
  exact congrArg f (Fin.cases rfl (fun _ => rfl) k)

include hP hQ hl

theorem imh_reach (hN : N ≠ 0) (key : Key) (s : Traj (n + 1) d × ℝ) (f : Traj (n + 1) d × ℝ → ℝ≥0∞) (hf : Measurable f) :
    ∫⁻ x, f (x, log_pdf x) ∂(Measure.pi fun _ : Fin (n + 1) => (volume : Measure (Vec d))) ≤
      ∞ * stateStep (fun key s => imh_kernel key s D log_pdf N) key s f := by
  rw [le_top_mul_iff]
  intro h
  rw [imh_step_eq] at h
  have h1 := drawSelect_null (imh_draws_ker hP hQ (splitKey key 3 0)) ((measurable_imhW hl).comp measurable_prodMk_left)
    (fun e => normalize_isProb _) (fun e i => normalize_pos _ i) ((measurable_imhStates hl).comp measurable_prodMk_left) _ hf h
    ⟨0, Nat.pos_of_ne_zero hN⟩
  have hF : Measurable fun x => f (x, log_pdf x) := hf.comp (measurable_id.prodMk hl)
  have h2 := imh_draws (N := N) hP hQ (splitKey key 3 0)
    (F := fun y => f (y ⟨0, Nat.pos_of_ne_zero hN⟩, log_pdf (y ⟨0, Nat.pos_of_ne_zero hN⟩))) (hF.comp (by fun_prop))
  have h3 := h2.symm.trans h1
  refine pi_eval_null trajVol_ne _ hF (measurable_expR (Finset.measurable_fun_sum _ fun i _ => ?_)) (fun y => by simp [Real.exp_pos]) h3
  exact measurable_gaussPathLog _ _ _ _ measurable_const (measurable_pi_apply i)

/-- One step of independent Metropolis-Hastings draws from the target with positive probability. -/
theorem imh_ge {B : ℝ} (hB : ∀ x, log_pdf x ≤ B) (key : Key) (x : Traj (n + 1) d) {f : Traj (n + 1) d → ℝ≥0∞} (hf : Measurable f) :
    ENNReal.ofReal (1 / (N + 1)) * N * ENNReal.ofReal (Real.exp (-B) / (N + 1)) *
      ∫⁻ y, ENNReal.ofReal (Real.exp (gaussPathLog D.m0 D.P0 D.Fs D.Qs D.bs y + log_pdf y)) * f y
        ∂(Measure.pi fun _ : Fin (n + 1) => (volume : Measure (Vec d))) ≤
    stateStep (fun key s => imh_kernel key s D log_pdf N) key (x, log_pdf x) (fun s => f s.1) := by
  rw [imh_step_eq]
  have hS := Props.C39_prior (N := N) D.m0 hP (Fs := D.Fs) hQ D.bs (splitKey key 3 0)
  have hker := imh_draws_ker (N := N) (β := Unit) hP hQ (splitKey key 3 0)
  have hG : Measurable fun y => ENNReal.ofReal (Real.exp (log_pdf y)) * f y := (measurable_expR hl).mul hf
  -- the law of one proposal
  have one : ∀ i : Fin N, (prior_sampling (splitKey key 3 0) D.m0 D.P0 D.Fs D.Qs D.bs N : Ex _)
      (fun e => ENNReal.ofReal (Real.exp (log_pdf (e i))) * f (e i)) =
      ∫⁻ y, ENNReal.ofReal (Real.exp (gaussPathLog D.m0 D.P0 D.Fs D.Qs D.bs y + log_pdf y)) * f y
        ∂(Measure.pi fun _ : Fin (n + 1) => (volume : Measure (Vec d))) := fun i => by
    have hpr : IsProbabilityMeasure ((Measure.pi fun _ : Fin (n + 1) => (volume : Measure (Vec d))).withDensity
        fun x => ENNReal.ofReal (Real.exp (gaussPathLog D.m0 D.P0 D.Fs D.Qs D.bs x))) :=
      ⟨by rw [withDensity_apply _ MeasurableSet.univ, Measure.restrict_univ]; exact hS.norm i⟩
    refine (hS.law (fun e => ENNReal.ofReal (Real.exp (log_pdf (e i))) * f (e i)) (hG.comp (measurable_pi_apply i))).trans ?_
    have hp := measurePreserving_eval (fun _ : Fin N => (Measure.pi fun _ : Fin (n + 1) => (volume : Measure (Vec d))).withDensity
        fun x => ENNReal.ofReal (Real.exp (gaussPathLog D.m0 D.P0 D.Fs D.Qs D.bs x))) i
    refine (hp.lintegral_comp hG).trans ?_
    rw [lintegral_withDensity_eq_lintegral_mul _ (measurable_expR (hS.meas i)) hG]
    refine lintegral_congr fun y => ?_
    rw [ofReal_exp_add, mul_assoc]
    rfl
  have low : ∀ e : Fin N → Traj (n + 1) d, ENNReal.ofReal (1 / (N + 1)) * ENNReal.ofReal (Real.exp (-B) / (N + 1)) *
      ∑ i : Fin N, ENNReal.ofReal (Real.exp (log_pdf (e i))) * f (e i) ≤
      forcedIdx (splitKey key 3 1) (imhW log_pdf (x, log_pdf x) e) 0 (fun k => f (imhStates log_pdf (x, log_pdf x) e k).1) := fun e => by
    refine le_trans ?_ (force_movesAway (splitKey key 3 1) (imhW log_pdf (x, log_pdf x) e) (normalize_isProb _) (normalize_pos _) 0
      (fun k => f (imhStates log_pdf (x, log_pdf x) e k).1))
    rw [mul_assoc]
    gcongr
    have hs : ∑ l ∈ univ.erase (0 : Fin (N + 1)), ENNReal.ofReal (imhW log_pdf (x, log_pdf x) e l) *
        f (imhStates log_pdf (x, log_pdf x) e l).1 = ∑ i : Fin N, ENNReal.ofReal (imhW log_pdf (x, log_pdf x) e i.succ) * f (e i) := by
      have hu : univ.erase (0 : Fin (N + 1)) = univ.map (Fin.succEmb N) := by
        ext k
        refine Fin.cases ?_ (fun i => ?_) k <;> simp [Fin.succ_ne_zero]
      rw [hu, sum_map]
      rfl
    rw [hs, mul_sum]
    refine sum_le_sum fun i _ => ?_
    rw [← mul_assoc]
    gcongr
    rw [← ENNReal.ofReal_mul (by positivity)]
    refine ENNReal.ofReal_le_ofReal ?_
    have hv : ∀ k, (insert0 (log_pdf x) (fun i => log_pdf (e i)) : Fin (N + 1) → ℝ) k ≤ B := fun k =>
      Fin.cases (hB x) (fun i => hB (e i)) k
    have hsum : ∑ k, Real.exp ((insert0 (log_pdf x) (fun i => log_pdf (e i)) : Fin (N + 1) → ℝ) k) ≤ (N + 1) * Real.exp B := by
      refine (sum_le_sum fun k _ => Real.exp_le_exp.mpr (hv k)).trans (le_of_eq ?_)
      simp
    show _ ≤ normalizeW (insert0 (log_pdf x) fun i => log_pdf (e i)) i.succ
    rw [normalize_eq]
    have e1 : (insert0 (log_pdf x) (fun i => log_pdf (e i)) : Fin (N + 1) → ℝ) i.succ = log_pdf (e i) := rfl
    rw [e1, Real.exp_neg, div_mul_eq_mul_div, div_le_div_iff₀ (by positivity) (sum_exp_pos _)]
    calc (Real.exp B)⁻¹ * Real.exp (log_pdf (e i)) * ∑ k, Real.exp ((insert0 (log_pdf x) (fun i => log_pdf (e i)) : Fin (N + 1) → ℝ) k)
        ≤ (Real.exp B)⁻¹ * Real.exp (log_pdf (e i)) * ((N + 1) * Real.exp B) := by gcongr
      _ = Real.exp (log_pdf (e i)) * (N + 1) := by field_simp
  have hGi : ∀ i : Fin N, Measurable fun e : Fin N → Traj (n + 1) d => ENNReal.ofReal (Real.exp (log_pdf (e i))) * f (e i) := fun i =>
    hG.comp (measurable_pi_apply i)
  have hM := measurable_select (((measurable_imhW hl).comp measurable_prodMk_left) : Measurable (imhW (N := N) log_pdf (x, log_pdf x)))
    ((measurable_imhStates hl).comp measurable_prodMk_left : Measurable (imhStates (N := N) log_pdf (x, log_pdf x)))
    (force_moveKer (splitKey key 3 1)) (f := fun s => f s.1) (by fun_prop)
  refine le_trans (le_of_eq ?_) (hker.mono () (Measurable.const_mul (Finset.measurable_fun_sum _ fun i _ => hGi i) _) hM low)
  rw [hker.const_mul () (f := fun e : Fin N → Traj (n + 1) d => ∑ i : Fin N, ENNReal.ofReal (Real.exp (log_pdf (e i))) * f (e i)) _
      (Finset.measurable_fun_sum _ fun i _ => hGi i),
    hker.sum () univ (f := fun i (e : Fin N → Traj (n + 1) d) => ENNReal.ofReal (Real.exp (log_pdf (e i))) * f (e i)) (fun i _ => hGi i)]
  simp only [one, sum_const, card_univ, Fintype.card_fin, nsmul_eq_mul]
  ring

end imh

end Verif
