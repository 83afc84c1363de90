import Verif.Lemmas.Drivers
import Verif.Lemmas.ScanRules

/-!
# C46-C49: step-size adaptation and sampling routines
-/

open scoped ENNReal
open MeasureTheory

namespace Verif.Props
open Verif Verif.Model Verif.Spec Verif.Poss

variable {X B S : Type} [DecidableEq B] {T W : ℕ}

/-! ## C46: step sizes stay within their bounds -/

/-- C46: the updated step size lies within the bounds. -/
theorem C46_update_bounds {cfg : AdaptCfg} (h : cfg.min_delta ≤ cfg.max_delta) (W i : ℕ) (acc : Option ℝ) (delta : ℝ) :
    cfg.min_delta ≤ adaptDelta cfg W i acc delta ∧ adaptDelta cfg W i acc delta ≤ cfg.max_delta :=
  clip_mem h

/-- The default configuration of `mcmc_utils` (target 0.5): its bounds are ordered. -/
noncomputable def cfgEx : AdaptCfg := ⟨0.5, 1e-12, 1e2, 1e-2, 0.1⟩

theorem cfgEx_ok : cfgEx.min_delta ≤ cfgEx.max_delta := by norm_num [cfgEx]

example := C46_update_bounds cfgEx_ok 99 250 (some 0.9) 0.3

/-- The routines are their traced scans, with the trace dropped. -/
theorem C46_routine_traced {m : Type → Type} [RandM m] [LawfulMonad m] (key : Key) (init_xs : Fin T → X)
    (init_bs : Fin T → B)
    (kernel : Key → (Fin T → X) × (Fin T → B) → (Fin T → ℝ) → m ((Fin T → X) × (Fin T → B)))
    (cfg : AdaptCfg) (W : ℕ) (initial_deltas : Fin T → ℝ) (n_steps : ℕ) :
    delta_adaptation_routine key init_xs init_bs kernel cfg W initial_deltas n_steps = (do
      let r ← scanM (traced (adaptBody cfg kernel)) (⟨init_xs, init_bs, initial_deltas, fun _ => nanHistory W⟩ :
        AdaptCarry X B T W) (stepInputs key n_steps)
      pure ((r.1.xs, r.1.bs), r.1.deltas)) := by
  unfold delta_adaptation_routine
  simp only [scanM_traced, bind_assoc, pure_bind]

@[inherit_doc C46_routine_traced]
theorem C46_t_routine_traced {m : Type → Type} [RandM m] [LawfulMonad m] (key : Key) (init_xs : Fin T → X)
    (init_bs : Fin T → B)
    (kernel : Key → (Fin T → X) × (Fin T → B) → (Fin T → ℝ) → m ((Fin T → X) × (Fin T → B)))
    (cfg : AdaptCfg) (stat : (Fin T → Option ℝ) → Option ℝ) (W : ℕ) (initial_deltas : Fin T → ℝ) (n_steps : ℕ) :
    t_delta_adaptation_routine key init_xs init_bs kernel cfg stat W initial_deltas n_steps = (do
      let r ← scanM (traced (tAdaptBody cfg stat kernel))
        (⟨init_xs, init_bs, initial_deltas, fun _ => nanHistory W⟩ : AdaptCarry X B T W) (stepInputs key n_steps)
      pure ((r.1.xs, r.1.bs), r.1.deltas)) := by
  unfold t_delta_adaptation_routine
  simp only [scanM_traced, bind_assoc, pure_bind]

@[inherit_doc C46_routine_traced]
theorem C46_tp_routine_traced {m : Type → Type} [RandM m] [LawfulMonad m] (key : Key) (init : S)
    (kernel : Key → S → ℝ → m (S × Bool)) (cfg : AdaptCfg) (W : ℕ) (initial_delta : ℝ) (n_steps : ℕ) :
    tp_delta_adaptation_routine key init kernel cfg W initial_delta n_steps = (do
      let r ← scanM (traced (tpAdaptBody cfg kernel)) (⟨init, initial_delta, nanHistory W⟩ : TpCarry S W)
        (stepInputs key n_steps)
      pure (r.1.state, r.1.delta)) := by
  unfold tp_delta_adaptation_routine
  simp only [scanM_traced, bind_assoc, pure_bind]

/-- C46 (`mcmc_utils`): after every iteration, all step sizes lie within the bounds. -/
theorem C46_csmc_bounds {cfg : AdaptCfg} (h : cfg.min_delta ≤ cfg.max_delta)
    (kernel : Key → (Fin T → X) × (Fin T → B) → (Fin T → ℝ) → Poss ((Fin T → X) × (Fin T → B)))
    (c : AdaptCarry X B T W) {n : ℕ} (inp : Fin n → ℕ × Key) :
    Always (scanM (traced (adaptBody cfg kernel)) c inp) (fun r =>
      ∀ i t, cfg.min_delta ≤ (r.2 i).2.deltas t ∧ (r.2 i).2.deltas t ≤ cfg.max_delta) := by
  refine always_scanM_forall c inp (fun _ (o : AdaptCarry X B T W × AdaptCarry X B T W) =>
    ∀ t, cfg.min_delta ≤ o.2.deltas t ∧ o.2.deltas t ≤ cfg.max_delta) fun i c => ?_
  refine always_bind (R := fun r : AdaptCarry X B T W × Unit => ∀ t, cfg.min_delta ≤ r.1.deltas t ∧
    r.1.deltas t ≤ cfg.max_delta) ?_ fun r hr => always_pure hr
  exact always_bind' fun next => always_pure fun t => clip_mem h

/-- C46 (`t_atp_csmc_f`): the same, for every reduction of the acceptance rates. -/
theorem C46_twisted_bounds {cfg : AdaptCfg} (h : cfg.min_delta ≤ cfg.max_delta)
    (stat : (Fin T → Option ℝ) → Option ℝ)
    (kernel : Key → (Fin T → X) × (Fin T → B) → (Fin T → ℝ) → Poss ((Fin T → X) × (Fin T → B)))
    (c : AdaptCarry X B T W) {n : ℕ} (inp : Fin n → ℕ × Key) :
    Always (scanM (traced (tAdaptBody cfg stat kernel)) c inp) (fun r =>
      ∀ i t, cfg.min_delta ≤ (r.2 i).2.deltas t ∧ (r.2 i).2.deltas t ≤ cfg.max_delta) := by
  refine always_scanM_forall c inp (fun _ (o : AdaptCarry X B T W × AdaptCarry X B T W) =>
    ∀ t, cfg.min_delta ≤ o.2.deltas t ∧ o.2.deltas t ≤ cfg.max_delta) fun i c => ?_
  refine always_bind (R := fun r : AdaptCarry X B T W × Unit => ∀ t, cfg.min_delta ≤ r.1.deltas t ∧
    r.1.deltas t ≤ cfg.max_delta) ?_ fun r hr => always_pure hr
  exact always_bind' fun next => always_pure fun t => clip_mem h

/-- C46 (`tp`): the same for the scalar step size. -/
theorem C46_tp_bounds {cfg : AdaptCfg} (h : cfg.min_delta ≤ cfg.max_delta) (kernel : Key → S → ℝ → Poss (S × Bool))
    (c : TpCarry S W) {n : ℕ} (inp : Fin n → ℕ × Key) :
    Always (scanM (traced (tpAdaptBody cfg kernel)) c inp) (fun r =>
      ∀ i, cfg.min_delta ≤ (r.2 i).2.delta ∧ (r.2 i).2.delta ≤ cfg.max_delta) := by
  refine always_scanM_forall c inp (fun _ (o : TpCarry S W × TpCarry S W) =>
    cfg.min_delta ≤ o.2.delta ∧ o.2.delta ≤ cfg.max_delta) fun i c => ?_
  refine always_bind (R := fun r : TpCarry S W × Unit => cfg.min_delta ≤ r.1.delta ∧
    r.1.delta ≤ cfg.max_delta) ?_ fun r hr => always_pure hr
  exact always_bind' fun next => always_pure (clip_mem h)

/-- C46: the returned step sizes lie within the bounds (at least one iteration). -/
theorem C46_csmc_final {cfg : AdaptCfg} (h : cfg.min_delta ≤ cfg.max_delta)
    (kernel : Key → (Fin T → X) × (Fin T → B) → (Fin T → ℝ) → Poss ((Fin T → X) × (Fin T → B)))
    (key : Key) (init_xs : Fin T → X) (init_bs : Fin T → B) (W : ℕ) (initial_deltas : Fin T → ℝ) (n : ℕ) :
    Always (delta_adaptation_routine key init_xs init_bs kernel cfg W initial_deltas (n + 1)) (fun r =>
      ∀ t, cfg.min_delta ≤ r.2 t ∧ r.2 t ≤ cfg.max_delta) := by
  simp only [delta_adaptation_routine]
  rw [scanM_snoc, bind_assoc]
  refine always_bind' fun rs => ?_
  refine always_bind (R := fun r => ∀ t, cfg.min_delta ≤ r.1.deltas t ∧ r.1.deltas t ≤ cfg.max_delta) ?_
    fun r hr => always_pure hr
  refine always_bind (R := fun r => ∀ t, cfg.min_delta ≤ r.1.deltas t ∧ r.1.deltas t ≤ cfg.max_delta) ?_
    fun r hr => always_pure hr
  exact always_bind' fun next => always_pure fun t => clip_mem h

/-- C46: when the initial step sizes lie within the bounds, so does every step size ever passed to the kernel:
clipping the arguments of the kernel changes nothing, for every key and in every interpretation of the draws. -/
theorem C46_csmc_kernel_args {m : Type → Type} [RandM m] [LawfulMonad m] {cfg : AdaptCfg}
    (h : cfg.min_delta ≤ cfg.max_delta) (key : Key) (init_xs : Fin T → X) (init_bs : Fin T → B)
    (kernel : Key → (Fin T → X) × (Fin T → B) → (Fin T → ℝ) → m ((Fin T → X) × (Fin T → B)))
    (W : ℕ) (initial_deltas : Fin T → ℝ) (n_steps : ℕ)
    (h0 : ∀ t, cfg.min_delta ≤ initial_deltas t ∧ initial_deltas t ≤ cfg.max_delta) :
    delta_adaptation_routine key init_xs init_bs
      (fun k s d => kernel k s (fun t => min (max (d t) cfg.min_delta) cfg.max_delta)) cfg W initial_deltas n_steps =
    delta_adaptation_routine key init_xs init_bs kernel cfg W initial_deltas n_steps := by
  simp only [delta_adaptation_routine]
  congr 1
  refine scanM_congr_inv (body := adaptBody cfg kernel) (stepInputs key n_steps) (fun c : AdaptCarry X B T W => ∀ t, cfg.min_delta ≤ c.deltas t ∧
      c.deltas t ≤ cfg.max_delta) (fun c inp => kernel inp.2 (c.xs, c.bs) c.deltas)
    (fun c inp next => (⟨next.1, next.2, fun t => adaptDelta cfg W inp.1 (nanmean (pushHistory (c.history t)
      (some (boolF (acceptedFlags next.2 c.bs t))))) (c.deltas t), fun t => pushHistory (c.history t)
      (some (boolF (acceptedFlags next.2 c.bs t)))⟩, ())) (fun t c => rfl) (fun t c a _ i => clip_mem h)
    (fun t c hc => ?_) (⟨init_xs, init_bs, initial_deltas, fun _ => nanHistory W⟩ : AdaptCarry X B T W) h0
  have : (fun t => min (max (c.deltas t) cfg.min_delta) cfg.max_delta) = c.deltas :=
    funext fun t => clip_eq (hc t).1 (hc t).2
  simp only [adaptBody, this]

@[inherit_doc C46_csmc_kernel_args]
theorem C46_tp_kernel_args {m : Type → Type} [RandM m] [LawfulMonad m] {cfg : AdaptCfg}
    (h : cfg.min_delta ≤ cfg.max_delta) (key : Key) (init : S) (kernel : Key → S → ℝ → m (S × Bool))
    (W : ℕ) (initial_delta : ℝ) (n_steps : ℕ)
    (h0 : cfg.min_delta ≤ initial_delta ∧ initial_delta ≤ cfg.max_delta) :
    tp_delta_adaptation_routine key init (fun k s d => kernel k s (min (max d cfg.min_delta) cfg.max_delta)) cfg W
      initial_delta n_steps =
    tp_delta_adaptation_routine key init kernel cfg W initial_delta n_steps := by
  unfold tp_delta_adaptation_routine
  congr 1
  refine scanM_congr_inv (stepInputs key n_steps) (fun c : TpCarry S W => cfg.min_delta ≤ c.delta ∧
      c.delta ≤ cfg.max_delta) (fun c inp => kernel inp.2 c.state c.delta)
    (fun c inp next => (⟨next.1, adaptDelta cfg W inp.1 (nanmean (pushHistory c.history (some (boolF next.2)))) c.delta,
      pushHistory c.history (some (boolF next.2))⟩, ())) (fun t c => rfl) (fun t c a _ => clip_mem h)
    (fun t c hc => ?_) _ h0
  have : min (max c.delta cfg.min_delta) cfg.max_delta = c.delta := clip_eq hc.1 hc.2
  simp only [tpAdaptBody, this]

@[inherit_doc C46_csmc_kernel_args]
theorem C46_twisted_kernel_args {m : Type → Type} [RandM m] [LawfulMonad m] {cfg : AdaptCfg}
    (h : cfg.min_delta ≤ cfg.max_delta) (stat : (Fin T → Option ℝ) → Option ℝ) (key : Key) (init_xs : Fin T → X)
    (init_bs : Fin T → B)
    (kernel : Key → (Fin T → X) × (Fin T → B) → (Fin T → ℝ) → m ((Fin T → X) × (Fin T → B)))
    (W : ℕ) (initial_deltas : Fin T → ℝ) (n_steps : ℕ)
    (h0 : ∀ t, cfg.min_delta ≤ initial_deltas t ∧ initial_deltas t ≤ cfg.max_delta) :
    t_delta_adaptation_routine key init_xs init_bs
      (fun k s d => kernel k s (fun t => min (max (d t) cfg.min_delta) cfg.max_delta)) cfg stat W initial_deltas
        n_steps =
    t_delta_adaptation_routine key init_xs init_bs kernel cfg stat W initial_deltas n_steps := by
  simp only [t_delta_adaptation_routine]
  congr 1
  refine scanM_congr_inv (body := tAdaptBody cfg stat kernel) (stepInputs key n_steps) (fun c : AdaptCarry X B T W => ∀ t, cfg.min_delta ≤ c.deltas t ∧
      c.deltas t ≤ cfg.max_delta) (fun c inp => kernel inp.2 (c.xs, c.bs) c.deltas)
    (fun c inp next => (⟨next.1, next.2, fun t => adaptDelta cfg W inp.1 (stat fun t => nanmean (pushHistory
      (c.history t) (some (boolF (acceptedFlags next.2 c.bs t))))) (c.deltas t), fun t => pushHistory (c.history t)
      (some (boolF (acceptedFlags next.2 c.bs t)))⟩, ())) (fun t c => rfl) (fun t c a _ i => clip_mem h)
    (fun t c hc => ?_) (⟨init_xs, init_bs, initial_deltas, fun _ => nanHistory W⟩ : AdaptCarry X B T W) h0
  have : (fun t => min (max (c.deltas t) cfg.min_delta) cfg.max_delta) = c.deltas :=
    funext fun t => clip_eq (hc t).1 (hc t).2
  simp only [tAdaptBody, this]

/-- Initial step sizes as in the experiments meet the hypotheses. -/
example (kernel : Key → (Fin 3 → ℝ) × (Fin 3 → ℕ) → (Fin 3 → ℝ) → Ex ((Fin 3 → ℝ) × (Fin 3 → ℕ))) :=
  C46_csmc_kernel_args cfgEx_ok [] (fun _ => 0) (fun _ => 0) kernel 99 (fun _ => 0.1) 1000
    (by intro t; norm_num [cfgEx])

/-! ## C47: direction of the adaptation -/

/-- C47: during the first window (`i ≤ window_size`), the step size is only clipped. -/
theorem C47_frozen (cfg : AdaptCfg) {W i : ℕ} (hi : i ≤ W + 1) (acc : Option ℝ) (delta : ℝ) :
    adaptDelta cfg W i acc delta = min (max delta cfg.min_delta) cfg.max_delta := by
  have : adaptFlag cfg W i acc = false := by
    unfold adaptFlag
    cases acc with
    | none => rfl
    | some a => exact decide_eq_false fun h => absurd h.2 (by omega)
  simp [adaptDelta, this, clip]

/-- C47: an acceptance rate within 0.05 of the target (or undefined) leaves the step size unchanged, up to
clipping. -/
theorem C47_dead_zone (cfg : AdaptCfg) (W i : ℕ) {acc : Option ℝ}
    (ha : ∀ a, acc = some a → |a - cfg.target_acceptance| ≤ 0.05) (delta : ℝ) :
    adaptDelta cfg W i acc delta = min (max delta cfg.min_delta) cfg.max_delta := by
  have : adaptFlag cfg W i acc = false := by
    unfold adaptFlag
    cases acc with
    | none => rfl
    | some a =>
      have := abs_le.mp (ha a rfl)
      exact decide_eq_false fun h => by
        rcases h.1 with h | h <;> linarith
  simp [adaptDelta, this, clip]

/-- C47: after the first window, outside of the dead zone, the step size moves by
`rate_i * delta * (acceptance - target) / target`, up to clipping. -/
theorem C47_update (cfg : AdaptCfg) {W i : ℕ} (hi : W + 1 < i) {a : ℝ} (ha : 0.05 < |a - cfg.target_acceptance|)
    (delta : ℝ) : adaptDelta cfg W i (some a) delta = min (max (delta + max cfg.min_rate (cfg.rate /
      Real.sqrt (i + 1)) * delta * (a - cfg.target_acceptance) / cfg.target_acceptance) cfg.min_delta)
        cfg.max_delta := by
  have : adaptFlag cfg W i (some a) = true := by
    refine decide_eq_true ⟨?_, hi⟩
    rcases lt_abs.mp ha with h | h
    · right; linarith
    · left; linarith
  have hr : rateAt cfg i = max cfg.min_rate (cfg.rate / Real.sqrt (i + 1)) := by
    rw [rateAt, Real.sqrt_eq_rpow]
    norm_num
  simp [adaptDelta, this, clip, hr]

/-- C47: too many acceptances increase a positive step size that is strictly below the upper bound. -/
theorem C47_increase {cfg : AdaptCfg} {W i : ℕ} (hi : W + 1 < i) {a : ℝ} (ha : cfg.target_acceptance + 0.05 < a)
    {delta : ℝ} (ht : 0 < cfg.target_acceptance) (hr : 0 < cfg.min_rate) (h0 : 0 < delta)
    (h2 : delta < cfg.max_delta) : delta < adaptDelta cfg W i (some a) delta := by
  rw [C47_update cfg hi (by rw [abs_of_pos (by linarith)]; linarith)]
  have hrate : 0 < max cfg.min_rate (cfg.rate / Real.sqrt (i + 1)) := lt_max_of_lt_left hr
  have : 0 < max cfg.min_rate (cfg.rate / Real.sqrt (i + 1)) * delta * (a - cfg.target_acceptance) /
      cfg.target_acceptance := div_pos (mul_pos (mul_pos hrate h0) (by linarith)) ht
  exact lt_min (lt_max_of_lt_left (by linarith)) h2

/-- C47: too few acceptances decrease a positive step size that is strictly above the lower bound. -/
theorem C47_decrease {cfg : AdaptCfg} {W i : ℕ} (hi : W + 1 < i) {a : ℝ} (ha : a < cfg.target_acceptance - 0.05)
    {delta : ℝ} (ht : 0 < cfg.target_acceptance) (hr : 0 < cfg.min_rate) (h0 : 0 < delta)
    (h1 : cfg.min_delta < delta) : adaptDelta cfg W i (some a) delta < delta := by
  rw [C47_update cfg hi (by rw [abs_of_neg (by linarith)]; linarith)]
  have hrate : 0 < max cfg.min_rate (cfg.rate / Real.sqrt (i + 1)) := lt_max_of_lt_left hr
  have : max cfg.min_rate (cfg.rate / Real.sqrt (i + 1)) * delta * (a - cfg.target_acceptance) /
      cfg.target_acceptance < 0 := div_neg_of_neg_of_pos (mul_neg_of_pos_of_neg (mul_pos hrate h0) (by linarith)) ht
  exact lt_of_le_of_lt (min_le_left _ _) (max_lt (by linarith) h1)

/-- C47: the relative change is at most `rate_i * max(1, (1 - target) / target)`. -/
theorem C47_relative_change {cfg : AdaptCfg} (W i : ℕ) {a : ℝ} (ha : 0 ≤ a ∧ a ≤ 1) {delta : ℝ}
    (ht : 0 < cfg.target_acceptance) (hr : 0 < cfg.min_rate) (h0 : 0 < delta)
    (h1 : cfg.min_delta ≤ delta) (h2 : delta ≤ cfg.max_delta) :
    |adaptDelta cfg W i (some a) delta - delta| ≤ max cfg.min_rate (cfg.rate / Real.sqrt (i + 1)) *
      max 1 ((1 - cfg.target_acceptance) / cfg.target_acceptance) * delta := by
  set ρ := max cfg.min_rate (cfg.rate / Real.sqrt (i + 1)) with hρ
  have hrate : 0 < ρ := lt_max_of_lt_left hr
  have hm : (1 : ℝ) ≤ max 1 ((1 - cfg.target_acceptance) / cfg.target_acceptance) := le_max_left _ _
  have hpos : 0 ≤ ρ * max 1 ((1 - cfg.target_acceptance) / cfg.target_acceptance) * delta := by positivity
  have hstay : |min (max delta cfg.min_delta) cfg.max_delta - delta| ≤
      ρ * max 1 ((1 - cfg.target_acceptance) / cfg.target_acceptance) * delta := by
    rw [max_eq_left h1, min_eq_left h2, sub_self, abs_zero]; exact hpos
  by_cases hi : W + 1 < i
  · by_cases hd : 0.05 < |a - cfg.target_acceptance|
    · rw [C47_update cfg hi hd, ← hρ]
      have hx : (a - cfg.target_acceptance) / cfg.target_acceptance ≤
          max 1 ((1 - cfg.target_acceptance) / cfg.target_acceptance) :=
        le_max_of_le_right (div_le_div_of_nonneg_right (by linarith) ht.le)
      have hx' : -max 1 ((1 - cfg.target_acceptance) / cfg.target_acceptance) ≤
          (a - cfg.target_acceptance) / cfg.target_acceptance := by
        have : -1 ≤ (a - cfg.target_acceptance) / cfg.target_acceptance := by
          rw [le_div_iff₀ ht]; linarith
        linarith
      have he : ρ * delta * (a - cfg.target_acceptance) / cfg.target_acceptance =
          ρ * delta * ((a - cfg.target_acceptance) / cfg.target_acceptance) := by ring
      rw [he]
      have hu := mul_le_mul_of_nonneg_left hx (mul_pos hrate h0).le
      have hl := mul_le_mul_of_nonneg_left hx' (mul_pos hrate h0).le
      set q := ρ * delta * ((a - cfg.target_acceptance) / cfg.target_acceptance) with hq
      have hmem := abs_le.mp (abs_le.mpr ⟨hl.trans_eq' (by ring), hu⟩ : |q| ≤ ρ * delta *
        max 1 ((1 - cfg.target_acceptance) / cfg.target_acceptance))
      rw [abs_le]
      constructor
      · have : delta + min q 0 ≤ min (max (delta + q) cfg.min_delta) cfg.max_delta := by
          refine le_min (le_max_of_le_left ?_) ?_
          · have := min_le_left q 0; linarith
          · have := min_le_right q 0; linarith
        have h3 : -(ρ * max 1 ((1 - cfg.target_acceptance) / cfg.target_acceptance) * delta) ≤ min q 0 :=
          le_min (by linarith [hmem.1]) (by linarith)
        linarith
      · have : min (max (delta + q) cfg.min_delta) cfg.max_delta ≤ delta + max q 0 := by
          refine (min_le_left _ _).trans (max_le ?_ ?_)
          · have := le_max_left q 0; linarith
          · have := le_max_right q 0; linarith
        have h3 : max q 0 ≤ ρ * max 1 ((1 - cfg.target_acceptance) / cfg.target_acceptance) * delta :=
          max_le (by linarith [hmem.2]) hpos
        linarith
    · rw [C47_dead_zone cfg W i (by rintro b ⟨rfl⟩; exact not_lt.mp hd)]
      exact hstay
  · rw [C47_frozen cfg (not_lt.mp hi)]
    exact hstay

example : (0.3 : ℝ) < adaptDelta cfgEx 99 250 (some 0.9) 0.3 :=
  C47_increase (by norm_num) (by norm_num [cfgEx]) (by norm_num [cfgEx]) (by norm_num [cfgEx]) (by norm_num)
    (by norm_num [cfgEx])

example : adaptDelta cfgEx 99 250 (some 0.1) 0.3 < 0.3 :=
  C47_decrease (by norm_num) (by norm_num [cfgEx]) (by norm_num [cfgEx]) (by norm_num [cfgEx]) (by norm_num)
    (by norm_num [cfgEx])

/-! ## C48: the acceptance estimate is a moving average -/

/-- Flag of iteration `k`, coordinate `t`, read from the trace of carries (0 after the end). -/
noncomputable def flagAt {n : ℕ} (tr : Fin n → AdaptCarry X B T W × AdaptCarry X B T W) (t : Fin T) (k : ℕ) : ℝ :=
  if h : k < n then (if (tr ⟨k, h⟩).2.bs t ≠ (tr ⟨k, h⟩).1.bs t then 1 else 0) else 0

theorem flagAt_old {k : ℕ} (os : Fin k → AdaptCarry X B T W × AdaptCarry X B T W) (c c' : AdaptCarry X B T W)
    (t : Fin T) (j : ℕ) (hj : j < k) : flagAt (snocA os (c, c')) t j = flagAt os t j := by
  have hj' : j < k + 1 := by omega
  simp only [flagAt, hj, hj', dif_pos]
  have : (⟨j, hj'⟩ : Fin (k + 1)) = (⟨j, hj⟩ : Fin k).castSucc := rfl
  rw [this, snocA_castSucc]

theorem flagAt_new {k : ℕ} (os : Fin k → AdaptCarry X B T W × AdaptCarry X B T W) (c c' : AdaptCarry X B T W)
    (t : Fin T) : flagAt (snocA os (c, c')) t k = if c'.bs t ≠ c.bs t then 1 else 0 := by
  simp only [flagAt, Nat.lt_succ_self, dif_pos]
  have : (⟨k, Nat.lt_succ_self k⟩ : Fin (k + 1)) = Fin.last k := rfl
  rw [this, snocA_last]

/-- C48 (`mcmc_utils`): at iteration `i`, the acceptance rate of coordinate `t` is the mean of the last
`min (i + 1) window_size` flags `next_bs[t] != bs[t]`, and the step size is updated with it. -/
theorem C48_csmc_window (cfg : AdaptCfg)
    (kernel : Key → (Fin T → X) × (Fin T → B) → (Fin T → ℝ) → Poss ((Fin T → X) × (Fin T → B)))
    (key : Key) (xs : Fin T → X) (bs : Fin T → B) (deltas : Fin T → ℝ) (n : ℕ) :
    Always (scanM (traced (adaptBody cfg kernel)) (⟨xs, bs, deltas, fun _ => nanHistory W⟩ : AdaptCarry X B T W)
      (stepInputs key n)) (fun r => ∀ (i : Fin n) t,
        nanmean ((r.2 i).2.history t) = some (lastMean (flagAt r.2 t) (i + 1) (min (i + 1) (W + 1))) ∧
        (r.2 i).2.deltas t = adaptDelta cfg W i (some (lastMean (flagAt r.2 t) (i + 1) (min (i + 1) (W + 1))))
          ((r.2 i).1.deltas t)) := by
  have key1 : Always (scanM (traced (adaptBody cfg kernel)) (⟨xs, bs, deltas, fun _ => nanHistory W⟩ :
      AdaptCarry X B T W) (stepInputs key n)) (fun r => (∀ t, r.1.history t = histOf W (flagAt r.2 t) n) ∧
        ∀ (i : Fin n) t, (r.2 i).2.history t = histOf W (flagAt r.2 t) (i + 1) ∧
          (r.2 i).2.deltas t = adaptDelta cfg W i (nanmean ((r.2 i).2.history t)) ((r.2 i).1.deltas t)) := by
    refine always_scanM _ (stepInputs key n) (fun k _ (c : AdaptCarry X B T W) (os : Fin k → AdaptCarry X B T W × AdaptCarry X B T W) =>
      (∀ t, c.history t = histOf W (flagAt os t) k) ∧
        ∀ (i : Fin k) t, (os i).2.history t = histOf W (flagAt os t) (i + 1) ∧
          (os i).2.deltas t = adaptDelta cfg W i (nanmean ((os i).2.history t)) ((os i).1.deltas t)) ?_ ?_
    · exact ⟨fun t => (histOf_zero W _).symm, fun i => i.elim0⟩
    · intro k hk c os hI
      refine always_bind (R := fun r : AdaptCarry X B T W × Unit => ∀ t,
        r.1.history t = pushHistory (c.history t) (some (if r.1.bs t ≠ c.bs t then 1 else 0)) ∧
        r.1.deltas t = adaptDelta cfg W k (nanmean (r.1.history t)) (c.deltas t)) ?_ fun r hr => always_pure ?_
      · refine always_bind' fun next => always_pure fun t => ⟨?_, rfl⟩
        simp only [boolF, acceptedFlags, decide_eq_true_eq]
      · have hold := flagAt_old os c r.1
        have hnew := flagAt_new os c r.1
        have hh : ∀ t, r.1.history t = histOf W (flagAt (snocA os (c, r.1)) t) (k + 1) := by
          intro t
          rw [(hr t).1, hI.1 t, ← hnew t, ← push_histOf, histOf_congr (hold t)]
        refine ⟨hh, fun i t => ?_⟩
        refine Fin.lastCases ?_ (fun j => ?_) i
        · rw [snocA_last]
          exact ⟨hh t, (hr t).2⟩
        · rw [snocA_castSucc]
          have h1 := (hI.2 j t).1
          refine ⟨?_, (hI.2 j t).2⟩
          rw [h1]
          exact (histOf_congr fun l hl => hold t l (by have := j.2; simp at hl; omega)).symm
  refine always_mono key1 fun r hr i t => ?_
  have h1 := (hr.2 i t).1
  have h2 : nanmean ((r.2 i).2.history t) = some (lastMean (flagAt r.2 t) (i + 1) (min (i + 1) (W + 1))) := by
    rw [h1, nanmean_histOf _ _ (Nat.succ_pos _)]
  refine ⟨h2, ?_⟩
  rw [(hr.2 i t).2, h2]

/-- C48 (`t_atp_csmc_f`): the same windowed means, reduced over the coordinates, drive all step sizes. -/
theorem C48_twisted_window (cfg : AdaptCfg) (stat : (Fin T → Option ℝ) → Option ℝ)
    (kernel : Key → (Fin T → X) × (Fin T → B) → (Fin T → ℝ) → Poss ((Fin T → X) × (Fin T → B)))
    (key : Key) (xs : Fin T → X) (bs : Fin T → B) (deltas : Fin T → ℝ) (n : ℕ) :
    Always (scanM (traced (tAdaptBody cfg stat kernel)) (⟨xs, bs, deltas, fun _ => nanHistory W⟩ : AdaptCarry X B T W)
      (stepInputs key n)) (fun r => ∀ (i : Fin n) t,
        (r.2 i).2.deltas t = adaptDelta cfg W i
          (stat fun s => some (lastMean (flagAt r.2 s) (i + 1) (min (i + 1) (W + 1)))) ((r.2 i).1.deltas t)) := by
  have key1 : Always (scanM (traced (tAdaptBody cfg stat kernel)) (⟨xs, bs, deltas, fun _ => nanHistory W⟩ :
      AdaptCarry X B T W) (stepInputs key n)) (fun r => (∀ t, r.1.history t = histOf W (flagAt r.2 t) n) ∧
        ∀ (i : Fin n) t, (r.2 i).2.history t = histOf W (flagAt r.2 t) (i + 1) ∧
          (r.2 i).2.deltas t = adaptDelta cfg W i (stat fun s => nanmean ((r.2 i).2.history s))
            ((r.2 i).1.deltas t)) := by
    refine always_scanM _ (stepInputs key n) (fun k _ (c : AdaptCarry X B T W)
      (os : Fin k → AdaptCarry X B T W × AdaptCarry X B T W) =>
      (∀ t, c.history t = histOf W (flagAt os t) k) ∧
        ∀ (i : Fin k) t, (os i).2.history t = histOf W (flagAt os t) (i + 1) ∧
          (os i).2.deltas t = adaptDelta cfg W i (stat fun s => nanmean ((os i).2.history s))
            ((os i).1.deltas t)) ?_ ?_
    · exact ⟨fun t => (histOf_zero W _).symm, fun i => i.elim0⟩
    · intro k hk c os hI
      refine always_bind (R := fun r : AdaptCarry X B T W × Unit => ∀ t,
        r.1.history t = pushHistory (c.history t) (some (if r.1.bs t ≠ c.bs t then 1 else 0)) ∧
        r.1.deltas t = adaptDelta cfg W k (stat fun s => nanmean (r.1.history s)) (c.deltas t)) ?_
          fun r hr => always_pure ?_
      · refine always_bind' fun next => always_pure fun t => ⟨?_, rfl⟩
        simp only [boolF, acceptedFlags, decide_eq_true_eq]
      · have hold := flagAt_old os c r.1
        have hnew := flagAt_new os c r.1
        have hh : ∀ t, r.1.history t = histOf W (flagAt (snocA os (c, r.1)) t) (k + 1) := by
          intro t
          rw [(hr t).1, hI.1 t, ← hnew t, ← push_histOf, histOf_congr (hold t)]
        refine ⟨hh, fun i t => ?_⟩
        refine Fin.lastCases ?_ (fun j => ?_) i
        · rw [snocA_last]
          exact ⟨hh t, (hr t).2⟩
        · rw [snocA_castSucc]
          have h1 := (hI.2 j t).1
          refine ⟨?_, (hI.2 j t).2⟩
          rw [h1]
          exact (histOf_congr fun l hl => hold t l (by have := j.2; simp at hl; omega)).symm
  refine always_mono key1 fun r hr i t => ?_
  rw [(hr.2 i t).2]
  congr 2
  funext s
  rw [(hr.2 i s).1, nanmean_histOf _ _ (Nat.succ_pos _)]

/-- C48 (`tp`): at iteration `i`, the history holds the last `min (i + 1) window_size` acceptance flags returned
by the kernel: the step size is updated with their mean.  The flags `a` are those returned by the kernel calls
(`hflag`). -/
theorem C48_tp_window (cfg : AdaptCfg) (kernel : Key → S → ℝ → Poss (S × Bool)) (key : Key) (s : S) (delta : ℝ) (n : ℕ) :
    Always (scanM (traced (tpAdaptBody cfg kernel)) (⟨s, delta, nanHistory W⟩ : TpCarry S W)
      (stepInputs key n)) (fun r => ∃ a : ℕ → Bool,
        (∀ i : Fin n, ∃ L, kernel (splitKey key n i) (r.2 i).1.state (r.2 i).1.delta ((r.2 i).2.state, a i) L) ∧
        ∀ i : Fin n, (r.2 i).2.delta = adaptDelta cfg W i
          (some (lastMean (fun k => if a k then 1 else 0) (i + 1) (min (i + 1) (W + 1)))) (r.2 i).1.delta) := by
  have key1 : Always (scanM (traced (tpAdaptBody cfg kernel)) (⟨s, delta, nanHistory W⟩ : TpCarry S W)
      (stepInputs key n)) (fun r => ∃ a : ℕ → Bool,
        r.1.history = histOf W (fun k => if a k then 1 else 0) n ∧
        (∀ i : Fin n, ∃ L, kernel (splitKey key n i) (r.2 i).1.state (r.2 i).1.delta ((r.2 i).2.state, a i) L) ∧
        ∀ i : Fin n, (r.2 i).2.delta = adaptDelta cfg W i
          (some (lastMean (fun k => if a k then 1 else 0) (i + 1) (min (i + 1) (W + 1)))) (r.2 i).1.delta) := by
    refine always_scanM _ (stepInputs key n) (fun k hk (c : TpCarry S W) (os : Fin k → TpCarry S W × TpCarry S W) =>
      ∃ a : ℕ → Bool, c.history = histOf W (fun k => if a k then 1 else 0) k ∧
        (∀ i : Fin k, ∃ L, kernel (Key.child key i) (os i).1.state (os i).1.delta ((os i).2.state, a i) L) ∧
        ∀ i : Fin k, (os i).2.delta = adaptDelta cfg W i
          (some (lastMean (fun k => if a k then 1 else 0) (i + 1) (min (i + 1) (W + 1)))) (os i).1.delta) ?_ ?_
    · exact ⟨fun _ => false, (histOf_zero W _).symm, fun i => i.elim0, fun i => i.elim0⟩
    · rintro k hk c os ⟨a, h1, h2, h3⟩
      refine always_bind (R := fun r : TpCarry S W × Unit => ∃ b : Bool, ∃ L,
        kernel (Key.child key k) c.state c.delta (r.1.state, b) L ∧
        r.1.history = pushHistory c.history (some (if b then 1 else 0)) ∧
        r.1.delta = adaptDelta cfg W k (nanmean r.1.history) c.delta) ?_ fun r hr => always_pure ?_
      · refine always_bind (R := fun next => ∃ L, kernel (Key.child key k) c.state c.delta next L)
          (fun x L h => ⟨L, h⟩) ?_
        rintro next ⟨L, hL⟩
        exact always_pure ⟨next.2, L, hL, rfl, rfl⟩
      · obtain ⟨b, L, hb, hh, hd⟩ := hr
        set a' : ℕ → Bool := Function.update a k b with ha'
        have hold : ∀ j < k, a' j = a j := fun j hj => Function.update_of_ne (by omega) _ _
        have hnew : a' k = b := Function.update_self _ _ _
        have hc : ∀ i ≤ k, histOf W (fun k => if a' k then (1 : ℝ) else 0) i =
            histOf W (fun k => if a k then (1 : ℝ) else 0) i := fun i hi =>
          histOf_congr fun l hl => by rw [hold l (by omega)]
        have hm : ∀ i < k, lastMean (fun k => if a' k then (1 : ℝ) else 0) (i + 1) (min (i + 1) (W + 1)) =
            lastMean (fun k => if a k then (1 : ℝ) else 0) (i + 1) (min (i + 1) (W + 1)) := fun i hi =>
          Option.some_injective _ (by
            rw [← nanmean_histOf _ _ (Nat.succ_pos _), ← nanmean_histOf _ _ (Nat.succ_pos _), hc _ hi])
        have hhist : r.1.history = histOf W (fun k => if a' k then 1 else 0) (k + 1) := by
          rw [hh, h1, ← push_histOf, hc k le_rfl, hnew]
        refine ⟨a', hhist, fun i => ?_, fun i => ?_⟩
        · refine Fin.lastCases ?_ (fun j => ?_) i
          · rw [snocA_last]
            exact ⟨L, by simpa [hnew] using hb⟩
          · rw [snocA_castSucc]
            simpa [hold j.1 j.2] using h2 j
        · refine Fin.lastCases ?_ (fun j => ?_) i
          · rw [snocA_last]
            simp only [Fin.val_last]
            rw [hd, hhist, nanmean_histOf _ _ (Nat.succ_pos _)]
          · rw [snocA_castSucc]
            simp only [Fin.val_castSucc]
            rw [hm j.1 j.2]
            exact h3 j
  exact always_mono key1 fun r ⟨a, _, h2, h3⟩ => ⟨a, h2, h3⟩

/-- With a window of 3 and flags 1, 0, 1, 1, the estimate at iteration 3 is 2/3. -/
example : lastMean (fun k => if k = 1 then 0 else 1) (3 + 1) (min (3 + 1) (2 + 1)) = 2 / 3 := by
  norm_num [lastMean, Finset.sum_range_succ]

/-! ## C49: sampling -/

/-- `strideLen` is the ceiling of `n / g`. -/
theorem C49_length (n : ℕ) {g : ℕ} (hg : 0 < g) : (strideLen n g : ℤ) = ⌈(n : ℚ) / g⌉ := by
  have hg' : (0 : ℚ) < g := by exact_mod_cast hg
  rw [eq_comm, Int.ceil_eq_iff]
  have h1 : strideLen n g * g ≤ n + g - 1 := Nat.div_mul_le_self _ _
  have h2 : n + g - 1 < (strideLen n g + 1) * g := by
    have := Nat.lt_div_mul_add (a := n + g - 1) hg
    rw [Nat.add_mul, Nat.one_mul]; exact this
  have h3 : n ≤ strideLen n g * g := by rw [Nat.add_mul, Nat.one_mul] at h2; omega
  have h4 : strideLen n g * g < n + g := by omega
  have h3' : (n : ℚ) ≤ strideLen n g * g := by exact_mod_cast h3
  have h4' : (strideLen n g : ℚ) * g < n + g := by exact_mod_cast h4
  constructor
  · rw [lt_div_iff₀ hg']; push_cast; linarith
  · rw [div_le_iff₀ hg']; exact_mod_cast h3

/-- C49: `sampling_routine` runs the chain with the keys `split(key, n_samples)`, and returns, for every `k`, the
state after `k * g + 1` steps and the flags "the ancestor index changed in that step". -/
theorem C49_sampling {m : Type → Type} [RandM m] [LawfulMonad m] (key : Key) (init_xs : Fin T → X)
    (init_bs : Fin T → B)
    (kernel : Key → (Fin T → X) × (Fin T → B) → m ((Fin T → X) × (Fin T → B))) (n g : ℕ) :
    sampling_routine key init_xs init_bs kernel n g = (do
      let tr ← chain kernel (init_xs, init_bs) (splitKey key n)
      pure (fun k => (tr ⟨k * g + 1, Nat.succ_lt_succ (strideLen_lt k)⟩).1,
        fun k t => decide ((tr ⟨k * g + 1, Nat.succ_lt_succ (strideLen_lt k)⟩).2 t ≠
          (tr ⟨k * g, Nat.lt_succ_of_lt (strideLen_lt k)⟩).2 t))) := by
  unfold sampling_routine
  rw [scanM_chain kernel (samplingBody kernel) (stepInputs key n) (splitKey key n)
    (fun s s' => (s'.1, acceptedFlags s'.2 s.2)) (fun t s => rfl)]
  simp only [bind_assoc, pure_bind]
  rfl

/-- C49: without samples, the last state. -/
theorem C49_sampling_last {m : Type → Type} [RandM m] [LawfulMonad m] (key : Key) (init_xs : Fin T → X)
    (init_bs : Fin T → B)
    (kernel : Key → (Fin T → X) × (Fin T → B) → m ((Fin T → X) × (Fin T → B))) (n : ℕ) :
    sampling_routine_last key init_xs init_bs kernel n = (do
      let tr ← chain kernel (init_xs, init_bs) (splitKey key n)
      pure (tr (Fin.last n))) := by
  unfold sampling_routine_last
  rw [scanM_chain kernel _ (stepInputs key n) (splitKey key n) (fun _ _ => ()) (fun t s => by
    simp only [samplingBody, bind_assoc, pure_bind]; rfl)]
  simp only [bind_assoc, pure_bind]
  rfl

/-- C49 (`tp`): every `g`-th state and flag of the chain. -/
theorem C49_tp_sampling {m : Type → Type} [RandM m] [LawfulMonad m] {R : Type} (key : Key) (init : X × R) (b₀ : Bool)
    (kernel : Key → X × R → m ((X × R) × Bool)) (n g : ℕ) :
    tp_sampling_routine key init kernel n g = (do
      let tr ← chain (fun k (s : (X × R) × Bool) => kernel k s.1) (init, b₀) (splitKey key n)
      pure (fun k => (tr ⟨k * g + 1, Nat.succ_lt_succ (strideLen_lt k)⟩).1.1,
        fun k => (tr ⟨k * g + 1, Nat.succ_lt_succ (strideLen_lt k)⟩).2)) := by
  unfold tp_sampling_routine
  have := scanM_chain_proj (m := m) (fun s : (X × R) × Bool => s.1) (fun k s => kernel k s.1) (tpSamplingBody kernel)
    (stepInputs key n) (splitKey key n) (fun _ s' => s') (fun t s => rfl) (init, b₀)
  rw [this]
  simp only [bind_assoc, pure_bind]
  rfl

/-- C49 (`tp`): without samples, the last state and all the flags. -/
theorem C49_tp_sampling_last {m : Type → Type} [RandM m] [LawfulMonad m] {R : Type} (key : Key) (init : X × R)
    (b₀ : Bool) (kernel : Key → X × R → m ((X × R) × Bool)) (n : ℕ) :
    tp_sampling_routine_last key init kernel n = (do
      let tr ← chain (fun k (s : (X × R) × Bool) => kernel k s.1) (init, b₀) (splitKey key n)
      pure ((tr (Fin.last n)).1.1, fun t => (tr t.succ).2)) := by
  unfold tp_sampling_routine_last
  have := scanM_chain_proj (m := m) (fun s : (X × R) × Bool => s.1) (fun k s => kernel k s.1)
    (fun c inp => do
      let r ← tpSamplingBody kernel c inp
      pure (r.1, r.2.2))
    (stepInputs key n) (splitKey key n) (fun _ s' => s'.2) (fun t s => by
      simp only [tpSamplingBody, bind_assoc, pure_bind]; rfl) (init, b₀)
  rw [this]
  simp only [bind_assoc, pure_bind]
  rfl

/-- 10 steps, every third sample: 4 samples, after 1, 4, 7 and 10 steps. -/
example : strideLen 10 3 = 4 ∧ (fun k : Fin 4 => k.1 * 3 + 1) = ![1, 4, 7, 10] := by decide

end Verif.Props
