import Mathlib.Analysis.SpecialFunctions.Pow.Real
import Verif.Core.Rand

/-!
# Drivers: `gradient_csmc/utils/mcmc_utils.py`, `gradient_csmc/tp.py` (routines), `t_atp_csmc_f.py` (adaptation)

`NaN` entries of the acceptance history are `none`.  The window has length `W + 1` (`window_size ≥ 1`).
-/

namespace Verif.Model
open Verif

variable {m : Type → Type} [RandM m]

/-! ## Acceptance history -/

/-- `jnp.zeros((window_size,)) * jnp.nan`: `/repo/gradient_csmc/utils/mcmc_utils.py:58`, `tp.py:178`, `t_atp_csmc_f.py:292`. -/
def nanHistory (W : ℕ) : Fin (W + 1) → Option ℝ := fun _ => none

/-- `h.at[1:].set(h[:-1])` then `.at[0].set(a)`: `/repo/gradient_csmc/utils/mcmc_utils.py:39-40`,
`tp.py:160-161`, `t_atp_csmc_f.py:262-263` (one coordinate). -/
def pushHistory {W : ℕ} (h : Fin (W + 1) → Option ℝ) (a : Option ℝ) : Fin (W + 1) → Option ℝ :=
  let h1 : Fin (W + 1) → Option ℝ := insert0 (h 0) (initA h)
  atSet h1 0 a

/-- `jnp.nanmean(h)` of a vector: mean over the entries that are not `NaN`; `NaN` when there is none. -/
noncomputable def nanmean {k : ℕ} (h : Fin k → Option ℝ) : Option ℝ :=
  let cnt : ℕ := ∑ j, if (h j).isSome then 1 else 0
  if cnt = 0 then none else some ((∑ j, (h j).getD 0) / (cnt : ℝ))

/-- Float value of a boolean. -/
def boolF (b : Bool) : ℝ := if b then 1 else 0

/-! ## Step-size update -/

/-- Arguments of the adaptation routines. -/
structure AdaptCfg where
  target_acceptance : ℝ
  min_delta : ℝ
  max_delta : ℝ
  min_rate : ℝ
  rate : ℝ

/-- `jnp.clip(x, lo, hi)`: `minimum(maximum(x, lo), hi)`. -/
noncomputable def clip (x lo hi : ℝ) : ℝ := min (max x lo) hi

open Classical in
/-- `flag`: `/repo/gradient_csmc/utils/mcmc_utils.py:43-45`, `tp.py:164-166`, `t_atp_csmc_f.py:277-279`
(`window_size = W + 1`).  Comparisons with `NaN` are false. -/
noncomputable def adaptFlag (cfg : AdaptCfg) (W i : ℕ) (acc : Option ℝ) : Bool :=
  match acc with
  | none => false
  | some a => decide ((a < cfg.target_acceptance - 0.05 ∨ a > cfg.target_acceptance + 0.05) ∧ i > W + 1)

/-- `rate_i`: `/repo/gradient_csmc/utils/mcmc_utils.py:46`, `tp.py:168-169`, `t_atp_csmc_f.py:280`. -/
noncomputable def rateAt (cfg : AdaptCfg) (i : ℕ) : ℝ :=
  max cfg.min_rate (cfg.rate / ((i : ℝ) + 1) ^ (0.5 : ℝ))

/-- New step size: `/repo/gradient_csmc/utils/mcmc_utils.py:43-53`, `tp.py:164-174`, `t_atp_csmc_f.py:277-287`.
Where `flag` is false the (possibly `NaN`) alternative is not selected. -/
noncomputable def adaptDelta (cfg : AdaptCfg) (W i : ℕ) (acc : Option ℝ) (delta : ℝ) : ℝ :=
  let flag := adaptFlag cfg W i acc
  let rate_i := rateAt cfg i
  let delta_otherwise := delta + rate_i * delta * (acc.getD 0 - cfg.target_acceptance) / cfg.target_acceptance
  let delta := if flag then delta_otherwise else delta
  clip delta cfg.min_delta cfg.max_delta

/-! ## `mcmc_utils.delta_adaptation_routine` -/

section csmc
variable {X B : Type} [DecidableEq B] {T W : ℕ}

/-- Carry of the scan (the mean acceptance rate, which is only displayed, is left out). -/
structure AdaptCarry (X B : Type) (T W : ℕ) where
  xs : Fin T → X
  bs : Fin T → B
  deltas : Fin T → ℝ
  history : Fin T → Fin (W + 1) → Option ℝ

/-- `accepted = next_bs != bs`: `/repo/gradient_csmc/utils/mcmc_utils.py:38, 83`. -/
def acceptedFlags (next_bs bs : Fin T → B) : Fin T → Bool := fun t => decide (next_bs t ≠ bs t)

/-- `body`: `/repo/gradient_csmc/utils/mcmc_utils.py:29-55`. -/
noncomputable def adaptBody (cfg : AdaptCfg)
    (kernel : Key → (Fin T → X) × (Fin T → B) → (Fin T → ℝ) → m ((Fin T → X) × (Fin T → B)))
    (c : AdaptCarry X B T W) (inp : ℕ × Key) : m (AdaptCarry X B T W × Unit) := do
  let i := inp.1
  let key_i := inp.2
  let next ← kernel key_i (c.xs, c.bs) c.deltas
  let accepted := acceptedFlags next.2 c.bs
  let accepted_history := fun t => pushHistory (c.history t) (some (boolF (accepted t)))
  let acceptance_rates := fun t => nanmean (accepted_history t)
  let deltas := fun t => adaptDelta cfg W i (acceptance_rates t) (c.deltas t)
  pure (⟨next.1, next.2, deltas, accepted_history⟩, ())

/-- `jnp.arange(n_steps), jax.random.split(key, n_steps)`. -/
def stepInputs (key : Key) (n_steps : ℕ) : Fin n_steps → ℕ × Key := fun i => (i, splitKey key n_steps i)

/-- `delta_adaptation_routine`: `/repo/gradient_csmc/utils/mcmc_utils.py:7-62`. -/
noncomputable def delta_adaptation_routine (key : Key) (init_xs : Fin T → X) (init_bs : Fin T → B)
    (kernel : Key → (Fin T → X) × (Fin T → B) → (Fin T → ℝ) → m ((Fin T → X) × (Fin T → B)))
    (cfg : AdaptCfg) (W : ℕ) (initial_deltas : Fin T → ℝ) (n_steps : ℕ) :
    m (((Fin T → X) × (Fin T → B)) × (Fin T → ℝ)) := do
  let init : AdaptCarry X B T W := ⟨init_xs, init_bs, initial_deltas, fun _ => nanHistory W⟩
  let r ← scanM (adaptBody cfg kernel) init (stepInputs key n_steps)
  pure ((r.1.xs, r.1.bs), r.1.deltas)

/-! ## `t_atp_csmc_f.delta_adaptation_routine` -/

/-- `body`: `/repo/gradient_csmc/t_atp_csmc_f.py:252-289`.  `stat` is the reduction over the coordinates chosen by
`target_stat` (lines 266-275); one acceptance rate drives all step sizes. -/
noncomputable def tAdaptBody (cfg : AdaptCfg) (stat : (Fin T → Option ℝ) → Option ℝ)
    (kernel : Key → (Fin T → X) × (Fin T → B) → (Fin T → ℝ) → m ((Fin T → X) × (Fin T → B)))
    (c : AdaptCarry X B T W) (inp : ℕ × Key) : m (AdaptCarry X B T W × Unit) := do
  let i := inp.1
  let key_i := inp.2
  let next ← kernel key_i (c.xs, c.bs) c.deltas
  let accepted := acceptedFlags next.2 c.bs
  let accepted_history := fun t => pushHistory (c.history t) (some (boolF (accepted t)))
  let accepted_history_mean := fun t => nanmean (accepted_history t)
  let acceptance_rate := stat accepted_history_mean
  let deltas := fun t => adaptDelta cfg W i acceptance_rate (c.deltas t)
  pure (⟨next.1, next.2, deltas, accepted_history⟩, ())

/-- `delta_adaptation_routine`: `/repo/gradient_csmc/t_atp_csmc_f.py:228-296`. -/
noncomputable def t_delta_adaptation_routine (key : Key) (init_xs : Fin T → X) (init_bs : Fin T → B)
    (kernel : Key → (Fin T → X) × (Fin T → B) → (Fin T → ℝ) → m ((Fin T → X) × (Fin T → B)))
    (cfg : AdaptCfg) (stat : (Fin T → Option ℝ) → Option ℝ) (W : ℕ)
    (initial_deltas : Fin T → ℝ) (n_steps : ℕ) :
    m (((Fin T → X) × (Fin T → B)) × (Fin T → ℝ)) := do
  let init : AdaptCarry X B T W := ⟨init_xs, init_bs, initial_deltas, fun _ => nanHistory W⟩
  let r ← scanM (tAdaptBody cfg stat kernel) init (stepInputs key n_steps)
  pure ((r.1.xs, r.1.bs), r.1.deltas)

end csmc

/-! ## `tp.delta_adaptation_routine` -/

section tp
variable {S : Type} {W : ℕ}

/-- Carry of the scan of `tp.py`: state of the chain, step size, history (the acceptance rate, which is
overwritten before use, is left out). -/
structure TpCarry (S : Type) (W : ℕ) where
  state : S
  delta : ℝ
  history : Fin (W + 1) → Option ℝ

/-- `body`: `/repo/gradient_csmc/tp.py:150-176`. -/
noncomputable def tpAdaptBody (cfg : AdaptCfg) (kernel : Key → S → ℝ → m (S × Bool))
    (c : TpCarry S W) (inp : ℕ × Key) : m (TpCarry S W × Unit) := do
  let i := inp.1
  let key_i := inp.2
  let next ← kernel key_i c.state c.delta
  let accepted_history := pushHistory c.history (some (boolF next.2))
  let acceptance_rate := nanmean accepted_history
  let delta := adaptDelta cfg W i acceptance_rate c.delta
  pure (⟨next.1, delta, accepted_history⟩, ())

/-- `delta_adaptation_routine`: `/repo/gradient_csmc/tp.py:130-182`. -/
noncomputable def tp_delta_adaptation_routine (key : Key) (init : S) (kernel : Key → S → ℝ → m (S × Bool))
    (cfg : AdaptCfg) (W : ℕ) (initial_delta : ℝ) (n_steps : ℕ) : m (S × ℝ) := do
  let r ← scanM (tpAdaptBody cfg kernel) (⟨init, initial_delta, nanHistory W⟩ : TpCarry S W)
    (stepInputs key n_steps)
  pure (r.1.state, r.1.delta)

end tp

/-! ## Sampling -/

/-- Length of `a[::g]` for an array of length `n`. -/
def strideLen (n g : ℕ) : ℕ := (n + g - 1) / g

theorem strideLen_lt {n g : ℕ} (k : Fin (strideLen n g)) : k.1 * g < n := by
  have hk := k.2
  unfold strideLen at hk
  rcases Nat.eq_zero_or_pos g with rfl | hg
  · simp at hk
  · have h1 : k.1 * g + g ≤ n + g - 1 := by
      have := Nat.mul_le_of_le_div g (k.1 + 1) (n + g - 1) hk
      rw [Nat.add_mul, Nat.one_mul] at this
      exact this
    omega

/-- `a[::g]`, `g ≥ 1`: `/repo/gradient_csmc/utils/mcmc_utils.py:93`, `tp.py:211`. -/
def strideA {α : Type} {n : ℕ} (g : ℕ) (a : Fin n → α) : Fin (strideLen n g) → α :=
  fun k => a ⟨k.1 * g, strideLen_lt k⟩

section csmc
variable {X B : Type} [DecidableEq B] {T : ℕ}

/-- `body`: `/repo/gradient_csmc/utils/mcmc_utils.py:76-86` (the mean acceptance, which is only displayed, is left
out of the carry). -/
def samplingBody (kernel : Key → (Fin T → X) × (Fin T → B) → m ((Fin T → X) × (Fin T → B)))
    (c : (Fin T → X) × (Fin T → B)) (inp : ℕ × Key) :
    m (((Fin T → X) × (Fin T → B)) × ((Fin T → X) × (Fin T → Bool))) := do
  let key_op := inp.2
  let next ← kernel key_op c
  let accepted := acceptedFlags next.2 c.2
  pure (next, (next.1, accepted))

/-- `sampling_routine` with `int(get_samples) = g ≥ 1`: `/repo/gradient_csmc/utils/mcmc_utils.py:65-93`. -/
def sampling_routine (key : Key) (init_xs : Fin T → X) (init_bs : Fin T → B)
    (kernel : Key → (Fin T → X) × (Fin T → B) → m ((Fin T → X) × (Fin T → B))) (n_steps g : ℕ) :
    m ((Fin (strideLen n_steps g) → Fin T → X) × (Fin (strideLen n_steps g) → Fin T → Bool)) := do
  let r ← scanM (samplingBody kernel) (init_xs, init_bs) (stepInputs key n_steps)
  let samples := fun i => (r.2 i).1
  let flags := fun i => (r.2 i).2
  pure (strideA g samples, strideA g flags)

/-- `sampling_routine` with `get_samples=False`: `/repo/gradient_csmc/utils/mcmc_utils.py:65-95`. -/
def sampling_routine_last (key : Key) (init_xs : Fin T → X) (init_bs : Fin T → B)
    (kernel : Key → (Fin T → X) × (Fin T → B) → m ((Fin T → X) × (Fin T → B))) (n_steps : ℕ) :
    m ((Fin T → X) × (Fin T → B)) := do
  let r ← scanM (fun c inp => do
    let r ← samplingBody kernel c inp
    pure (r.1, ())) (init_xs, init_bs) (stepInputs key n_steps)
  pure r.1

end csmc

section tp
variable {X S : Type}

/-- `body`: `/repo/gradient_csmc/tp.py:196-204`. -/
def tpSamplingBody (kernel : Key → X × S → m ((X × S) × Bool)) (c : X × S) (inp : ℕ × Key) :
    m ((X × S) × ((X × S) × Bool)) := do
  let key_op := inp.2
  let next ← kernel key_op c
  pure (next.1, (next.1, next.2))

/-- `tp.sampling_routine` with `int(get_samples) = g ≥ 1`: `/repo/gradient_csmc/tp.py:185-211`.
The state is `(x, rest)`. -/
def tp_sampling_routine (key : Key) (init : X × S) (kernel : Key → X × S → m ((X × S) × Bool)) (n_steps g : ℕ) :
    m ((Fin (strideLen n_steps g) → X) × (Fin (strideLen n_steps g) → Bool)) := do
  let r ← scanM (tpSamplingBody kernel) init (stepInputs key n_steps)
  let xs_all := fun i => (r.2 i).1.1
  let accepted_stats := fun i => (r.2 i).2
  pure (strideA g xs_all, strideA g accepted_stats)

/-- `tp.sampling_routine` with `get_samples=False`: `/repo/gradient_csmc/tp.py:185-214`. -/
def tp_sampling_routine_last (key : Key) (init : X × S) (kernel : Key → X × S → m ((X × S) × Bool))
    (n_steps : ℕ) : m (X × (Fin n_steps → Bool)) := do
  let r ← scanM (fun c inp => do
    let r ← tpSamplingBody kernel c inp
    pure (r.1, r.2.2)) init (stepInputs key n_steps)
  pure (r.1.1, r.2)

end tp

end Verif.Model
