import Verif.Lemmas.MultiTry
import Verif.Lemmas.Drivers
import Verif.Model.Mcmc
import Verif.Spec.Chain

/-!
# Properties of the multi-try kernels: cached values, flags, zero gradient (C42, C43, C45)
-/

namespace Verif.Props
open Verif Verif.Model Verif.Spec Verif.Poss

variable {T d N n : ℕ}

/-- The cached value and gradient are those of the current trajectory. -/
def Cached (log_pdf : Traj T d → ℝ) (grad : Traj T d → Traj T d) (s : VGState T d) : Prop :=
  s.2.1 = log_pdf s.1 ∧ s.2.2 = grad s.1

/-- **C42** (`init`). -/
theorem C42_init (log_pdf : Traj T d → ℝ) (grad : Traj T d → Traj T d) (x : Traj T d) :
    Cached log_pdf grad (tp_init log_pdf grad x) ∧ (tp_init log_pdf grad x).1 = x := ⟨⟨rfl, rfl⟩, rfl⟩

theorem selectVG_cached (log_pdf : Traj T d → ℝ) (grad : Traj T d → Traj T d) (key : Key)
    (lw : Fin (N + 1) → ℝ) (s : VGState T d) (hs : Cached log_pdf grad s) (samples : Fin N → Traj T d) :
    Always (selectVG key lw (insert0 s.1 samples) (insert0 s.2.1 fun i => log_pdf (samples i))
      (insert0 s.2.2 fun i => grad (samples i))) (fun r => Cached log_pdf grad r.1) := by
  refine always_mono (selectVG_always _ _ _ _ _) ?_
  rintro r ⟨i, h, -⟩
  rw [h]
  refine Fin.cases ?_ (fun j => ?_) i
  · exact hs
  · exact ⟨rfl, rfl⟩

/-- **C42** (MALA): one step keeps the cached value and gradient consistent, for any step size and number of
tries and both acceptance rules. -/
theorem C42_mala (key : Key) (s : VGState T d) (delta : ℝ) (log_pdf : Traj T d → ℝ)
    (grad : Traj T d → Traj T d) (N : ℕ) (auxiliary : Bool) (hs : Cached log_pdf grad s) :
    Always (mala_kernel key s delta log_pdf grad N auxiliary) (fun r => Cached log_pdf grad r.1) :=
  always_bind' fun _ => always_bind' fun _ => selectVG_cached log_pdf grad _ _ s hs _

/-- **C42** (aGRAD on trajectories, `tp.py`). -/
theorem C42_tp (key : Key) (s : VGState (n + 1) d) (delta : ℝ) (D : Dyn n d) (log_pdf : Traj (n + 1) d → ℝ)
    (grad : Traj (n + 1) d → Traj (n + 1) d) (N : ℕ) (hs : Cached log_pdf grad s) :
    Always (tp_kernel key s delta D log_pdf grad N) (fun r => Cached log_pdf grad r.1) :=
  always_bind' fun _ => always_bind' fun _ => selectVG_cached log_pdf grad _ _ s hs _

/-- **C42** (IMH). -/
theorem C42_imh (key : Key) (s : Traj (n + 1) d × ℝ) (D : Dyn n d) (log_pdf : Traj (n + 1) d → ℝ) (N : ℕ)
    (hs : s.2 = log_pdf s.1) :
    Always (imh_kernel key s D log_pdf N) (fun r => r.1.2 = log_pdf r.1.1) := by
  refine always_bind' fun samples => always_bind' fun r => always_pure ?_
  refine Fin.cases ?_ (fun j => ?_) r.1
  · exact hs
  · rfl

/-- An invariant of the kernel is an invariant of the whole run of the adaptation routine of `tp.py`. -/
theorem C42_adaptation {S : Type} (Inv : S → Prop) (kernel : Key → S → ℝ → Poss (S × Bool))
    (hk : ∀ key s delta, Inv s → Always (kernel key s delta) (fun r => Inv r.1)) (key : Key) (s : S) (hs : Inv s)
    (cfg : AdaptCfg) (W : ℕ) (delta : ℝ) (n_steps : ℕ) :
    Always (tp_delta_adaptation_routine key s kernel cfg W delta n_steps) (fun r => Inv r.1) := by
  refine always_bind (R := fun r => Inv r.1.state) ?_ fun r hr => always_pure hr
  refine always_scanM (body := tpAdaptBody cfg kernel) _ _ (fun _ _ c _ => Inv c.state) hs ?_
  intro t ht c os hc
  exact always_bind (hk _ _ _ hc) fun r hr => always_pure hr

/-- An invariant of the kernel holds at every step of the sampling routine of `tp.py` (the chain of all visited
states; `C49_tp_sampling` shows that the routine returns the positions along this chain). -/
theorem C42_chain {S : Type} (Inv : S → Prop) (step : Key → S → Poss S)
    (hk : ∀ key s, Inv s → Always (step key s) Inv) (s : S) (hs : Inv s) {n : ℕ} (keys : Fin n → Key) :
    Always (chain step s keys) (fun tr => ∀ i, Inv (tr i)) := by
  induction n generalizing s with
  | zero => exact always_pure fun _ => hs
  | succ n ih =>
    refine always_bind (hk _ _ hs) fun s' hs' => always_bind (ih s' hs' _) fun rest hrest => always_pure ?_
    intro i
    refine Fin.cases hs (fun j => hrest j) i

/-- **C42**: along any number of steps of MALA started from `init`, with step sizes that may change from step to
step, every visited state has the value and the gradient of its trajectory. -/
theorem C42_mala_chain (x : Traj T d) (delta : Key → ℝ) (log_pdf : Traj T d → ℝ) (grad : Traj T d → Traj T d) (N : ℕ)
    (auxiliary : Bool) {n : ℕ} (keys : Fin n → Key) :
    Always (chain (fun key s => mala_kernel key s (delta key) log_pdf grad N auxiliary >>= fun r => pure r.1)
      (tp_init log_pdf grad x) keys) (fun tr => ∀ i, Cached log_pdf grad (tr i)) :=
  C42_chain _ _ (fun key s hs => always_bind (C42_mala key s _ log_pdf grad N auxiliary hs)
    fun _ hr => always_pure hr) _ (C42_init log_pdf grad x).1 keys

/-- **C42** (aGRAD). -/
theorem C42_tp_chain (x : Traj (n + 1) d) (delta : Key → ℝ) (D : Dyn n d) (log_pdf : Traj (n + 1) d → ℝ)
    (grad : Traj (n + 1) d → Traj (n + 1) d) (N : ℕ) {k : ℕ} (keys : Fin k → Key) :
    Always (chain (fun key s => tp_kernel key s (delta key) D log_pdf grad N >>= fun r => pure r.1)
      (tp_init log_pdf grad x) keys) (fun tr => ∀ i, Cached log_pdf grad (tr i)) :=
  C42_chain _ _ (fun key s hs => always_bind (C42_tp key s _ D log_pdf grad N hs)
    fun _ hr => always_pure hr) _ (C42_init log_pdf grad x).1 keys

/-- **C42** (IMH). -/
theorem C42_imh_chain (x : Traj (n + 1) d) (D : Dyn n d) (log_pdf : Traj (n + 1) d → ℝ) (N : ℕ) {k : ℕ}
    (keys : Fin k → Key) :
    Always (chain (fun key s => imh_kernel key s D log_pdf N >>= fun r => pure r.1) (imh_init log_pdf x) keys)
      (fun tr => ∀ i, (tr i).2 = log_pdf (tr i).1) :=
  C42_chain (fun s : Traj (n + 1) d × ℝ => s.2 = log_pdf s.1) _
    (fun key s hs => always_bind (C42_imh key s D log_pdf N hs) fun _ hr => always_pure hr) _ rfl keys

/-- **C42** (MALA, adaptation): the state handed from the adaptation to the sampling phase is consistent. -/
theorem C42_mala_adaptation (key : Key) (x : Traj T d) (log_pdf : Traj T d → ℝ) (grad : Traj T d → Traj T d)
    (N : ℕ) (auxiliary : Bool) (cfg : AdaptCfg) (W : ℕ) (delta : ℝ) (n_steps : ℕ) :
    Always (tp_delta_adaptation_routine key (tp_init log_pdf grad x)
      (fun key s delta => mala_kernel key s delta log_pdf grad N auxiliary) cfg W delta n_steps)
      (fun r => Cached log_pdf grad r.1) :=
  C42_adaptation _ _ (fun key s delta hs => C42_mala key s delta log_pdf grad N auxiliary hs) key _
    (C42_init log_pdf grad x).1 cfg W delta n_steps

/-! ## C43 -/

/-- **C43** (MALA): the kernel draws its noise, from which the proposals are computed, and then selects; given the
noise, a flag `False` comes with exactly the input state, a flag `True` with one of the `N` proposals. -/
theorem C43_mala (key : Key) (s : VGState T d) (delta : ℝ) (log_pdf : Traj T d → ℝ)
    (grad : Traj T d → Traj T d) (N : ℕ) (auxiliary : Bool) :
    ∃ select : Traj T d → (Fin N → Traj T d) → Poss (VGState T d × Bool),
      mala_kernel key s delta log_pdf grad N auxiliary = (do
        let eps_aux ← normal2 (splitKey key 3 2) T d
        let eps ← normal3 (splitKey key 3 0) N T d
        select eps_aux eps) ∧
      ∀ eps_aux eps, Always (select eps_aux eps) fun r =>
        (r.2 = false → r.1 = s) ∧
        (r.2 = true → ∃ i, r.1.1 = fun t j => s.1 t j + 0.5 * delta * s.2.2 t j +
          Real.sqrt (0.5 * delta) * eps_aux t j + Real.sqrt (0.5 * delta) * eps i t j) := by
  refine ⟨_, rfl, fun eps_aux eps => ?_⟩
  refine always_mono (selectVG_always _ _ _ _ _) ?_
  rintro r ⟨i, h, hr⟩
  refine ⟨fun h0 => ?_, fun h1 => ?_⟩
  · have : i = 0 := by simpa [h0] using hr
    rw [h, this]; rfl
  · have : i ≠ 0 := by simpa [h1] using hr
    obtain ⟨j, rfl⟩ := Fin.exists_succ_eq.mpr this
    exact ⟨j, by rw [h]; rfl⟩

/-- **C43** (aGRAD on trajectories). -/
theorem C43_tp (key : Key) (s : VGState (n + 1) d) (delta : ℝ) (D : Dyn n d) (log_pdf : Traj (n + 1) d → ℝ)
    (grad : Traj (n + 1) d → Traj (n + 1) d) (N : ℕ) :
    ∃ select : Traj (n + 1) d → (Fin N → Traj (n + 1) d) → Poss (VGState (n + 1) d × Bool),
      tp_kernel key s delta D log_pdf grad N = (do
        let eps_aux ← normal2 (splitKey key 3 2) (n + 1) d
        let us := fun t j => s.1 t j + 0.5 * delta * s.2.2 t j + Real.sqrt (0.5 * delta) * eps_aux t j
        let f := filtering0 us D.m0 D.P0 D.Fs D.Qs D.bs (fun _ => 1) (fun _ => (0.5 * delta) • 1) (fun _ => 0)
        let samples ← kalman_sampling (splitKey key 3 0) f.1 f.2.1 D.Fs D.Qs D.bs N
        select us samples) ∧
      ∀ us samples, Always (select us samples) fun r =>
        (r.2 = false → r.1 = s) ∧ (r.2 = true → ∃ i, r.1.1 = samples i) := by
  refine ⟨fun us samples => selectVG (splitKey key 3 1) (tpLogWeights delta us (insert0 s.1 samples)
    (insert0 s.2.1 fun i => log_pdf (samples i)) (insert0 s.2.2 fun i => grad (samples i))) (insert0 s.1 samples)
    (insert0 s.2.1 fun i => log_pdf (samples i)) (insert0 s.2.2 fun i => grad (samples i)), rfl,
    fun us samples => ?_⟩
  refine always_mono (selectVG_always _ _ _ _ _) ?_
  rintro r ⟨i, h, hr⟩
  refine ⟨fun h0 => ?_, fun h1 => ?_⟩
  · have : i = 0 := by simpa [h0] using hr
    rw [h, this]; rfl
  · have : i ≠ 0 := by simpa [h1] using hr
    obtain ⟨j, rfl⟩ := Fin.exists_succ_eq.mpr this
    exact ⟨j, by rw [h]; rfl⟩

/-- **C43** (IMH). -/
theorem C43_imh (key : Key) (s : Traj (n + 1) d × ℝ) (D : Dyn n d) (log_pdf : Traj (n + 1) d → ℝ) (N : ℕ) :
    ∃ select : (Fin N → Traj (n + 1) d) → Poss ((Traj (n + 1) d × ℝ) × Bool),
      imh_kernel key s D log_pdf N = (do
        let samples ← prior_sampling (splitKey key 3 0) D.m0 D.P0 D.Fs D.Qs D.bs N
        select samples) ∧
      ∀ samples, Always (select samples) fun r =>
        (r.2 = false → r.1 = s) ∧ (r.2 = true → ∃ i, r.1 = (samples i, log_pdf (samples i))) := by
  refine ⟨_, rfl, fun samples => always_bind' fun r => always_pure ⟨fun h0 => ?_, fun h1 => ?_⟩⟩
  · have : r.1 = 0 := by simpa using h0
    simp only [this, insert0_zero]
  · have : r.1 ≠ 0 := by simpa using h1
    obtain ⟨j, hj⟩ := Fin.exists_succ_eq.mpr this
    exact ⟨j, by simp only [← hj, insert0_succ]⟩

/-! ## C45 -/

/-- **C45**: with a zero gradient, `mala.kernel` with either acceptance rule is the random walk that proposes
`x + σ ε_aux + σ ε_i` and selects with weights proportional to the target density (`exp` of the log-density,
normalised). -/
theorem C45_zero_gradient {m : Type → Type} [RandM m] (key : Key) (x : Traj T d) {delta : ℝ} (hd : 0 < delta)
    (log_pdf : Traj T d → ℝ) (N : ℕ) (auxiliary : Bool) :
    (mala_kernel key (tp_init log_pdf (fun _ => 0) x) delta log_pdf (fun _ => 0) N auxiliary : m _) = (do
      let eps_aux ← normal2 (splitKey key 3 2) T d
      let eps ← normal3 (splitKey key 3 0) N T d
      let ys : Fin (N + 1) → Traj T d := insert0 x fun i t j =>
        x t j + Real.sqrt (0.5 * delta) * eps_aux t j + Real.sqrt (0.5 * delta) * eps i t j
      let r ← force_move (splitKey key 3 1)
        (fun i => Real.exp (log_pdf (ys i)) / ∑ k, Real.exp (log_pdf (ys k))) 0
      pure ((ys r.1, log_pdf (ys r.1), 0), decide (r.1 ≠ 0))) := by
  simp only [mala_kernel]
  congr 1; funext eps_aux
  congr 1; funext eps
  have e1 : ∀ (f : Fin N → Traj T d), (insert0 (tp_init log_pdf (fun _ => 0) x).2.1 fun i => log_pdf (f i)) =
      fun i => log_pdf (insert0 x f i) := by
    intro f; funext i
    refine Fin.cases ?_ (fun j => ?_) i <;> rfl
  have e2 : (insert0 (tp_init log_pdf (fun _ => (0 : Traj T d)) x).2.2 fun _ : Fin N => (0 : Traj T d)) =
      fun _ => 0 := by
    funext i
    refine Fin.cases ?_ (fun j => ?_) i <;> rfl
  have e3 : auxTraj (tp_init log_pdf (fun _ => 0) x) delta (Real.sqrt (0.5 * delta)) eps_aux =
      fun t j => x t j + Real.sqrt (0.5 * delta) * eps_aux t j := by
    funext t j
    simp [auxTraj, tp_init]
  simp only [e1, e2, e3]
  rw [malaLogWeights_zero hd.ne' _ _ _ _ _ _ (fun _ => rfl)]
  unfold selectVG
  simp only [expNormalize_eq]
  have e4 : ∀ lw : Fin (N + 1) → ℝ, normalizeW lw = fun i => Real.exp (lw i) / ∑ k, Real.exp (lw k) := fun lw =>
    funext fun i => normalize_eq lw i
  rw [e4]
  rfl

/-- **C45**, weights: with a zero gradient the log-weights of both acceptance rules are the log-densities. -/
theorem C45_weights {delta : ℝ} (hd : 0 < delta) (auxiliary : Bool) (std_dev : ℝ) (us : Traj T d)
    (samples : Fin (N + 1) → Traj T d) (vals : Fin (N + 1) → ℝ) :
    malaLogWeights auxiliary delta std_dev us samples vals (fun _ => 0) = vals :=
  malaLogWeights_zero hd.ne' _ _ _ _ _ _ fun _ => rfl

-- a Gaussian target in dimension 3 x 2, 5 tries
example (x : Traj 3 2) (keys : Fin 100 → Key) :=
  C42_mala_chain x (fun _ => 0.1) (fun x => -sumSq2 x / 2) (fun x t j => -x t j) 5 true keys
example (s : VGState 3 2) :=
  C43_mala [] s 0.1 (fun x => -sumSq2 x / 2) (fun x t j => -x t j) 5 true
example (x : Traj 3 2) :=
  C45_zero_gradient (m := Poss) [] x (delta := 0.1) (by norm_num) (fun x => -sumSq2 x / 2) 5 false

end Verif.Props
