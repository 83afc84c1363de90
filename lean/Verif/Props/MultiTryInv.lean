import Verif.Lemmas.MultiTryProg
import Verif.Props.Forced
import Verif.Props.Drivers

/-!
# C44: the multi-try kernels leave their targets invariant, up to the guard of `force_move`

The targets are: `log_pdf` for `mala.py`, and the Gaussian prior plus `log_pdf` for `tp.py` and `imh.py`. The state
carries cached values, so that the claim is about states of the form `init x` with `x` from the target.
-/

open MeasureTheory
open scoped ENNReal

namespace Verif.Props
open Verif Verif.Model Verif.Spec Matrix

variable {N n d T : ℕ}

/-- Lebesgue measure on trajectories. -/
noncomputable abbrev trajVol (T d : ℕ) : Measure (Traj T d) := Measure.pi fun _ => volume

/-! ## Runs -/

/-- A chain of states with an extra component that no step reads. -/
theorem chain_fst {S : Type} (kernel : Key → S → Ex (S × Bool)) {n : ℕ} (keys : Fin n → Key) (s : S) (r : Bool)
    (f : (Fin (n + 1) → S) → ℝ≥0∞) :
    chain (fun k (s : S × Bool) => kernel k s.1) (s, r) keys (fun tr => f fun i => (tr i).1) =
      chain (stateStep kernel) s keys f := by
  induction n generalizing s r with
  | zero => rfl
  | succ n ih =>
    show kernel (keys 0) s (fun s' => chain (fun k (s : S × Bool) => kernel k s.1) s' (tailA keys) fun rest =>
        f fun i => ((insert0 (s, r) rest : Fin (n + 2) → S × Bool) i).1) =
      kernel (keys 0) s (fun s' => chain (stateStep kernel) s'.1 (tailA keys) fun rest => f (insert0 s rest))
    refine congrArg (kernel (keys 0) s) (funext fun s' => ?_)
    refine Eq.trans ?_ (ih (tailA keys) s'.1 s'.2 fun rest => f (insert0 s rest))
    refine congrArg (chain (fun k (s : S × Bool) => kernel k s.1) s' (tailA keys)) (funext fun rest => ?_)
    congr 1
    funext i
    refine Fin.cases rfl (fun j => rfl) i

/-- `m` steps multiply the error by `m`. -/
theorem chain_stateNear {X S : Type} [MeasurableSpace X] [MeasurableSpace S] {ε : ℝ≥0∞} {lam : Measure X} {logpi : X → ℝ}
    {init : X → S} {step : Key → S → Ex S} (hk : ∀ key, IsKer (step key)) (hm : ∀ key s, step key s (fun _ => 1) = 1)
    (hinv : ∀ key, StateNearInvariant ε lam logpi init (step key)) {n : ℕ} (keys : Fin n → Key) (i : Fin (n + 1)) :
    StateNearInvariant (i * ε) lam logpi init (fun s => do
      let tr ← chain step s keys
      pure (tr i)) := by
  have h := chain_near hk hm (fun F => ∫⁻ x, ENNReal.ofReal (Real.exp (logpi x)) * F (init x) ∂lam) hinv keys i
  unfold StateNearInvariant
  rw [mul_assoc]
  exact h

/-- The `k`-th position returned by `tp.sampling_routine` (run with any of the three kernels) has been through
`k * g + 1` steps. -/
theorem tp_sampling_near {X R : Type} [MeasurableSpace X] [MeasurableSpace R] {ε : ℝ≥0∞} {lam : Measure X} {logpi : X → ℝ}
    {init : X → R} {kernel : Key → X × R → Ex ((X × R) × Bool)} (hk : ∀ key, IsKer (stateStep kernel key))
    (hm : ∀ key s, stateStep kernel key s (fun _ => 1) = 1)
    (hinv : ∀ key, StateNearInvariant ε lam logpi (fun x => (x, init x)) (stateStep kernel key)) (key : Key) (n_steps g : ℕ)
    (k : Fin (strideLen n_steps g)) :
    TVLe (((k.1 * g + 1 : ℕ) : ℝ≥0∞) * ε * ∫⁻ x, ENNReal.ofReal (Real.exp (logpi x)) ∂lam)
      (fun f => ∫⁻ x, ENNReal.ofReal (Real.exp (logpi x)) *
        tp_sampling_routine key (x, init x) kernel n_steps g (fun r => f (r.1 k)) ∂lam)
      (fun f => ∫⁻ x, ENNReal.ofReal (Real.exp (logpi x)) * f x ∂lam) := by
  have h := chain_stateNear hk hm hinv (splitKey key n_steps) ⟨k * g + 1, Nat.succ_lt_succ (strideLen_lt k)⟩
  intro f hf h1
  have hx := h (fun s => f s.1) (hf.comp measurable_fst) (fun s => h1 s.1)
  have e : ∀ x, tp_sampling_routine key (x, init x) kernel n_steps g (fun r => f (r.1 k)) =
      chain (stateStep kernel) (x, init x) (splitKey key n_steps)
        (fun tr => f (tr ⟨k * g + 1, Nat.succ_lt_succ (strideLen_lt k)⟩).1) := by
    intro x
    rw [C49_tp_sampling key (x, init x) false kernel n_steps g]
    exact chain_fst kernel (splitKey key n_steps) (x, init x) false
      (fun tr => f (tr ⟨k * g + 1, Nat.succ_lt_succ (strideLen_lt k)⟩).1)
  simp only [e]
  exact hx

/-! ## `mala.py` -/

/-- The near-invariance of a kernel that selects with `force_move`. -/
theorem near_of_exact {X S E : Type} [MeasurableSpace X] [MeasurableSpace S] [MeasurableSpace E] {lam : Measure X}
    {logpi : X → ℝ} (hpi : Measurable logpi) {init : X → S} {K : S → Ex S} {D : S → Ex E} (hD : IsKer D)
    (h1 : ∀ s, D s (fun _ => 1) = 1) {W : S → E → Fin (N + 1) → ℝ} (hW : Measurable fun p : S × E => W p.1 p.2)
    (hp : ∀ s e, IsProb (W s e)) {g : S → E → Fin (N + 1) → S} (hg : Measurable fun p : S × E => g p.1 p.2) {key : Key}
    (hK : ∀ s, K s = drawSelect (D s) (W s) (g s) (forcedIdx key))
    (hinv : ∀ f, Measurable f → ∫⁻ x, ENNReal.ofReal (Real.exp (logpi x)) *
      drawSelect (D (init x)) (W (init x)) (g (init x)) liuMove f ∂lam =
        ∫⁻ x, ENNReal.ofReal (Real.exp (logpi x)) * f (init x) ∂lam) :
    StateNearInvariant forceErr lam logpi init K := by
  refine stateNearInvariant_of hpi hinv fun x => ?_
  rw [hK]
  exact drawSelect_near (hD.comp (g := fun _ : Unit => init x) measurable_const) (h1 _)
    (hW.comp measurable_prodMk_left) (hp _) (hg.comp measurable_prodMk_left) (force_moveKer key) liu_moveInvariant.ker
    fun w hw k => force_near_liu key hw k

section mala
variable {delta : ℝ} (hd : 0 < delta) {log_pdf : Traj T d → ℝ} (hl : Measurable log_pdf) {grad : Traj T d → Traj T d}
  (hg : Measurable grad)
include hd hl hg

/-- The selection of `mala.kernel` with the exact move, as an integral against densities. -/
theorem mala_exact_eq (key : Key) (auxiliary : Bool) {f : VGState T d → ℝ≥0∞} (hf : Measurable f) (x : Traj T d) :
    drawSelect (malaNoise key N T d) (malaW delta log_pdf grad auxiliary (tp_init log_pdf grad x))
      (fun e => candStates log_pdf grad (tp_init log_pdf grad x) (malaProp delta (tp_init log_pdf grad x) e)) liuMove f =
    ∫⁻ u, ENNReal.ofReal (Real.exp (isoT (Real.sqrt (0.5 * delta)) (malaCenter delta grad x) u)) *
      ∫⁻ y, ENNReal.ofReal (Real.exp (∑ i, isoT (Real.sqrt (0.5 * delta)) u (y i))) *
        liuMove (normalizeW (malaLogWeights auxiliary delta (Real.sqrt (0.5 * delta)) u (insert0 x y)
          (fun i => log_pdf ((insert0 x y : Fin (N + 1) → Traj T d) i))
          (fun i => grad ((insert0 x y : Fin (N + 1) → Traj T d) i)))) 0
          (fun k => f (tp_init log_pdf grad ((insert0 x y : Fin (N + 1) → Traj T d) k)))
        ∂(Measure.pi fun _ : Fin N => trajVol T d) ∂trajVol T d := by
  have hz : Measurable fun p : Traj T d × (Fin N → Traj T d) => (insert0 x p.2 : Fin (N + 1) → Traj T d) :=
    measurable_insert0 measurable_const measurable_snd
  have hzi : ∀ i, Measurable fun p : Traj T d × (Fin N → Traj T d) => (insert0 x p.2 : Fin (N + 1) → Traj T d) i :=
    fun i => (measurable_pi_apply i).comp hz
  have hM : Measurable fun p : Traj T d × (Fin N → Traj T d) =>
      liuMove (normalizeW (malaLogWeights auxiliary delta (Real.sqrt (0.5 * delta)) p.1 (insert0 x p.2)
          (fun i => log_pdf ((insert0 x p.2 : Fin (N + 1) → Traj T d) i))
          (fun i => grad ((insert0 x p.2 : Fin (N + 1) → Traj T d) i)))) 0
          (fun k => f (tp_init log_pdf grad ((insert0 x p.2 : Fin (N + 1) → Traj T d) k))) :=
    measurable_move liu_moveInvariant.ker (measurable_normalizeW (measurable_malaLogWeights _ _ _ measurable_fst hz
      (measurable_pi_lambda _ fun i => hl.comp (hzi i)) (measurable_pi_lambda _ fun i => hg.comp (hzi i)))) 0
      (measurable_pi_lambda _ fun i => hf.comp ((measurable_tp_init hl hg).comp (hzi i)))
  refine Eq.trans ?_ (malaNoise_law key hd log_pdf grad x (M := fun u y =>
      liuMove (normalizeW (malaLogWeights auxiliary delta (Real.sqrt (0.5 * delta)) u (insert0 x y)
          (fun i => log_pdf ((insert0 x y : Fin (N + 1) → Traj T d) i))
          (fun i => grad ((insert0 x y : Fin (N + 1) → Traj T d) i)))) 0
          (fun k => f (tp_init log_pdf grad ((insert0 x y : Fin (N + 1) → Traj T d) k)))) hM)
  refine congrArg (malaNoise key N T d) (funext fun e => ?_)
  simp only [← cand_vals log_pdf, ← cand_vals grad, ← cand_states]
  rfl

omit hd hl in
theorem measurable_malaR (delta : ℝ) : Measurable fun p : Traj T d × Traj T d =>
    isoT (Real.sqrt (0.5 * delta)) (malaCenter delta grad p.1) p.2 :=
  measurable_isoT _ ((measurable_malaCenter delta hg).comp measurable_fst) measurable_snd

omit hd hl hg in
theorem measurable_malaQ (delta : ℝ) : Measurable fun p : Traj T d × Traj T d =>
    isoT (Real.sqrt (0.5 * delta)) p.1 p.2 := measurable_isoT _ measurable_fst measurable_snd

omit hl hg in
/-- The mass of the law of auxiliary variable and proposals. -/
theorem mala_mass (x : Traj T d) :
    ∫⁻ u, ENNReal.ofReal (Real.exp (isoT (Real.sqrt (0.5 * delta)) (malaCenter delta grad x) u)) *
      ∫⁻ y, ENNReal.ofReal (Real.exp (∑ i, isoT (Real.sqrt (0.5 * delta)) u (y i)))
        ∂(Measure.pi fun _ : Fin N => trajVol T d) ∂trajVol T d = 1 := by
  have h := malaNoise_law (N := N) [] hd (fun _ => 0) grad x (M := fun _ _ => 1) measurable_const
  rw [malaNoise_mass] at h
  simp only [mul_one] at h
  exact h.symm

theorem mala_exact_aux (key : Key) {f : VGState T d → ℝ≥0∞} (hf : Measurable f) :
    ∫⁻ x, ENNReal.ofReal (Real.exp (log_pdf x)) *
      drawSelect (malaNoise key N T d) (malaW delta log_pdf grad true (tp_init log_pdf grad x))
        (fun e => candStates log_pdf grad (tp_init log_pdf grad x) (malaProp delta (tp_init log_pdf grad x) e)) liuMove f
      ∂trajVol T d = ∫⁻ x, ENNReal.ofReal (Real.exp (log_pdf x)) * f (tp_init log_pdf grad x) ∂trajVol T d := by
  simp only [mala_exact_eq hd hl hg key true hf, mala_aux_weight hd]
  exact mt_aux_invariant (N := N) (lam := trajVol T d) (μ := trajVol T d)
    (logpi := log_pdf) (r := fun x u => isoT (Real.sqrt (0.5 * delta)) (malaCenter delta grad x) u)
    (q := fun u y => isoT (Real.sqrt (0.5 * delta)) u y) (f := fun x => f (tp_init log_pdf grad x)) hl
    (measurable_malaR hg delta) (measurable_malaQ delta) (mala_mass hd) liu_moveInvariant liu_equivariant
    (hf.comp (measurable_tp_init hl hg))

theorem mala_exact_marg (key : Key) {f : VGState T d → ℝ≥0∞} (hf : Measurable f) :
    ∫⁻ x, ENNReal.ofReal (Real.exp (log_pdf x)) *
      drawSelect (malaNoise key N T d) (malaW delta log_pdf grad false (tp_init log_pdf grad x))
        (fun e => candStates log_pdf grad (tp_init log_pdf grad x) (malaProp delta (tp_init log_pdf grad x) e)) liuMove f
      ∂trajVol T d = ∫⁻ x, ENNReal.ofReal (Real.exp (log_pdf x)) * f (tp_init log_pdf grad x) ∂trajVol T d := by
  simp only [mala_exact_eq hd hl hg key false hf, mala_marg_weight hd]
  refine mt_marg_invariant (N := N) (lam := trajVol T d) (μ := trajVol T d)
    (logpi := log_pdf) (r := fun x u => isoT (Real.sqrt (0.5 * delta)) (malaCenter delta grad x) u)
    (q := fun u y => isoT (Real.sqrt (0.5 * delta)) u y) (f := fun x => f (tp_init log_pdf grad x))
    (lw := fun z k => log_pdf (z k) + ∑ t, logH (Real.sqrt (0.5 * delta)) (fun j => 0.5 * delta * grad (z k) t j)
        (fun i => z i t) k)
    (C := fun z => ∫⁻ u, ENNReal.ofReal (Real.exp (∑ i, isoT (Real.sqrt (0.5 * delta)) u (z i))) ∂trajVol T d) hl
    (measurable_malaR hg delta) (measurable_malaQ delta) (mala_mass hd) ?_ ?_ ?_ liu_moveInvariant liu_equivariant
    (hf.comp (measurable_tp_init hl hg))
  · refine measurable_pi_lambda _ fun k => ?_
    have hk : Measurable fun z : Fin (N + 1) → Traj T d => grad (z k) := hg.comp (measurable_pi_apply k)
    refine (hl.comp (measurable_pi_apply k)).add (Finset.measurable_fun_sum _ fun t _ => ?_)
    exact measurable_logH _ (by fun_prop) (by fun_prop) k
  · intro z k
    exact mala_marg_density log_pdf (fun x t j => 0.5 * delta * grad x t j) z k
  · intro z k i
    have hm : ∀ t, meanP (fun i => z (Equiv.swap 0 k i) t) = meanP (fun i => z i t) := fun t => by
      funext j
      simp only [meanP]
      congr 1
      exact Equiv.sum_comp (Equiv.swap 0 k) fun i => z i t j
    simp only [logH, hm]

/-- **C44** (`mala.kernel`, with or without the auxiliary variable): from a state at the target `exp log_pdf`, the new
state is within total variation `3e-12` of a state at the target. -/
theorem C44_mala (key : Key) (N : ℕ) (auxiliary : Bool) :
    StateNearInvariant forceErr (trajVol T d) log_pdf (tp_init log_pdf grad) (fun s => do
      let r ← mala_kernel key s delta log_pdf grad N auxiliary
      pure r.1) := by
  refine near_of_exact hl (malaNoise_ker key) (fun _ => malaNoise_mass key) (measurable_malaW hl hg delta auxiliary)
    (fun _ _ => normalize_isProb _) (g := fun s e => candStates log_pdf grad s (malaProp delta s e))
    (measurable_candStates hl hg measurable_fst (measurable_malaProp delta))
    (fun s => mala_step_eq key s delta log_pdf grad N auxiliary) fun f hf => ?_
  cases auxiliary
  · exact mala_exact_marg hd hl hg key hf
  · exact mala_exact_aux hd hl hg key hf

/-- **C44** (a run of `mala.kernel`): the state after `i` iterations is within `i * 3e-12`. -/
theorem C44_mala_run (N : ℕ) (auxiliary : Bool) {m : ℕ} (keys : Fin m → Key) (i : Fin (m + 1)) :
    StateNearInvariant (i * forceErr) (trajVol T d) log_pdf (tp_init log_pdf grad) (fun s => do
      let tr ← chain (fun key s => do
        let r ← mala_kernel key s delta log_pdf grad N auxiliary
        pure r.1) s keys
      pure (tr i)) :=
  chain_stateNear (fun key => mala_step_ker hl hg key delta N auxiliary)
    (fun key s => mala_step_mass key s delta log_pdf grad N auxiliary) (fun key => C44_mala hd hl hg key N auxiliary) keys i

/-- **C44** (`sampling_routine` with `mala.kernel`): the `k`-th returned trajectory is within `(k * g + 1) * 3e-12` of the
target, when the chain starts from the target. -/
theorem C44_mala_sampling (N : ℕ) (auxiliary : Bool) (key : Key) (n_steps g : ℕ) (k : Fin (strideLen n_steps g)) :
    TVLe (((k.1 * g + 1 : ℕ) : ℝ≥0∞) * forceErr * ∫⁻ x, ENNReal.ofReal (Real.exp (log_pdf x)) ∂trajVol T d)
      (fun f => ∫⁻ x, ENNReal.ofReal (Real.exp (log_pdf x)) *
        (tp_sampling_routine key (tp_init log_pdf grad x) (fun key s => mala_kernel key s delta log_pdf grad N auxiliary)
          n_steps g : Ex _) (fun r => f (r.1 k)) ∂trajVol T d)
      (fun f => ∫⁻ x, ENNReal.ofReal (Real.exp (log_pdf x)) * f x ∂trajVol T d) :=
  tp_sampling_near (init := fun x => (log_pdf x, grad x)) (fun key => mala_step_ker hl hg key delta N auxiliary)
    (fun key s => mala_step_mass key s delta log_pdf grad N auxiliary) (fun key => C44_mala hd hl hg key N auxiliary)
    key n_steps g k

end mala

/-- A Gaussian target with its gradient: five proposals, three times, dimension two. -/
example (key : Key) (auxiliary : Bool) := C44_mala (T := 3) (d := 2) (delta := 0.7) (by norm_num)
  (log_pdf := fun x => -0.5 * ∑ t, ∑ j, x t j ^ 2) (by fun_prop) (grad := fun x t j => -x t j) (by fun_prop) key 5 auxiliary

/-- A run of the same kernel. -/
example (key : Key) (auxiliary : Bool) (k : Fin (strideLen 100 10)) := C44_mala_sampling (T := 3) (d := 2) (delta := 0.7)
  (by norm_num) (log_pdf := fun x => -0.5 * ∑ t, ∑ j, x t j ^ 2) (by fun_prop) (grad := fun x t j => -x t j) (by fun_prop)
  5 auxiliary key 100 10 k

/-! ## `tp.py` -/

/-- The log-target of `tp.py` and `imh.py`: the Gaussian prior and `log_pdf`. -/
noncomputable def mtTarget (D : Dyn n d) (log_pdf : Traj (n + 1) d → ℝ) (x : Traj (n + 1) d) : ℝ :=
  gaussPathLog D.m0 D.P0 D.Fs D.Qs D.bs x + log_pdf x

theorem measurable_mtTarget (D : Dyn n d) {log_pdf : Traj (n + 1) d → ℝ} (hl : Measurable log_pdf) :
    Measurable (mtTarget D log_pdf) := (measurable_gaussPathLog _ _ _ _ measurable_const measurable_id).add hl

section tp
variable {delta : ℝ} (hd : 0 < delta) {D : Dyn n d} (hP : D.P0.PosDef) (hQ : ∀ t, (D.Qs t).PosDef)
  {log_pdf : Traj (n + 1) d → ℝ} (hl : Measurable log_pdf) {grad : Traj (n + 1) d → Traj (n + 1) d} (hg : Measurable grad)
include hd hP hQ hl hg

theorem tp_exact (key : Key) {f : VGState (n + 1) d → ℝ≥0∞} (hf : Measurable f) :
    ∫⁻ x, ENNReal.ofReal (Real.exp (mtTarget D log_pdf x)) *
      drawSelect (mtpNoise key delta D N (tp_init log_pdf grad x)) (tpW delta log_pdf grad (tp_init log_pdf grad x))
        (fun e => candStates log_pdf grad (tp_init log_pdf grad x) e.2) liuMove f
      ∂trajVol (n + 1) d =
    ∫⁻ x, ENNReal.ofReal (Real.exp (mtTarget D log_pdf x)) * f (tp_init log_pdf grad x) ∂trajVol (n + 1) d := by
  have hr : Measurable fun p : Traj (n + 1) d × Traj (n + 1) d =>
      isoT (Real.sqrt (0.5 * delta)) (malaCenter delta grad p.1) p.2 :=
    measurable_isoT _ ((measurable_malaCenter delta hg).comp measurable_fst) measurable_snd
  have hmass : ∀ x, ∫⁻ u, ENNReal.ofReal (Real.exp (isoT (Real.sqrt (0.5 * delta)) (malaCenter delta grad x) u)) *
      ∫⁻ y, ENNReal.ofReal (Real.exp (∑ i, tpQ delta D u (y i)))
        ∂(Measure.pi fun _ : Fin N => trajVol (n + 1) d) ∂trajVol (n + 1) d = 1 := by
    intro x
    have h := mtpNoise_law (N := N) hP hQ hd [] log_pdf grad x (M := fun _ _ => 1) measurable_const
    rw [mtpNoise_mass hP hQ hd] at h
    simp only [mul_one] at h
    exact h.symm
  refine Eq.trans (lintegral_congr fun x => ?_) (mt_aux_invariant (N := N) (lam := trajVol (n + 1) d)
    (μ := trajVol (n + 1) d) (logpi := mtTarget D log_pdf)
    (r := fun x u => isoT (Real.sqrt (0.5 * delta)) (malaCenter delta grad x) u)
    (q := tpQ delta D) (measurable_mtTarget D hl) hr (measurable_tpQ hP hQ hd) hmass liu_moveInvariant liu_equivariant
    (hf.comp (measurable_tp_init hl hg)))
  congr 1
  have hz : Measurable fun p : Traj (n + 1) d × (Fin N → Traj (n + 1) d) =>
      (insert0 x p.2 : Fin (N + 1) → Traj (n + 1) d) := measurable_insert0 measurable_const measurable_snd
  have hzi : ∀ i, Measurable fun p : Traj (n + 1) d × (Fin N → Traj (n + 1) d) =>
      (insert0 x p.2 : Fin (N + 1) → Traj (n + 1) d) i := fun i => (measurable_pi_apply i).comp hz
  have hM : Measurable fun p : Traj (n + 1) d × (Fin N → Traj (n + 1) d) =>
      liuMove (normalizeW (tpLogWeights delta p.1 (insert0 x p.2)
          (fun i => log_pdf ((insert0 x p.2 : Fin (N + 1) → Traj (n + 1) d) i))
          (fun i => grad ((insert0 x p.2 : Fin (N + 1) → Traj (n + 1) d) i)))) 0
          (fun k => f (tp_init log_pdf grad ((insert0 x p.2 : Fin (N + 1) → Traj (n + 1) d) k))) :=
    measurable_move liu_moveInvariant.ker (measurable_normalizeW (measurable_tpLogWeights _ measurable_fst hz
      (measurable_pi_lambda _ fun i => hl.comp (hzi i)) (measurable_pi_lambda _ fun i => hg.comp (hzi i)))) 0
      (measurable_pi_lambda _ fun i => hf.comp ((measurable_tp_init hl hg).comp (hzi i)))
  have h := mtpNoise_law hP hQ hd key log_pdf grad x (M := fun u y =>
      liuMove (normalizeW (tpLogWeights delta u (insert0 x y)
          (fun i => log_pdf ((insert0 x y : Fin (N + 1) → Traj (n + 1) d) i))
          (fun i => grad ((insert0 x y : Fin (N + 1) → Traj (n + 1) d) i)))) 0
          (fun k => f (tp_init log_pdf grad ((insert0 x y : Fin (N + 1) → Traj (n + 1) d) k)))) hM
  simp only [tp_weight (D := D) hd log_pdf grad] at h
  refine Eq.trans ?_ h
  refine congrArg (mtpNoise key delta D N (tp_init log_pdf grad x)) (funext fun e => ?_)
  rw [← tp_weight (D := D) hd log_pdf grad e.1 (insert0 x e.2)]
  simp only [← cand_vals log_pdf, ← cand_vals grad, ← cand_states]
  rfl

/-- **C44** (the kernel of `tp.get_kernel`): the target is the Gaussian prior times `exp log_pdf`. -/
theorem C44_tp (key : Key) (N : ℕ) :
    StateNearInvariant forceErr (trajVol (n + 1) d) (mtTarget D log_pdf) (tp_init log_pdf grad) (fun s => do
      let r ← tp_kernel key s delta D log_pdf grad N
      pure r.1) :=
  near_of_exact (measurable_mtTarget D hl) (mtpNoise_ker hP hQ hd key) (fun s => mtpNoise_mass hP hQ hd key s)
    (measurable_tpW hl hg delta) (fun _ _ => normalize_isProb _) (g := fun s e => candStates log_pdf grad s e.2)
    (measurable_candStates hl hg measurable_fst (by fun_prop))
    (fun s => tp_step_eq key s delta D log_pdf grad N) fun _ hf => tp_exact hd hP hQ hl hg key hf

/-- **C44** (a run of the kernel of `tp.get_kernel`). -/
theorem C44_tp_run (N : ℕ) {m : ℕ} (keys : Fin m → Key) (i : Fin (m + 1)) :
    StateNearInvariant (i * forceErr) (trajVol (n + 1) d) (mtTarget D log_pdf) (tp_init log_pdf grad) (fun s => do
      let tr ← chain (fun key s => do
        let r ← tp_kernel key s delta D log_pdf grad N
        pure r.1) s keys
      pure (tr i)) :=
  chain_stateNear (fun key => tp_step_ker hP hQ hd hl hg key N)
    (fun key s => tp_step_mass hP hQ hd log_pdf grad key N s) (fun key => C44_tp hd hP hQ hl hg key N) keys i

/-- **C44** (`tp.sampling_routine` with the kernel of `tp.get_kernel`). -/
theorem C44_tp_sampling (N : ℕ) (key : Key) (n_steps g : ℕ) (k : Fin (strideLen n_steps g)) :
    TVLe (((k.1 * g + 1 : ℕ) : ℝ≥0∞) * forceErr *
        ∫⁻ x, ENNReal.ofReal (Real.exp (mtTarget D log_pdf x)) ∂trajVol (n + 1) d)
      (fun f => ∫⁻ x, ENNReal.ofReal (Real.exp (mtTarget D log_pdf x)) *
        (tp_sampling_routine key (tp_init log_pdf grad x) (fun key s => tp_kernel key s delta D log_pdf grad N)
          n_steps g : Ex _) (fun r => f (r.1 k)) ∂trajVol (n + 1) d)
      (fun f => ∫⁻ x, ENNReal.ofReal (Real.exp (mtTarget D log_pdf x)) * f x ∂trajVol (n + 1) d) :=
  tp_sampling_near (init := fun x => (log_pdf x, grad x)) (fun key => tp_step_ker hP hQ hd hl hg key N)
    (fun key s => tp_step_mass hP hQ hd log_pdf grad key N s) (fun key => C44_tp hd hP hQ hl hg key N) key n_steps g k

end tp

/-- An autoregressive prior in dimension two observed in noise. -/
noncomputable example (key : Key) (ys : Traj 4 2) := C44_tp (delta := 0.3) (by norm_num)
  (D := (⟨0, 1, fun _ => !![0.9, 0.1; 0, 0.8], fun _ => (0.5 : ℝ) • 1, fun _ => ![1, 0]⟩ : Dyn 3 2)) PosDef.one
  (fun _ => posDef_smul_one (by norm_num)) (log_pdf := fun x => -0.5 * ∑ t, ∑ j, (x t j - ys t j) ^ 2) (by fun_prop)
  (grad := fun x t j => ys t j - x t j) (by fun_prop) key 5

/-! ## `imh.py` -/

section imh
variable {D : Dyn n d} (hP : D.P0.PosDef) (hQ : ∀ t, (D.Qs t).PosDef) {log_pdf : Traj (n + 1) d → ℝ}
  (hl : Measurable log_pdf)
include hP hQ hl

theorem imh_exact (key : Key) {f : Traj (n + 1) d × ℝ → ℝ≥0∞} (hf : Measurable f) :
    ∫⁻ x, ENNReal.ofReal (Real.exp (mtTarget D log_pdf x)) *
      drawSelect (prior_sampling key D.m0 D.P0 D.Fs D.Qs D.bs N) (imhW log_pdf (imh_init log_pdf x))
        (imhStates log_pdf (imh_init log_pdf x)) liuMove f ∂trajVol (n + 1) d =
    ∫⁻ x, ENNReal.ofReal (Real.exp (mtTarget D log_pdf x)) * f (imh_init log_pdf x) ∂trajVol (n + 1) d := by
  have hi : Measurable (imh_init (T := n + 1) (d := d) log_pdf) := measurable_id.prodMk hl
  have hq : Measurable fun p : Unit × Traj (n + 1) d => gaussPathLog D.m0 D.P0 D.Fs D.Qs D.bs p.2 :=
    measurable_gaussPathLog _ _ _ _ measurable_const measurable_snd
  have h1 : ∫⁻ y, ENNReal.ofReal (Real.exp (∑ i, gaussPathLog D.m0 D.P0 D.Fs D.Qs D.bs (y i)))
        ∂(Measure.pi fun _ : Fin N => trajVol (n + 1) d) = 1 := by
    have h := imh_draws (N := N) hP hQ [] (F := fun _ => 1) measurable_const
    rw [imh_draws_mass hP hQ] at h
    simp only [mul_one] at h
    exact h.symm
  have hmass : ∀ _ : Traj (n + 1) d, ∫⁻ _ : Unit, ENNReal.ofReal (Real.exp 0) *
      ∫⁻ y, ENNReal.ofReal (Real.exp (∑ i, gaussPathLog D.m0 D.P0 D.Fs D.Qs D.bs (y i)))
        ∂(Measure.pi fun _ : Fin N => trajVol (n + 1) d) ∂(Measure.dirac ()) = 1 := by
    intro _
    rw [h1]
    simp
  refine Eq.trans (lintegral_congr fun x => ?_) (mt_aux_invariant (N := N) (lam := trajVol (n + 1) d)
    (μ := Measure.dirac ()) (logpi := mtTarget D log_pdf) (r := fun _ (_ : Unit) => 0)
    (q := fun _ y => gaussPathLog D.m0 D.P0 D.Fs D.Qs D.bs y) (measurable_mtTarget D hl) measurable_const hq hmass
    liu_moveInvariant liu_equivariant (hf.comp hi))
  congr 1
  rw [lintegral_dirac]
  simp only [Real.exp_zero, ENNReal.ofReal_one, one_mul, mtTarget, add_zero, add_sub_cancel_left]
  have hz : Measurable fun y : Fin N → Traj (n + 1) d => (insert0 x y : Fin (N + 1) → Traj (n + 1) d) :=
    measurable_insert0 measurable_const measurable_id
  have hzi : ∀ i, Measurable fun y : Fin N → Traj (n + 1) d => (insert0 x y : Fin (N + 1) → Traj (n + 1) d) i :=
    fun i => (measurable_pi_apply i).comp hz
  have hM : Measurable fun y : Fin N → Traj (n + 1) d =>
      liuMove (normalizeW fun k => log_pdf ((insert0 x y : Fin (N + 1) → Traj (n + 1) d) k)) 0
        (fun k => f (imh_init log_pdf ((insert0 x y : Fin (N + 1) → Traj (n + 1) d) k))) :=
    measurable_move liu_moveInvariant.ker (measurable_normalizeW (measurable_pi_lambda _ fun i => hl.comp (hzi i))) 0
      (measurable_pi_lambda _ fun i => hf.comp (hi.comp (hzi i)))
  refine Eq.trans ?_ (imh_draws hP hQ key hM)
  refine congrArg (prior_sampling key D.m0 D.P0 D.Fs D.Qs D.bs N : Ex _) (funext fun e => ?_)
  have hs : ∀ k, imh_init log_pdf ((insert0 x e : Fin (N + 1) → Traj (n + 1) d) k) =
      imhStates log_pdf (imh_init log_pdf x) e k := fun k => Fin.cases rfl (fun _ => rfl) k
  simp only [← cand_vals log_pdf, hs]
  rfl

/-- **C44** (the kernel of `imh.get_kernel`): the target is the Gaussian prior times `exp log_pdf`. -/
theorem C44_imh (key : Key) (N : ℕ) :
    StateNearInvariant forceErr (trajVol (n + 1) d) (mtTarget D log_pdf) (imh_init log_pdf) (fun s => do
      let r ← imh_kernel key s D log_pdf N
      pure r.1) :=
  near_of_exact (measurable_mtTarget D hl) (imh_draws_ker hP hQ (splitKey key 3 0)) (fun _ => imh_draws_mass hP hQ _)
    (measurable_imhW hl) (fun _ _ => normalize_isProb _) (measurable_imhStates hl)
    (fun s => imh_step_eq key s D log_pdf N) fun _ hf => imh_exact hP hQ hl _ hf

/-- **C44** (a run of the kernel of `imh.get_kernel`). -/
theorem C44_imh_run (N : ℕ) {m : ℕ} (keys : Fin m → Key) (i : Fin (m + 1)) :
    StateNearInvariant (i * forceErr) (trajVol (n + 1) d) (mtTarget D log_pdf) (imh_init log_pdf) (fun s => do
      let tr ← chain (fun key s => do
        let r ← imh_kernel key s D log_pdf N
        pure r.1) s keys
      pure (tr i)) :=
  chain_stateNear (fun key => imh_step_ker hP hQ hl key N)
    (fun key s => imh_step_mass hP hQ log_pdf key N s) (fun key => C44_imh hP hQ hl key N) keys i

/-- **C44** (`tp.sampling_routine` with the kernel of `imh.get_kernel`). -/
theorem C44_imh_sampling (N : ℕ) (key : Key) (n_steps g : ℕ) (k : Fin (strideLen n_steps g)) :
    TVLe (((k.1 * g + 1 : ℕ) : ℝ≥0∞) * forceErr *
        ∫⁻ x, ENNReal.ofReal (Real.exp (mtTarget D log_pdf x)) ∂trajVol (n + 1) d)
      (fun f => ∫⁻ x, ENNReal.ofReal (Real.exp (mtTarget D log_pdf x)) *
        (tp_sampling_routine key (imh_init log_pdf x) (fun key s => imh_kernel key s D log_pdf N)
          n_steps g : Ex _) (fun r => f (r.1 k)) ∂trajVol (n + 1) d)
      (fun f => ∫⁻ x, ENNReal.ofReal (Real.exp (mtTarget D log_pdf x)) * f x ∂trajVol (n + 1) d) :=
  tp_sampling_near (init := log_pdf) (fun key => imh_step_ker hP hQ hl key N)
    (fun key s => imh_step_mass hP hQ log_pdf key N s) (fun key => C44_imh hP hQ hl key N) key n_steps g k

end imh

/-- The same prior and observations. -/
noncomputable example (key : Key) (ys : Traj 4 2) := C44_imh
  (D := (⟨0, 1, fun _ => !![0.9, 0.1; 0, 0.8], fun _ => (0.5 : ℝ) • 1, fun _ => ![1, 0]⟩ : Dyn 3 2)) PosDef.one
  (fun _ => posDef_smul_one (by norm_num)) (log_pdf := fun x => -0.5 * ∑ t, ∑ j, (x t j - ys t j) ^ 2) (by fun_prop)
  key 5

end Verif.Props
