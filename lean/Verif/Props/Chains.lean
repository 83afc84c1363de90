import Verif.Lemmas.ChainInv
import Verif.Props.Csmc
import Verif.Props.Drivers

/-!
# C50: invariance along a run of the sampler
-/

open scoped ENNReal
open MeasureTheory

namespace Verif.Props
open Verif Verif.Model Verif.Spec

/-- C50: a chain started from an invariant measure has that law at every time. -/
theorem C50_chain {S : Type} [MeasurableSpace S] (μ : Measure S) (step : Key → S → Ex S)
    (hk : ∀ key, IsKer (step key)) (hm : ∀ key s, step key s (fun _ => 1) = 1)
    (hinv : ∀ key f, Measurable f → ∫⁻ s, step key s f ∂μ = ∫⁻ s, f s ∂μ) {n : ℕ} (keys : Fin n → Key)
    (i : Fin (n + 1)) (f : S → ℝ≥0∞) (hf : Measurable f) :
    ∫⁻ s, chain step s keys (fun tr => f (tr i)) ∂μ = ∫⁻ s, f s ∂μ :=
  chain_invariant hk hm (fun f => ∫⁻ s, f s ∂μ) hinv keys i hf

/-- C50 (`tp.sampling_routine`): every returned sample has the law of the initial state. -/
theorem C50_tp_sampling {X R : Type} [MeasurableSpace X] [MeasurableSpace R] (μ : Measure (X × R))
    (kernel : Key → X × R → Ex ((X × R) × Bool)) (hk : ∀ key, IsKer (kernel key))
    (hm : ∀ key s, kernel key s (fun _ => 1) = 1)
    (hinv : ∀ key f, Measurable f → ∫⁻ s, kernel key s (fun r => f r.1) ∂μ = ∫⁻ s, f s ∂μ) (key : Key) (n g : ℕ)
    (k : Fin (strideLen n g)) (f : X → ℝ≥0∞) (hf : Measurable f) :
    ∫⁻ s, tp_sampling_routine key s kernel n g (fun r => f (r.1 k)) ∂μ = ∫⁻ s, f s.1 ∂μ := by
  have h1 : ∀ s : X × R, (tp_sampling_routine key s kernel n g : Ex _) (fun r => f (r.1 k)) =
      chain (fun key (s : X × R) => kernel key s >>= fun r => pure r.1) s (splitKey key n)
        (fun tr => f (tr ⟨k * g + 1, Nat.succ_lt_succ (strideLen_lt k)⟩).1) := by
    intro s
    have h := scanM_chain_proj (m := Ex) (fun s : (X × R) × Bool => s.1) (fun k s => kernel k s.1)
      (fun c inp => tpSamplingBody kernel c inp >>= fun r => pure (r.1, r.2.1))
      (stepInputs key n) (splitKey key n) (fun _ s' => s'.1) (fun t s => rfl) (s, false)
    have h' := scanM_chain (m := Ex) (fun key (s : X × R) => kernel key s >>= fun r => pure r.1)
      (fun c inp => tpSamplingBody kernel c inp >>= fun r => pure (r.1, r.2.1))
      (stepInputs key n) (splitKey key n) (fun _ s' => s') (fun t s => rfl) s
    have h2 := congrFun (C49_tp_sampling (m := Ex) key s false kernel n g) (fun r => f (r.1 k))
    refine h2.trans ?_
    exact (congrFun (h.symm.trans h') (fun r => f (r.2 ⟨k * g, strideLen_lt k⟩).1))
  simp only [h1]
  have := C50_chain μ (fun key (s : X × R) => kernel key s >>= fun r => pure r.1)
    (fun key => IsKer.bind (F := fun _ r => pure r.1) (hk key)
      (IsKer.pure (g := fun p : (X × R) × ((X × R) × Bool) => p.2.1) (by fun_prop))) (fun key s => hm key s) hinv (splitKey key n)
      ⟨k * g + 1, Nat.succ_lt_succ (strideLen_lt k)⟩ (fun s => f s.1) (by fun_prop)
  exact this

section csmc
variable {X P G : Type} [MeasurableSpace X] {N n : ℕ}

/-- C50 (`mcmc_utils.sampling_routine`): if the kernel leaves the target invariant (for every key), every returned
sample has the target as its law, when the run is started from it. -/
theorem C50_sampling (lam : Measure X) (logpi : (Fin (n + 1) → X) → ℝ)
    (kernel : Key → (Fin (n + 1) → X) × (Fin (n + 1) → Fin (N + 1)) →
      Ex ((Fin (n + 1) → X) × (Fin (n + 1) → Fin (N + 1)))) (hk : ∀ key, IsKer (kernel key))
    (hm : ∀ key s, kernel key s (fun _ => 1) = 1)
    (hinv : ∀ key, LeavesInvariant lam logpi (fun x b => kernel key (x, b))) (key : Key) (n_samples g : ℕ)
    (k : Fin (strideLen n_samples g)) (f : (Fin (n + 1) → X) → ℝ≥0∞) (hf : Measurable f) :
    ∑ b, ∫⁻ x, ENNReal.ofReal (Real.exp (logpi x)) *
      sampling_routine key x b kernel n_samples g (fun r => f (r.1 k)) ∂(Measure.pi fun _ => lam) =
    ∑ _b : Fin (n + 1) → Fin (N + 1),
      ∫⁻ x, ENNReal.ofReal (Real.exp (logpi x)) * f x ∂(Measure.pi fun _ => lam) := by
  have h := chain_invariant hk hm (fun F => ∑ b, ∫⁻ x, ENNReal.ofReal (Real.exp (logpi x)) * F (x, b)
    ∂(Measure.pi fun _ => lam)) hinv (splitKey key n_samples) ⟨k * g + 1, Nat.succ_lt_succ (strideLen_lt k)⟩
    (f := fun s => f s.1) (by fun_prop)
  have e : ∀ x b, (sampling_routine key x b kernel n_samples g : Ex _) (fun r => f (r.1 k)) =
      chain kernel (x, b) (splitKey key n_samples)
        (fun tr => f (tr ⟨k * g + 1, Nat.succ_lt_succ (strideLen_lt k)⟩).1) := fun x b =>
    congrFun (C49_sampling (m := Ex) key x b kernel n_samples g) (fun r => f (r.1 k))
  simp only [e]
  exact h

/-- C50 for `csmc.kernel` with killing resampling and the Barker move, both backward passes: samples of
`sampling_routine` keep the target as their law. -/
theorem C50_csmc_sampling (lam : Measure X) [SigmaFinite lam] (M : FK Ex X P G N) (hM : ProperFK lam M)
    (Mparams : Fin n → P) (Gparams : Fin n → G) (backward : Bool) (key : Key) (n_samples g : ℕ)
    (k : Fin (strideLen n_samples g)) (f : (Fin (n + 1) → X) → ℝ≥0∞) (hf : Measurable f) :
    let kernel := fun key (s : (Fin (n + 1) → X) × (Fin (n + 1) → Fin (N + 1))) => (do
      let r ← csmc_kernel key s.1 s.2 M Mparams Gparams (fun key w i j c => killing key w i j c)
        (fun key w k => barker_move key w k) backward true
      pure (r.xs, r.Bs) : Ex _)
    let logpi := pathLogDensity M.Gamma0 (fun t y x => M.Gammat y x (Gparams t))
    ∑ b, ∫⁻ x, ENNReal.ofReal (Real.exp (logpi x)) *
      sampling_routine key x b kernel n_samples g (fun r => f (r.1 k)) ∂(Measure.pi fun _ => lam) =
    ∑ _b : Fin (n + 1) → Fin (N + 1),
      ∫⁻ x, ENNReal.ofReal (Real.exp (logpi x)) * f x ∂(Measure.pi fun _ => lam) := by
  intro kernel logpi
  choose c0 c hS using fun key => csmcDSys_OK (lam := lam) key Mparams Gparams hM
    (fun key => killing_condResampling (N := N) key)
  have e : ∀ key x b, _ = _ := fun key x b => csmc_kernel_eq key M Mparams Gparams
    (fun key w i j c => killing key w i j c) (fun key w k => barker_move key w k) backward
    (fun f => ∫⁻ x, ENNReal.ofReal (Real.exp (M.Gamma0 x)) * f x ∂lam)
    (fun t y f => ∫⁻ x, ENNReal.ofReal (Real.exp (M.Gammat y x (Gparams t))) * f x ∂lam)
    (tilt (c0 key) (M.M0_rvs (splitKey key 3 0)))
    (fun t Y => tilt (c key t) (M.Mt_rvs (splitKey (splitKey (splitKey key 3 1) n t) 2 0) Y (Mparams t))) x b
  have e' : ∀ key, kernel key = fun p => (csmcDSys lam key M Mparams Gparams
      (fun key w i j c => killing key w i j c) (c0 key) (c key)).kernel (fun t y x => M.Gammat y x (Gparams t))
        (moveIndex (fun key w k => barker_move key w k)
          (if backward then lastA (splitKey (splitKey key 3 2) (n + 1)) else splitKey key 3 2)) backward p.1 p.2 :=
    fun key => funext fun p => e key p.1 p.2
  refine C50_sampling lam logpi kernel (fun key => ?_) (fun key s => ?_) (fun key => ?_) key n_samples g k f hf
  · rw [e']
    exact (hS key).kernel_ker (fun t => hM.Gammat_meas _) (barker_moveInvariant _).ker backward
  · rw [e']
    exact (hS key).kernel_mass _ (fun w hw k => barker_mass _ hw k) backward s.1 s.2
  · exact C15_C16_csmc_invariant lam key M hM Mparams Gparams _ (fun key => killing_condResampling key) _
      (fun key => barker_moveInvariant key) backward

/-- A concrete model: 100 iterations, every tenth kept. -/
example (y : Fin 7 → Fin 2 → ℝ) (f : (Fin 8 → Fin 2 → ℝ) → ℝ≥0∞) (hf : Measurable f) :=
  C50_csmc_sampling (n := 7) volume (exampleFK 2 25) (exampleFK_proper 2 25) (fun _ => ()) y true [] 100 10
    (⟨3, by decide⟩ : Fin (strideLen 100 10)) f hf

end csmc

end Verif.Props
