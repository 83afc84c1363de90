import Verif.Lemmas.Adapted

/-!
# Experiments with two kernels that are close

If each step of a kernel is within `ε` of the same step of another kernel, in total variation and for all states, then what an experiment
returns is within the number of its steps times `ε`.
-/

open scoped ENNReal
open MeasureTheory ProbabilityTheory

namespace Verif
open Verif.Model Verif.Spec Verif.Props

variable {N n d W M : ℕ} {ε : ℝ≥0∞}

/-- The mean of a bounded function. -/
theorem IsKer.le_one {S α : Type} [MeasurableSpace S] [MeasurableSpace α] {K : S → Ex α} (hK : IsKer K) (s : S) (hm : K s (fun _ => 1) = 1)
    {f : α → ℝ≥0∞} (hf : Measurable f) (h1 : ∀ a, f a ≤ 1) : K s f ≤ 1 :=
  (hK.mono s hf measurable_const h1).trans hm.le

/-- Means of two functions that are close, for two laws that are close. -/
theorem IsKer.le_add {S α : Type} [MeasurableSpace S] [MeasurableSpace α] {K K' : S → Ex α} (hK : IsKer K) (s : S) (hm : K s (fun _ => 1) = 1)
    (h : ∀ f, Measurable f → (∀ a, f a ≤ 1) → K s f ≤ K' s f + ε) {f g : α → ℝ≥0∞} (hf : Measurable f) (hg : Measurable g) (hg1 : ∀ a, g a ≤ 1)
    {c : ℝ≥0∞} (hfg : ∀ a, f a ≤ g a + c) : K s f ≤ K' s g + (ε + c) :=
  calc K s f ≤ K s (fun a => g a + c) := hK.mono s hf (hg.add_const c) hfg
    _ = K s g + K s (fun _ => c) := hK.add s hg measurable_const
    _ = K s g + c := by rw [hK.const_fun s c, hm, mul_one]
    _ ≤ (K' s g + ε) + c := by gcongr; exact h g hg hg1
    _ = _ := add_assoc _ _ _

/-- Two chains. -/
theorem chain_le {S : Type} [MeasurableSpace S] {step step' : Key → S → Ex S} (hk : ∀ key, IsKer (step key)) (hk' : ∀ key, IsKer (step' key))
    (hm : ∀ key s, step key s (fun _ => 1) = 1) (hm' : ∀ key s, step' key s (fun _ => 1) = 1)
    (h : ∀ key s f, Measurable f → (∀ a, f a ≤ 1) → step key s f ≤ step' key s f + ε) {k : ℕ} (keys : Fin k → Key) (s : S)
    {f : (Fin (k + 1) → S) → ℝ≥0∞} (hf : Measurable f) (h1 : ∀ a, f a ≤ 1) : chain step s keys f ≤ chain step' s keys f + k * ε := by
  induction k generalizing s with
  | zero => exact le_self_add
  | succ k ih =>
    have hf' : Measurable fun rest : Fin (k + 1) → S => f (insert0 s rest) := hf.comp (by fun_prop)
    show step (keys 0) s (fun s' => chain step s' (tailA keys) (fun rest => f (insert0 s rest))) ≤
      step' (keys 0) s (fun s' => chain step' s' (tailA keys) (fun rest => f (insert0 s rest))) + _
    refine ((hk (keys 0)).le_add s (hm _ _) (h (keys 0) s) ((chain_ker hk (tailA keys)).measurable' hf')
      ((chain_ker hk' (tailA keys)).measurable' hf')
      (fun s' => (chain_ker hk' (tailA keys)).le_one s' (chain_mass hm' _ _) hf' fun _ => h1 _)
      fun s' => ih (tailA keys) s' hf' fun _ => h1 _).trans (le_of_eq ?_)
    push_cast
    ring

/-- Two product laws. -/
theorem pi_le {O : Type} [MeasurableSpace O] {μ μ' : Measure O} [IsProbabilityMeasure μ] [IsProbabilityMeasure μ']
    (h : ∀ f, Measurable f → (∀ a, f a ≤ 1) → ∫⁻ o, f o ∂μ ≤ ∫⁻ o, f o ∂μ' + ε) {F : (Fin M → O) → ℝ≥0∞} (hF : Measurable F) (h1 : ∀ a, F a ≤ 1) :
    ∫⁻ o, F o ∂Measure.pi (fun _ : Fin M => μ) ≤ ∫⁻ o, F o ∂Measure.pi (fun _ : Fin M => μ') + M * ε := by
  induction M with
  | zero =>
    rw [Measure.pi_of_empty (fun _ : Fin 0 => μ) Fin.elim0, Measure.pi_of_empty (fun _ : Fin 0 => μ') Fin.elim0]
    exact le_self_add
  | succ M ih =>
    rw [lintegral_pi_cons (fun _ => μ) F hF, lintegral_pi_cons (fun _ => μ') F hF]
    have hins : Measurable fun q : O × (Fin M → O) => F (insert0 q.1 q.2) := hF.comp (by fun_prop)
    have hi : ∀ o, Measurable fun os : Fin M → O => F (insert0 o os) := fun o => hins.comp measurable_prodMk_left
    have hm' : Measurable fun o => ∫⁻ os, F (insert0 o os) ∂Measure.pi (fun _ : Fin M => μ') := hins.lintegral_prod_right'
    have hle : ∀ o, ∫⁻ os, F (insert0 o os) ∂Measure.pi (fun _ : Fin M => μ') ≤ 1 := fun o =>
      (lintegral_mono fun os => h1 _).trans (by rw [lintegral_one, measure_univ])
    calc ∫⁻ o, ∫⁻ os, F (insert0 o os) ∂Measure.pi (fun _ : Fin M => μ) ∂μ
        ≤ ∫⁻ o, (∫⁻ os, F (insert0 o os) ∂Measure.pi (fun _ : Fin M => μ') + M * ε) ∂μ := lintegral_mono fun o => ih (hi o) fun _ => h1 _
      _ = ∫⁻ o, ∫⁻ os, F (insert0 o os) ∂Measure.pi (fun _ : Fin M => μ') ∂μ + M * ε := by
          rw [lintegral_add_right _ measurable_const, lintegral_const, measure_univ, mul_one]
      _ ≤ (∫⁻ o, ∫⁻ os, F (insert0 o os) ∂Measure.pi (fun _ : Fin M => μ') ∂μ' + ε) + M * ε := by gcongr; exact h _ hm' hle
      _ = _ := by
          rw [add_assoc, show ε + M * ε = ((M + 1 : ℕ) : ℝ≥0∞) * ε by push_cast; ring]
          rfl

/-! ## The adaptation -/

/-- What is needed of the kernels, for the step sizes that occur. -/
structure StepOK (Dok : (Fin (n + 1) → ℝ) → Prop) (ker : Key → (Fin (n + 1) → Vec d) → (Fin (n + 1) → Fin (N + 1)) → (Fin (n + 1) → ℝ) →
      Ex ((Fin (n + 1) → Vec d) × (Fin (n + 1) → Fin (N + 1)))) : Prop where
  markov : ∀ δ, Dok δ → ∀ key, MarkovStep fun x b => ker key x b δ
  relabels : ∀ δ, Dok δ → ∀ key, Relabels fun x b => ker key x b δ
  free : ∀ δ, Dok δ → ∀ key key' x b f, Measurable f → ker key x b δ f = ker key' x b δ f

variable {Dok : (Fin (n + 1) → ℝ) → Prop}
  {ker ker' : Key → (Fin (n + 1) → Vec d) → (Fin (n + 1) → Fin (N + 1)) → (Fin (n + 1) → ℝ) →
    Ex ((Fin (n + 1) → Vec d) × (Fin (n + 1) → Fin (N + 1)))}
  {upd : ℕ → (Fin (n + 1) → Fin (W + 1) → Option ℝ) → (Fin (n + 1) → ℝ) → Fin (n + 1) → ℝ}
  {adapt : Key → (Fin (n + 1) → Vec d) → (Fin (n + 1) → Fin (N + 1)) →
      (Key → (Fin (n + 1) → Vec d) × (Fin (n + 1) → Fin (N + 1)) → (Fin (n + 1) → ℝ) →
        Ex ((Fin (n + 1) → Vec d) × (Fin (n + 1) → Fin (N + 1)))) → AdaptCfg → ℕ → (Fin (n + 1) → ℝ) → ℕ →
      Ex (((Fin (n + 1) → Vec d) × (Fin (n + 1) → Fin (N + 1))) × (Fin (n + 1) → ℝ))}

/-- The kernel with an update of the step sizes. -/
noncomputable abbrev updScan (upd : ℕ → (Fin (n + 1) → Fin (W + 1) → Option ℝ) → (Fin (n + 1) → ℝ) → Fin (n + 1) → ℝ)
    (ker : Key → (Fin (n + 1) → Vec d) → (Fin (n + 1) → Fin (N + 1)) → (Fin (n + 1) → ℝ) →
      Ex ((Fin (n + 1) → Vec d) × (Fin (n + 1) → Fin (N + 1)))) (k : ℕ) (idx : Fin k → ℕ) (keys : Fin k → Key)
    (x : Fin (n + 1) → Vec d) (b : Fin (n + 1) → Fin (N + 1)) (δ : Fin (n + 1) → ℝ) (a : Fin (n + 1) → Fin (W + 1) → Option ℝ)
    (F : (Fin (n + 1) → Vec d) → (Fin (n + 1) → Fin (N + 1)) → (Fin (n + 1) → ℝ) → ℝ≥0∞) : ℝ≥0∞ :=
  scanM (updBody upd fun k s δ => ker k s.1 s.2 δ) ⟨x, b, δ, a⟩ (fun j => (idx j, keys j)) (fun r => F r.1.xs r.1.bs r.1.deltas)

theorem updScan_measurable (h : StepOK Dok ker) (hupd : ∀ i a δ, Dok (upd i a δ)) : ∀ (k : ℕ) (idx : Fin k → ℕ) (keys : Fin k → Key)
    (b : Fin (n + 1) → Fin (N + 1)) (δ : Fin (n + 1) → ℝ), Dok δ → ∀ (a : Fin (n + 1) → Fin (W + 1) → Option ℝ)
    (F : (Fin (n + 1) → Vec d) → (Fin (n + 1) → Fin (N + 1)) → (Fin (n + 1) → ℝ) → ℝ≥0∞), (∀ b δ, Dok δ → Measurable fun x => F x b δ) →
      (Measurable fun x => updScan upd ker k idx keys x b δ a F) ∧
      ((∀ x b δ, Dok δ → F x b δ ≤ 1) → ∀ x, updScan upd ker k idx keys x b δ a F ≤ 1) := by
  intro k
  induction k with
  | zero =>
    intro idx keys b δ hδ a F hF
    exact ⟨hF b δ hδ, fun h1 x => h1 x b δ hδ⟩
  | succ k ih =>
    intro idx keys b δ hδ a F hF
    let a' (b' : Fin (n + 1) → Fin (N + 1)) : Fin (n + 1) → Fin (W + 1) → Option ℝ :=
      fun t => pushHistory (a t) (some (boolF (acceptedFlags b' b t)))
    have IH := fun b' => ih (tailA idx) (tailA keys) b' (upd (idx 0) (a' b') δ) (hupd _ _ _) (a' b') F hF
    have e : ∀ x, updScan upd ker (k + 1) idx keys x b δ a F = ker (keys 0) x b δ (fun r =>
        updScan upd ker k (tailA idx) (tailA keys) r.1 r.2 (upd (idx 0) (a' r.2) δ) (a' r.2) F) := fun x => rfl
    have hg : Measurable fun r : (Fin (n + 1) → Vec d) × (Fin (n + 1) → Fin (N + 1)) =>
        updScan upd ker k (tailA idx) (tailA keys) r.1 r.2 (upd (idx 0) (a' r.2) δ) (a' r.2) F :=
      measurable_from_prod_countable_left fun b' => (IH b').1
    simp only [e]
    refine ⟨((h.markov δ hδ (keys 0)).ker.measurable' hg).comp (by fun_prop : Measurable fun x : Fin (n + 1) → Vec d => (x, b)), fun h1 x => ?_⟩
    exact (h.markov δ hδ (keys 0)).ker.le_one (x, b) ((h.markov δ hδ (keys 0)).mass x b) hg fun r => (IH r.2).2 h1 r.1

theorem updScan_le (h : StepOK Dok ker) (h' : StepOK Dok ker') (hupd : ∀ i a δ, Dok (upd i a δ))
    (hle : ∀ δ, Dok δ → ∀ key x b f, Measurable f → (∀ a, f a ≤ 1) → ker key x b δ f ≤ ker' key x b δ f + ε)
    {F F' : (Fin (n + 1) → Vec d) → (Fin (n + 1) → Fin (N + 1)) → (Fin (n + 1) → ℝ) → ℝ≥0∞} (hF : ∀ b δ, Dok δ → Measurable fun x => F x b δ)
    (hF' : ∀ b δ, Dok δ → Measurable fun x => F' x b δ) (h1' : ∀ x b δ, Dok δ → F' x b δ ≤ 1) {c : ℝ≥0∞}
    (hFF : ∀ x b δ, Dok δ → F x b δ ≤ F' x b δ + c) : ∀ (k : ℕ) (idx : Fin k → ℕ) (keys : Fin k → Key)
    (b : Fin (n + 1) → Fin (N + 1)) (δ : Fin (n + 1) → ℝ), Dok δ → ∀ (a : Fin (n + 1) → Fin (W + 1) → Option ℝ) x,
      updScan upd ker k idx keys x b δ a F ≤ updScan upd ker' k idx keys x b δ a F' + (k * ε + c) := by
  intro k
  induction k with
  | zero =>
    intro idx keys b δ hδ a x
    refine (hFF x b δ hδ).trans (le_of_eq ?_)
    rw [Nat.cast_zero, zero_mul, zero_add]
    rfl
  | succ k ih =>
    intro idx keys b δ hδ a x
    let a' (b' : Fin (n + 1) → Fin (N + 1)) : Fin (n + 1) → Fin (W + 1) → Option ℝ :=
      fun t => pushHistory (a t) (some (boolF (acceptedFlags b' b t)))
    have I1 := fun b' => updScan_measurable h hupd k (tailA idx) (tailA keys) b' (upd (idx 0) (a' b') δ) (hupd _ _ _) (a' b') F hF
    have I2 := fun b' => updScan_measurable h' hupd k (tailA idx) (tailA keys) b' (upd (idx 0) (a' b') δ) (hupd _ _ _) (a' b') F' hF'
    show ker (keys 0) x b δ (fun r => updScan upd ker k (tailA idx) (tailA keys) r.1 r.2 (upd (idx 0) (a' r.2) δ) (a' r.2) F) ≤
      ker' (keys 0) x b δ (fun r => updScan upd ker' k (tailA idx) (tailA keys) r.1 r.2 (upd (idx 0) (a' r.2) δ) (a' r.2) F') + _
    refine (IsKer.le_add (K := fun s : (Fin (n + 1) → Vec d) × (Fin (n + 1) → Fin (N + 1)) => ker (keys 0) s.1 s.2 δ)
      (K' := fun s => ker' (keys 0) s.1 s.2 δ) (h.markov δ hδ (keys 0)).ker (x, b) ((h.markov δ hδ (keys 0)).mass x b)
      (hle δ hδ (keys 0) x b) (measurable_from_prod_countable_left fun b' => (I1 b').1) (measurable_from_prod_countable_left fun b' => (I2 b').1)
      (fun r => (I2 r.2).2 h1' r.1) fun r => ih (tailA idx) (tailA keys) r.2 (upd (idx 0) (a' r.2) δ) (hupd _ _ _) (a' r.2) r.1).trans (le_of_eq ?_)
    push_cast
    ring

/-! ## The chains after the adaptation -/

theorem StepOK.chains (h : StepOK Dok ker) {δ : Fin (n + 1) → ℝ} (hδ : Dok δ) : ChainsOK (csmcSv adapt ker) (.perStep δ) fun _ => True :=
  csmcSv_chainsOK (delta := .perStep δ) (h.markov δ hδ) (h.relabels δ hδ) (h.free δ hδ)

/-- One long run. -/
theorem csmcSv_all_le (h : StepOK Dok ker) (h' : StepOK Dok ker') {δ : Fin (n + 1) → ℝ} (hδ : Dok δ)
    (hle : ∀ key x b f, Measurable f → (∀ a, f a ≤ 1) → ker key x b δ f ≤ ker' key x b δ f + ε) (key : Key) (k : ℕ)
    (s : (Fin (n + 1) → Vec d) × (Fin (n + 1) → Fin (N + 1))) {f : Run (strideLen k 1) (n + 1) d → ℝ≥0∞} (hf : Measurable f) (h1 : ∀ a, f a ≤ 1) :
    (csmcSv adapt ker).experiment_all key s (fun k s => (csmcSv adapt ker).kernel k s (.perStep δ)) k (fun r => f (runOf _ r)) ≤
    (csmcSv adapt ker').experiment_all key s (fun k s => (csmcSv adapt ker').kernel k s (.perStep δ)) k (fun r => f (runOf _ r)) + k * ε := by
  have hX : Measurable fun s : (Fin (n + 1) → Vec d) × (Fin (n + 1) → Fin (N + 1)) => s.1 := measurable_fst
  have hd : Measurable fun p : Fin (N + 1) × Fin (N + 1) => boolF (decide (p.1 ≠ p.2)) := Measurable.of_discrete
  have hP : Measurable fun p : ((Fin (n + 1) → Vec d) × (Fin (n + 1) → Fin (N + 1))) ×
      ((Fin (n + 1) → Vec d) × (Fin (n + 1) → Fin (N + 1))) => fun t => boolF (decide (p.2.2 t ≠ p.1.2 t)) :=
    measurable_pi_lambda _ fun t => hd.comp (f := fun p : ((Fin (n + 1) → Vec d) × (Fin (n + 1) → Fin (N + 1))) ×
      ((Fin (n + 1) → Vec d) × (Fin (n + 1) → Fin (N + 1))) => (p.2.2 t, p.1.2 t)) (by fun_prop)
  have e := fun ker : Key → (Fin (n + 1) → Vec d) → (Fin (n + 1) → Fin (N + 1)) → (Fin (n + 1) → ℝ) →
      Ex ((Fin (n + 1) → Vec d) × (Fin (n + 1) → Fin (N + 1))) =>
    congrFun (C49_sampling (m := Ex) key s.1 s.2 (fun key s => ker key s.1 s.2 δ) k 1) fun r => f (runOf (csmcSv adapt ker) r)
  refine (le_of_eq (e ker)).trans (le_trans ?_ (add_le_add_left (le_of_eq (e ker').symm) _))
  exact chain_le (step := fun key s => ker key s.1 s.2 δ) (step' := fun key s => ker' key s.1 s.2 δ) (fun key => (h.markov δ hδ key).ker)
    (fun key => (h'.markov δ hδ key).ker) (fun key s => (h.markov δ hδ key).mass s.1 s.2) (fun key s => (h'.markov δ hδ key).mass s.1 s.2)
    (fun key s => hle key s.1 s.2) (splitKey key k) s (f := fun tr => f (readRun (fun s => s.1) (fun s s' t => boolF (decide (s'.2 t ≠ s.2 t))) tr))
    (hf.comp (measurable_readRun hX hP)) fun _ => h1 _

/-- The chains. -/
theorem sv_chains_le (h : StepOK Dok ker) (h' : StepOK Dok ker') {δ : Fin (n + 1) → ℝ} (hδ : Dok δ)
    (hle : ∀ key x b f, Measurable f → (∀ a, f a ≤ 1) → ker key x b δ f ≤ ker' key x b δ f + ε) (kb ks : Key) (burnin n_samples : ℕ)
    (x : Fin (n + 1) → Vec d) (b : Fin (n + 1) → Fin (N + 1)) :
    (∀ F : (Fin M → Run (strideLen n_samples 1) (n + 1) d) → ℝ≥0∞, Measurable F → (∀ a, F a ≤ 1) →
      sv_chains kb ks (csmcSv adapt ker) (x, b) (.perStep δ) burnin n_samples M (fun c => F fun i => runOf _ (c i)) ≤
      sv_chains kb ks (csmcSv adapt ker') (x, b) (.perStep δ) burnin n_samples M (fun c => F fun i => runOf _ (c i)) +
        M * ((n_samples + burnin : ℕ) * ε)) ∧
    ∀ (f : Run (strideLen n_samples 1) (n + 1) d → ℝ≥0∞) (j : Fin M), Measurable f → (∀ a, f a ≤ 1) →
      sv_chains kb ks (csmcSv adapt ker) (x, b) (.perStep δ) burnin n_samples M (fun c => f (runOf _ (c j))) ≤
      sv_chains kb ks (csmcSv adapt ker') (x, b) (.perStep δ) burnin n_samples M (fun c => f (runOf _ (c j))) + (n_samples + burnin : ℕ) * ε := by
  obtain ⟨ν, _, h1, _, h2⟩ := csmcSv_longRuns (adapt := adapt) (h.chains hδ) burnin n_samples x
  obtain ⟨ν', _, h1', _, h2'⟩ := csmcSv_longRuns (adapt := adapt) (h'.chains hδ) burnin n_samples x
  have hν : ∀ f, Measurable f → (∀ a, f a ≤ 1) → ∫⁻ o, f o ∂ν ≤ ∫⁻ o, f o ∂ν' + (n_samples + burnin : ℕ) * ε := fun f hf hf1 => by
    rw [← h1 [] f hf, ← h1' [] f hf]
    exact csmcSv_all_le h h' hδ hle [] (n_samples + burnin) _ (f := fun r => f (r.drop burnin)) (hf.comp (measurable_drop burnin)) fun _ => hf1 _
  refine ⟨fun F hF hF1 => ?_, fun f j hf hf1 => ?_⟩
  · rw [h2 M kb ks b F hF, h2' M kb ks b F hF]
    exact pi_le hν hF hF1
  · rw [h2 M kb ks b (fun c => f (c j)) (by fun_prop), h2' M kb ks b (fun c => f (c j)) (by fun_prop),
      (measurePreserving_eval (fun _ : Fin M => ν) j).lintegral_comp hf, (measurePreserving_eval (fun _ : Fin M => ν') j).lintegral_comp hf]
    exact hν f hf hf1

theorem sv_chains_measurable (h : StepOK Dok ker) {δ : Fin (n + 1) → ℝ} (hδ : Dok δ) (kb ks : Key) (burnin n_samples : ℕ)
    (b : Fin (n + 1) → Fin (N + 1)) {F : (Fin M → Run (strideLen n_samples 1) (n + 1) d) → ℝ≥0∞} (hF : Measurable F) :
    (Measurable fun x => sv_chains kb ks (csmcSv adapt ker) (x, b) (.perStep δ) burnin n_samples M (fun c => F fun i => runOf _ (c i))) ∧
    ((∀ a, F a ≤ 1) → ∀ x, sv_chains kb ks (csmcSv adapt ker) (x, b) (.perStep δ) burnin n_samples M (fun c => F fun i => runOf _ (c i)) ≤ 1) := by
  have e : ∀ x, sv_chains kb ks (csmcSv adapt ker) (x, b) (.perStep δ) burnin n_samples M (fun c => F fun i => runOf _ (c i)) =
      longRuns (fun _ : Fin M => []) (csmcSv adapt ker) ((csmcSv adapt ker).init x) (.perStep δ) burnin n_samples F := fun x => by
    obtain ⟨ν, _, _, h2, h3⟩ := csmcSv_longRuns (adapt := adapt) (h.chains hδ) burnin n_samples x
    rw [h3 M kb ks b F hF, h2 M _ F hF]
  refine ⟨?_, fun h1 x => ?_⟩
  · simp only [e]
    exact csmcSv_longRuns_measurable (h.chains hδ) burnin n_samples _ hF
  · obtain ⟨ν, _, _, h2, h3⟩ := csmcSv_longRuns (adapt := adapt) (h.chains hδ) burnin n_samples x
    rw [h3 M kb ks b F hF]
    exact (lintegral_mono h1).trans (by rw [lintegral_one, measure_univ])

/-- The adaptation and the chains. -/
theorem adaptedRuns_le {cfg : AdaptCfg} {delta_init : ℝ}
    (hA : ∀ (ker : Key → (Fin (n + 1) → Vec d) → (Fin (n + 1) → Fin (N + 1)) → (Fin (n + 1) → ℝ) →
        Ex ((Fin (n + 1) → Vec d) × (Fin (n + 1) → Fin (N + 1)))) key x b δ k, adapt key x b (fun k s δ => ker k s.1 s.2 δ) cfg W δ k =
      scanM (updBody upd fun k s δ => ker k s.1 s.2 δ) ⟨x, b, δ, fun _ => nanHistory W⟩ (stepInputs key k) >>=
        fun r => pure ((r.1.xs, r.1.bs), r.1.deltas))
    (hupd : ∀ i a δ, Dok (upd i a δ)) (h0 : Dok fun _ => delta_init * 1) (h : StepOK Dok ker) (h' : StepOK Dok ker')
    (hle : ∀ δ, Dok δ → ∀ key x b f, Measurable f → (∀ a, f a ≤ 1) → ker key x b δ f ≤ ker' key x b δ f + ε)
    (adaptation burnin n_samples : ℕ) (ka kb ks : Key) (x : Traj (n + 1) d) :
    (∀ f : StepSize (n + 1) → (Fin M → Run (strideLen n_samples 1) (n + 1) d) → ℝ≥0∞, (∀ δ, Measurable (f δ)) → (∀ δ c, f δ c ≤ 1) →
      adaptedRuns (csmcSv adapt ker) cfg W delta_init adaptation burnin n_samples ka kb ks x (fun o => f o.1 o.2) ≤
      adaptedRuns (csmcSv adapt ker') cfg W delta_init adaptation burnin n_samples ka kb ks x (fun o => f o.1 o.2) +
        (adaptation * ε + M * ((n_samples + burnin : ℕ) * ε))) ∧
    ∀ (f : StepSize (n + 1) → Run (strideLen n_samples 1) (n + 1) d → ℝ≥0∞) (j : Fin M), (∀ δ, Measurable (f δ)) → (∀ δ c, f δ c ≤ 1) →
      adaptedRuns (csmcSv adapt ker) cfg W delta_init adaptation burnin n_samples ka kb ks x (fun o => f o.1 (o.2 j)) ≤
      adaptedRuns (csmcSv adapt ker') cfg W delta_init adaptation burnin n_samples ka kb ks x (fun o => f o.1 (o.2 j)) +
        (adaptation * ε + (n_samples + burnin : ℕ) * ε) := by
  have e : ∀ (ker : Key → (Fin (n + 1) → Vec d) → (Fin (n + 1) → Fin (N + 1)) → (Fin (n + 1) → ℝ) →
        Ex ((Fin (n + 1) → Vec d) × (Fin (n + 1) → Fin (N + 1)))) (f : StepSize (n + 1) → (Fin M → Run (strideLen n_samples 1) (n + 1) d) → ℝ≥0∞),
      adaptedRuns (csmcSv adapt ker) cfg W delta_init adaptation burnin n_samples ka kb ks x (fun o => f o.1 o.2) =
      updScan upd ker adaptation (fun j => j) (splitKey ka adaptation) x (fun _ => 0) (fun _ => delta_init * 1) (fun _ => nanHistory W)
        (fun x b δ => sv_chains kb ks (csmcSv adapt ker) (x, b) (.perStep δ) burnin n_samples M (fun c => f (.perStep δ) fun i => runOf _ (c i))) :=
    fun ker f => congrFun (hA ker ka x (fun _ => 0) (fun _ => delta_init * 1) adaptation) fun r =>
      sv_chains kb ks (csmcSv adapt ker) r.1 (.perStep r.2) burnin n_samples M (fun c => f (.perStep r.2) fun i => runOf _ (c i))
  refine ⟨fun f hf hf1 => ?_, fun f j hf hf1 => ?_⟩
  · rw [e, e]
    exact updScan_le h h' hupd hle (fun b δ hδ => (sv_chains_measurable h hδ kb ks burnin n_samples b (hf _)).1)
      (fun b δ hδ => (sv_chains_measurable h' hδ kb ks burnin n_samples b (hf _)).1)
      (fun x b δ hδ => (sv_chains_measurable h' hδ kb ks burnin n_samples b (hf _)).2 (hf1 _) x)
      (fun x b δ hδ => (sv_chains_le h h' hδ (hle δ hδ) kb ks burnin n_samples x b).1 _ (hf _) (hf1 _)) adaptation _ _ _ _ h0 _ x
  · rw [e ker fun δ c => f δ (c j), e ker' fun δ c => f δ (c j)]
    have hfj : ∀ δ, Measurable fun c : Fin M → Run (strideLen n_samples 1) (n + 1) d => f δ (c j) := fun δ => (hf δ).comp (measurable_pi_apply j)
    exact updScan_le h h' hupd hle (fun b δ hδ => (sv_chains_measurable h hδ kb ks burnin n_samples b (hfj _)).1)
      (fun b δ hδ => (sv_chains_measurable h' hδ kb ks burnin n_samples b (hfj _)).1)
      (fun x b δ hδ => (sv_chains_measurable h' hδ kb ks burnin n_samples b (hfj _)).2 (fun _ => hf1 _ _) x)
      (fun x b δ hδ => (sv_chains_le h h' hδ (hle δ hδ) kb ks burnin n_samples x b).2 _ j (hf _) (hf1 _)) adaptation _ _ _ _ h0 _ x

theorem adaptedRuns_measurable {cfg : AdaptCfg} {delta_init : ℝ}
    (hA : ∀ (ker : Key → (Fin (n + 1) → Vec d) → (Fin (n + 1) → Fin (N + 1)) → (Fin (n + 1) → ℝ) →
        Ex ((Fin (n + 1) → Vec d) × (Fin (n + 1) → Fin (N + 1)))) key x b δ k, adapt key x b (fun k s δ => ker k s.1 s.2 δ) cfg W δ k =
      scanM (updBody upd fun k s δ => ker k s.1 s.2 δ) ⟨x, b, δ, fun _ => nanHistory W⟩ (stepInputs key k) >>=
        fun r => pure ((r.1.xs, r.1.bs), r.1.deltas))
    (hupd : ∀ i a δ, Dok (upd i a δ)) (h0 : Dok fun _ => delta_init * 1) (h : StepOK Dok ker) (adaptation burnin n_samples : ℕ) (ka kb ks : Key)
    {f : StepSize (n + 1) → (Fin M → Run (strideLen n_samples 1) (n + 1) d) → ℝ≥0∞} (hf : ∀ δ, Measurable (f δ)) :
    Measurable fun x => adaptedRuns (csmcSv adapt ker) cfg W delta_init adaptation burnin n_samples ka kb ks x (fun o => f o.1 o.2) := by
  have e : ∀ x, adaptedRuns (csmcSv adapt ker) cfg W delta_init adaptation burnin n_samples ka kb ks x (fun o => f o.1 o.2) =
      updScan upd ker adaptation (fun j => j) (splitKey ka adaptation) x (fun _ => 0) (fun _ => delta_init * 1) (fun _ => nanHistory W)
        (fun x b δ => sv_chains kb ks (csmcSv adapt ker) (x, b) (.perStep δ) burnin n_samples M (fun c => f (.perStep δ) fun i => runOf _ (c i))) :=
    fun x => congrFun (hA ker ka x (fun _ => 0) (fun _ => delta_init * 1) adaptation) fun r =>
      sv_chains kb ks (csmcSv adapt ker) r.1 (.perStep r.2) burnin n_samples M (fun c => f (.perStep r.2) fun i => runOf _ (c i))
  simp only [e]
  exact (updScan_measurable h hupd adaptation _ _ _ _ h0 _ _ fun b δ hδ => (sv_chains_measurable h hδ kb ks burnin n_samples b (hf _)).1).1

end Verif
