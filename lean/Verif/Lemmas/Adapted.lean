import Verif.Lemmas.ConsistentRuns
import Verif.Lemmas.SvKernels

/-!
# The law of the state and of the step sizes after the adaptation

The step sizes only depend on the acceptance flags, that is, on the indices. So after a given number of steps they take finitely many
values, and the law of the state splits into finitely many parts, one for each sequence of indices. A step maps laws with a density
to laws with a density.
-/

open scoped ENNReal
open MeasureTheory ProbabilityTheory

namespace Verif
open Verif.Model Verif.Spec Verif.Props

variable {N n d W : ℕ}

/-- One step of a kernel, and an update of the step sizes from the history of acceptance flags. -/
noncomputable def updBody (upd : ℕ → (Fin (n + 1) → Fin (W + 1) → Option ℝ) → (Fin (n + 1) → ℝ) → Fin (n + 1) → ℝ)
    (kernel : Key → (Fin (n + 1) → Vec d) × (Fin (n + 1) → Fin (N + 1)) → (Fin (n + 1) → ℝ) →
      Ex ((Fin (n + 1) → Vec d) × (Fin (n + 1) → Fin (N + 1))))
    (c : AdaptCarry (Vec d) (Fin (N + 1)) (n + 1) W) (inp : ℕ × Key) : Ex (AdaptCarry (Vec d) (Fin (N + 1)) (n + 1) W × Unit) := do
  let next ← kernel inp.2 (c.xs, c.bs) c.deltas
  let h := fun t => pushHistory (c.history t) (some (boolF (acceptedFlags next.2 c.bs t)))
  pure (⟨next.1, next.2, upd inp.1 h c.deltas, h⟩, ())

/-- What is needed of a kernel, for all step sizes that occur. -/
structure AdaptOK (vol : Measure (Fin (n + 1) → Vec d)) (Dok : (Fin (n + 1) → ℝ) → Prop)
    (kernel : Key → (Fin (n + 1) → Vec d) × (Fin (n + 1) → Fin (N + 1)) → (Fin (n + 1) → ℝ) →
      Ex ((Fin (n + 1) → Vec d) × (Fin (n + 1) → Fin (N + 1)))) : Prop where
  markov : ∀ δ, Dok δ → MarkovStep fun x b => kernel [] (x, b) δ
  free : ∀ δ, Dok δ → ∀ key x b f, Measurable f → kernel key (x, b) δ f = kernel [] (x, b) δ f
  null : ∀ δ, Dok δ → ∀ b A, MeasurableSet A → vol A = 0 → ∀ᵐ x ∂vol, kernel [] (x, b) δ (fun r => A.indicator (fun _ => 1) r.1) = 0

/-- A family of laws, one for each outcome of the indices. -/
structure Parts (vol : Measure (Fin (n + 1) → Vec d)) (Dok : (Fin (n + 1) → ℝ) → Prop) (N : ℕ) where
  ι : Type
  fin : Fintype ι
  μ : ι → Measure (Fin (n + 1) → Vec d)
  b : ι → Fin (n + 1) → Fin (N + 1)
  δ : ι → Fin (n + 1) → ℝ
  finite : ∀ i, IsFiniteMeasure (μ i)
  ac : ∀ i, μ i ≪ vol
  ok : ∀ i, Dok (δ i)

variable {vol : Measure (Fin (n + 1) → Vec d)} {Dok : (Fin (n + 1) → ℝ) → Prop}
  {kernel : Key → (Fin (n + 1) → Vec d) × (Fin (n + 1) → Fin (N + 1)) → (Fin (n + 1) → ℝ) →
    Ex ((Fin (n + 1) → Vec d) × (Fin (n + 1) → Fin (N + 1)))}
  {upd : ℕ → (Fin (n + 1) → Fin (W + 1) → Option ℝ) → (Fin (n + 1) → ℝ) → Fin (n + 1) → ℝ}

/-- Average of a function of the state and of the step sizes. -/
noncomputable def Parts.mean (P : Parts vol Dok N) (F : (Fin (n + 1) → Vec d) → (Fin (n + 1) → Fin (N + 1)) → (Fin (n + 1) → ℝ) → ℝ≥0∞) : ℝ≥0∞ :=
  letI := P.fin
  ∑ i, ∫⁻ x, F x (P.b i) (P.δ i) ∂P.μ i

/-- Total mass. -/
noncomputable def Parts.mass (P : Parts vol Dok N) : ℝ≥0∞ :=
  letI := P.fin
  ∑ i, P.μ i Set.univ

/-- The law after one step, for each outcome of the indices. -/
theorem AdaptOK.step (h : AdaptOK vol Dok kernel) {ν : Measure (Fin (n + 1) → Vec d)} [IsFiniteMeasure ν] (hν : ν ≪ vol)
    (b : Fin (n + 1) → Fin (N + 1)) {δ : Fin (n + 1) → ℝ} (hδ : Dok δ) :
    ∃ μ : (Fin (n + 1) → Fin (N + 1)) → Measure (Fin (n + 1) → Vec d), (∀ b', IsFiniteMeasure (μ b') ∧ μ b' ≪ vol) ∧
      ∑ b', μ b' Set.univ = ν Set.univ ∧
      ∀ (key : Key) (G : (Fin (n + 1) → Fin (N + 1)) → (Fin (n + 1) → Vec d) → ℝ≥0∞), (∀ b', Measurable (G b')) →
        ∫⁻ x, kernel key (x, b) δ (fun r => G r.2 r.1) ∂ν = ∑ b', ∫⁻ x, G b' x ∂μ b' := by
  obtain ⟨κ, _, hκ⟩ := (h.markov δ hδ).ker
  let κb : Kernel (Fin (n + 1) → Vec d) ((Fin (n + 1) → Vec d) × (Fin (n + 1) → Fin (N + 1))) := κ.comap (fun x => (x, b)) (by fun_prop)
  let ρ := κb ∘ₘ ν
  have hρ : ∀ g, Measurable g → ∫⁻ r, g r ∂ρ = ∫⁻ x, kernel [] (x, b) δ g ∂ν := fun g hg => by
    rw [Measure.lintegral_bind (by fun_prop) (by fun_prop)]
    exact lintegral_congr fun x => (hκ (x, b) g hg).symm
  have hS : ∀ b', MeasurableSet {r : (Fin (n + 1) → Vec d) × (Fin (n + 1) → Fin (N + 1)) | r.2 = b'} := fun b' =>
    measurable_snd (measurableSet_singleton b')
  have hmass : ρ Set.univ = ν Set.univ := by
    have := hρ (fun _ => 1) measurable_const
    simpa [(h.markov δ hδ).mass] using this
  have : IsFiniteMeasure ρ := ⟨by rw [hmass]; exact measure_lt_top _ _⟩
  let μ b' := (ρ.restrict {r | r.2 = b'}).map Prod.fst
  have hμ : ∀ (G : (Fin (n + 1) → Fin (N + 1)) → (Fin (n + 1) → Vec d) → ℝ≥0∞), (∀ b', Measurable (G b')) →
      ∫⁻ r, G r.2 r.1 ∂ρ = ∑ b', ∫⁻ x, G b' x ∂μ b' := fun G hG => by
    have e : ∀ r : (Fin (n + 1) → Vec d) × (Fin (n + 1) → Fin (N + 1)), G r.2 r.1 =
        ∑ b', {r : (Fin (n + 1) → Vec d) × (Fin (n + 1) → Fin (N + 1)) | r.2 = b'}.indicator (fun r => G b' r.1) r := fun r => by
      simp only [Set.indicator_apply, Set.mem_ofPred_eq, Finset.sum_ite_eq, Finset.mem_univ, if_true]
    simp only [e]
    have hi : ∀ b' : Fin (n + 1) → Fin (N + 1), Measurable ({r : (Fin (n + 1) → Vec d) × (Fin (n + 1) → Fin (N + 1)) | r.2 = b'}.indicator
        fun r => G b' r.1) := fun b' => Measurable.indicator ((hG b').comp measurable_fst) (hS b')
    rw [lintegral_finsetSum _ fun b' _ => hi b']
    refine Finset.sum_congr rfl fun b' _ => ?_
    rw [lintegral_indicator (hS b'), lintegral_map (hG b') measurable_fst]
  have hle : ∀ b' A, MeasurableSet A → μ b' A ≤ ∫⁻ x, kernel [] (x, b) δ (fun r => A.indicator (fun _ => 1) r.1) ∂ν := fun b' A hA => by
    have hi : Measurable fun r : (Fin (n + 1) → Vec d) × (Fin (n + 1) → Fin (N + 1)) => A.indicator (fun _ => (1 : ℝ≥0∞)) r.1 :=
      (measurable_const.indicator hA).comp measurable_fst
    rw [← hρ _ hi, Measure.map_apply measurable_fst hA]
    refine (Measure.restrict_apply_le _ _).trans (le_of_eq ?_)
    rw [show (fun r : (Fin (n + 1) → Vec d) × (Fin (n + 1) → Fin (N + 1)) => A.indicator (fun _ => (1 : ℝ≥0∞)) r.1) =
      (Prod.fst ⁻¹' A).indicator 1 from rfl, lintegral_indicator_one (measurable_fst hA)]
  refine ⟨μ, fun b' => ⟨inferInstance, Measure.AbsolutelyContinuous.mk fun A hA h0 => ?_⟩, ?_, fun key G hG => ?_⟩
  · refine le_antisymm ((hle b' A hA).trans (le_of_eq ?_)) zero_le
    rw [lintegral_congr_ae (hν.ae_le (h.null δ hδ b A hA h0)), lintegral_zero]
  · have := hμ (fun _ _ => 1) fun _ => measurable_const
    simp only [lintegral_one] at this
    rw [← this, hmass]
  · have hg : Measurable fun r : (Fin (n + 1) → Vec d) × (Fin (n + 1) → Fin (N + 1)) => G r.2 r.1 :=
      measurable_from_prod_countable_left fun b' => hG b'
    rw [← hμ G hG, hρ _ hg]
    exact lintegral_congr fun x => h.free δ hδ key x b _ hg

/-- The law of the state and of the step sizes after `k` steps. -/
theorem AdaptOK.scan (h : AdaptOK vol Dok kernel) (hupd : ∀ i a δ, Dok (upd i a δ)) : ∀ (k : ℕ) (idx : Fin k → ℕ)
    (b : Fin (n + 1) → Fin (N + 1)) (δ : Fin (n + 1) → ℝ), Dok δ → ∀ (a : Fin (n + 1) → Fin (W + 1) → Option ℝ),
    (∀ (keys : Fin k → Key) (F : (Fin (n + 1) → Vec d) → (Fin (n + 1) → Fin (N + 1)) → (Fin (n + 1) → ℝ) → ℝ≥0∞), (∀ b δ, Dok δ → Measurable fun x => F x b δ) →
      Measurable fun x => scanM (updBody upd kernel) ⟨x, b, δ, a⟩ (fun j => (idx j, keys j)) (fun r => F r.1.xs r.1.bs r.1.deltas)) ∧
    ∀ (ν : Measure (Fin (n + 1) → Vec d)) [IsFiniteMeasure ν], ν ≪ vol →
    ∃ P : Parts vol Dok N, P.mass = ν Set.univ ∧ ∀ (keys : Fin k → Key) (F : (Fin (n + 1) → Vec d) → (Fin (n + 1) → Fin (N + 1)) → (Fin (n + 1) → ℝ) → ℝ≥0∞), (∀ b δ, Dok δ → Measurable fun x => F x b δ) →
      ∫⁻ x, scanM (updBody upd kernel) ⟨x, b, δ, a⟩ (fun j => (idx j, keys j)) (fun r => F r.1.xs r.1.bs r.1.deltas) ∂ν = P.mean F := by
  intro k
  induction k with
  | zero =>
    intro idx b δ hδ a
    refine ⟨fun keys F hF => hF b δ hδ, fun ν _ hν => ⟨⟨Unit, inferInstance, fun _ => ν, fun _ => b, fun _ => δ, fun _ => inferInstance,
      fun _ => hν, fun _ => hδ⟩, ?_, fun keys F hF => ?_⟩⟩
    · simp [Parts.mass]
    · simp only [Parts.mean, Finset.univ_unique, Finset.sum_singleton]
      rfl
  | succ k ih =>
    intro idx b δ hδ a
    let a' (b' : Fin (n + 1) → Fin (N + 1)) : Fin (n + 1) → Fin (W + 1) → Option ℝ :=
      fun t => pushHistory (a t) (some (boolF (acceptedFlags b' b t)))
    let δ' (b' : Fin (n + 1) → Fin (N + 1)) := upd (idx 0) (a' b') δ
    have IH := fun b' => ih (tailA idx) b' (δ' b') (hupd _ _ _) (a' b')
    have e : ∀ (keys : Fin (k + 1) → Key) (F : (Fin (n + 1) → Vec d) → (Fin (n + 1) → Fin (N + 1)) → (Fin (n + 1) → ℝ) → ℝ≥0∞) x, scanM (updBody upd kernel) ⟨x, b, δ, a⟩ (fun j => (idx j, keys j))
        (fun r => F r.1.xs r.1.bs r.1.deltas) = kernel (keys 0) (x, b) δ (fun r =>
          scanM (updBody upd kernel) ⟨r.1, r.2, δ' r.2, a' r.2⟩ (fun j => (tailA idx j, tailA keys j)) (fun r => F r.1.xs r.1.bs r.1.deltas)) :=
      fun keys F x => rfl
    refine ⟨fun keys F hF => ?_, fun ν _ hν => ?_⟩
    · simp only [e]
      have hg : Measurable fun r : (Fin (n + 1) → Vec d) × (Fin (n + 1) → Fin (N + 1)) =>
          scanM (updBody upd kernel) ⟨r.1, r.2, δ' r.2, a' r.2⟩ (fun j => (tailA idx j, tailA keys j)) (fun r => F r.1.xs r.1.bs r.1.deltas) :=
        measurable_from_prod_countable_left fun b' => (IH b').1 (tailA keys) F hF
      simp only [h.free δ hδ (keys 0) _ b _ hg]
      exact ((h.markov δ hδ).ker.measurable' hg).comp (by fun_prop : Measurable fun x : Fin (n + 1) → Vec d => (x, b))
    · obtain ⟨μ, hμ1, hμ2, hμ⟩ := h.step hν b hδ
      have := fun b' => (hμ1 b').1
      choose P hP1 hP2 using fun b' => (IH b').2 (μ b') (hμ1 b').2
      let _ := fun b' => (P b').fin
      refine ⟨⟨Σ b', (P b').ι, inferInstance, fun p => (P p.1).μ p.2, fun p => (P p.1).b p.2, fun p => (P p.1).δ p.2,
        fun p => (P p.1).finite p.2, fun p => (P p.1).ac p.2, fun p => (P p.1).ok p.2⟩, ?_, fun keys F hF => ?_⟩
      · rw [← hμ2]
        simp only [← hP1]
        exact Fintype.sum_sigma (fun p : Σ b', (P b').ι => (P p.1).μ p.2 Set.univ)
      · simp only [e]
        rw [hμ (keys 0) (fun b' x => scanM (updBody upd kernel) ⟨x, b', δ' b', a' b'⟩ (fun j => (tailA idx j, tailA keys j))
          (fun r => F r.1.xs r.1.bs r.1.deltas)) fun b' => (IH b').1 (tailA keys) F hF]
        simp only [hP2 _ (tailA keys) F hF]
        exact (Fintype.sum_sigma (fun p : Σ b', (P b').ι => ∫⁻ x, F x ((P p.1).b p.2) ((P p.1).δ p.2) ∂(P p.1).μ p.2)).symm

/-- A kernel that keeps a law with a positive density maps laws with a density to such laws. -/
theorem CsmcOK.null {l : (Fin (n + 1) → Vec d) → ℝ}
    {K : Key → (Fin (n + 1) → Vec d) → (Fin (n + 1) → Fin (N + 1)) → Ex ((Fin (n + 1) → Vec d) × (Fin (n + 1) → Fin (N + 1)))}
    (h : CsmcOK 0 l K) (hl : Measurable l) (b : Fin (n + 1) → Fin (N + 1)) {A : Set (Fin (n + 1) → Vec d)} (hA : MeasurableSet A)
    (h0 : trajVol (n + 1) d A = 0) : ∀ᵐ x ∂trajVol (n + 1) d, K [] x b (fun r => A.indicator (fun _ => 1) r.1) = 0 := by
  have hf : Measurable fun r : (Fin (n + 1) → Vec d) × (Fin (n + 1) → Fin (N + 1)) => A.indicator (fun _ => (1 : ℝ≥0∞)) r.1 :=
    (measurable_const.indicator hA).comp measurable_fst
  have h1 := (h.near [] _ hf fun r => by
    by_cases hr : r.1 ∈ A <;> simp [hr]).1
  simp only [zero_mul, add_zero] at h1
  have h2 : ∀ b : Fin (n + 1) → Fin (N + 1), ∫⁻ x, ENNReal.ofReal (Real.exp (l x)) * A.indicator (fun _ => (1 : ℝ≥0∞)) x ∂trajVol (n + 1) d = 0 := fun b => by
    refine (lintegral_congr_ae (g := fun _ => 0) ?_).trans lintegral_zero
    have : ∀ᵐ x ∂trajVol (n + 1) d, x ∉ A := measure_eq_zero_iff_ae_notMem.mp h0
    filter_upwards [this] with x hx
    simp [hx]
  have h3 : ∑ b : Fin (n + 1) → Fin (N + 1), ∫⁻ x, ENNReal.ofReal (Real.exp (l x)) * K [] x b (fun r => A.indicator (fun _ => 1) r.1) ∂trajVol (n + 1) d = 0 :=
    le_antisymm (h1.trans (le_of_eq (Finset.sum_eq_zero fun b _ => h2 b))) zero_le
  have h4 := (Finset.sum_eq_zero_iff.mp h3) b (Finset.mem_univ _)
  have hm : Measurable fun x => ENNReal.ofReal (Real.exp (l x)) * K [] x b (fun r => A.indicator (fun _ => 1) r.1) :=
    (measurable_expR hl).mul (((h.markov []).ker.measurable' hf).comp (by fun_prop : Measurable fun x : Fin (n + 1) → Vec d => (x, b)))
  filter_upwards [(lintegral_eq_zero_iff hm).mp h4] with x hx
  exact (mul_eq_zero.mp hx).resolve_left (ENNReal.ofReal_pos.mpr (Real.exp_pos _)).ne'

/-! ## Runs after the adaptation -/

/-- One of the chains of an experiment. -/
theorem ChainsOK.one {T M : ℕ} {K : SvKernel Ex T d} {delta : StepSize T} {Good : K.S → Prop} (h : ChainsOK K delta Good) {s : K.S}
    (hs : Good s) (burnin n_samples : ℕ) (burnin_key sample_key key : Key) (j : Fin M) {f : Run (strideLen n_samples 1) T d → ℝ≥0∞}
    (hf : Measurable f) :
    sv_chains burnin_key sample_key K s delta burnin n_samples M (fun c => f (runOf K (c j))) =
      K.experiment_all key s (fun k s => K.kernel k s delta) (n_samples + burnin) fun r => f ((runOf K r).drop burnin) := by
  obtain ⟨ν, _, h1, h2⟩ := h.law hs burnin n_samples
  rw [h2 M burnin_key sample_key (fun c => f (c j)) (by fun_prop), ← h1 key f hf]
  exact (measurePreserving_eval (fun _ : Fin M => ν) j).lintegral_comp hf

variable {adapt : Key → (Fin (n + 1) → Vec d) → (Fin (n + 1) → Fin (N + 1)) →
      (Key → (Fin (n + 1) → Vec d) × (Fin (n + 1) → Fin (N + 1)) → (Fin (n + 1) → ℝ) →
        Ex ((Fin (n + 1) → Vec d) × (Fin (n + 1) → Fin (N + 1)))) → AdaptCfg → ℕ → (Fin (n + 1) → ℝ) → ℕ →
      Ex (((Fin (n + 1) → Vec d) × (Fin (n + 1) → Fin (N + 1))) × (Fin (n + 1) → ℝ))}
  {ker : Key → (Fin (n + 1) → Vec d) → (Fin (n + 1) → Fin (N + 1)) → (Fin (n + 1) → ℝ) →
      Ex ((Fin (n + 1) → Vec d) × (Fin (n + 1) → Fin (N + 1)))}

/-- A run of a conditional SMC kernel does not depend on the indices of its first state. -/
theorem csmcSv_start {delta : StepSize (n + 1)} (h : ChainsOK (csmcSv adapt ker) delta fun _ => True) (key : Key) (k : ℕ)
    (x : Fin (n + 1) → Vec d) (b : Fin (n + 1) → Fin (N + 1)) {f : Run (strideLen k 1) (n + 1) d → ℝ≥0∞} (hf : Measurable f) :
    (csmcSv adapt ker).experiment_all key (x, b) (fun k s => (csmcSv adapt ker).kernel k s delta) k (fun r => f (runOf _ r)) =
    (csmcSv adapt ker).experiment_all key ((csmcSv adapt ker).init x) (fun k s => (csmcSv adapt ker).kernel k s delta) k (fun r => f (runOf _ r)) :=
  (h.restart (x, b) trivial 0 k [] key key f hf).symm

/-- The law of one chain after the adaptation is a finite mixture of the laws of chains with frozen step sizes, which start from laws with
a density. -/
structure Mixture (vol : Measure (Traj (n + 1) d)) (Dok : (Fin (n + 1) → ℝ) → Prop) where
  ι : Type
  fin : Fintype ι
  w : ι → ℝ≥0∞
  μ : ι → Measure (Traj (n + 1) d)
  δ : ι → Fin (n + 1) → ℝ
  prob : ∀ i, IsProbabilityMeasure (μ i)
  ac : ∀ i, μ i ≪ vol
  ok : ∀ i, Dok (δ i)
  sum : letI := fin; ∑ i, w i = 1

/-- The adapted step sizes and the chains after the adaptation. -/
noncomputable def adaptedRuns {M : ℕ} (K : SvKernel Ex (n + 1) d) (cfg : AdaptCfg) (W : ℕ) (delta_init : ℝ) (adaptation burnin n_samples : ℕ)
    (adaptation_key burnin_key sample_key : Key) (x : Traj (n + 1) d) :
    Ex (StepSize (n + 1) × (Fin M → Run (strideLen n_samples 1) (n + 1) d)) := do
  let r ← K.adaptation_loop adaptation_key (K.init x) K.kernel cfg W delta_init adaptation
  let c ← sv_chains burnin_key sample_key K r.1 r.2 burnin n_samples M
  pure (r.2, fun i => runOf K (c i))

theorem measurable_drop {k T : ℕ} (b : ℕ) : Measurable fun r : Run (strideLen (k + b) 1) T d => r.drop b := by
  unfold Run.drop dropFirst
  fun_prop

/-- Independent runs of a conditional SMC kernel have a product law. -/
theorem csmcSv_longRuns {delta : StepSize (n + 1)} (h : ChainsOK (csmcSv adapt ker) delta fun _ => True) (burnin n_samples : ℕ)
    (x : Fin (n + 1) → Vec d) : ∃ ν : Measure (Run (strideLen n_samples 1) (n + 1) d), IsProbabilityMeasure ν ∧
      (∀ key f, Measurable f → (csmcSv adapt ker).experiment_all key ((csmcSv adapt ker).init x)
        (fun k s => (csmcSv adapt ker).kernel k s delta) (n_samples + burnin) (fun r => f ((runOf _ r).drop burnin)) = ∫⁻ r, f r ∂ν) ∧
      (∀ M keys F, Measurable F → longRuns (M := M) keys (csmcSv adapt ker) ((csmcSv adapt ker).init x) delta burnin n_samples F =
        ∫⁻ c, F c ∂Measure.pi fun _ => ν) ∧
      ∀ M kb ks b F, Measurable F → sv_chains kb ks (csmcSv adapt ker) (x, b) delta burnin n_samples M (fun c => F fun i => runOf _ (c i)) =
        ∫⁻ c, F c ∂Measure.pi fun _ => ν := by
  obtain ⟨ν, hν, h1, h2⟩ := h.law (s := (csmcSv adapt ker).init x) trivial burnin n_samples
  refine ⟨ν, hν, fun key f hf => (h1 key f hf).symm, fun M keys F hF => ?_, fun M kb ks b F hF => ?_⟩
  · exact vmapM_iid (μ := fun _ => ν) (fun i f hf => (h1 (keys i) f hf).symm) hF
  · obtain ⟨ν', _, h1', h2'⟩ := h.law (s := (x, b)) trivial burnin n_samples
    have : ν' = ν := Measure.ext_of_lintegral _ fun f hf => by
      rw [h1' [] f hf, h1 [] f hf]
      exact csmcSv_start h [] (n_samples + burnin) x b (f := fun r => f (r.drop burnin)) (hf.comp (measurable_drop burnin))
    rw [h2' M kb ks F hF, this]

theorem csmcSv_longRuns_measurable {delta : StepSize (n + 1)} (h : ChainsOK (csmcSv adapt ker) delta fun _ => True) (burnin n_samples : ℕ)
    {M : ℕ} (keys : Fin M → Key) {F : (Fin M → Run (strideLen n_samples 1) (n + 1) d) → ℝ≥0∞} (hF : Measurable F) :
    Measurable fun x => longRuns keys (csmcSv adapt ker) ((csmcSv adapt ker).init x) delta burnin n_samples F := by
  obtain ⟨g, hg⟩ : ∃ g : Traj (n + 1) d → Ex (Run (strideLen n_samples 1) (n + 1) d), g = fun x =>
    (csmcSv adapt ker).experiment_all [] ((csmcSv adapt ker).init x) (fun k s => (csmcSv adapt ker).kernel k s delta) (n_samples + burnin) >>=
      fun r => pure ((runOf _ r).drop burnin) := ⟨_, rfl⟩
  have hk : IsKer g := by
    rw [hg]
    exact (IsKer.bind (h.ker [] (n_samples + burnin)) (F := fun _ r => pure (r.drop burnin))
      (IsKer.pure ((measurable_drop burnin).comp measurable_snd)))
  have e : ∀ x, longRuns keys (csmcSv adapt ker) ((csmcSv adapt ker).init x) delta burnin n_samples F = vmapM g (fun _ : Fin M => x) F := fun x => by
    obtain ⟨ν, _, h1, h2, _⟩ := csmcSv_longRuns h burnin n_samples x
    rw [h2 M keys F hF]
    exact (vmapM_iid (μ := fun _ => ν) (fun i f hf => by rw [hg]; exact h1 [] f hf) hF).symm
  simp only [e]
  exact ((vmapM_ker (M := M) (g := g) (inp := fun _ x => x) fun _ => hk).measurable' hF).comp (measurable_pi_lambda _ fun _ => measurable_id)

/-- A bound for several runs by bounds for single runs. -/
theorem csmcSv_longRuns_le {delta : StepSize (n + 1)} (h : ChainsOK (csmcSv adapt ker) delta fun _ => True) (burnin n_samples : ℕ)
    {M : ℕ} (keys : Fin M → Key) (key : Key) {ι : Type} [Fintype ι] (j : ι → Fin M) {F : (Fin M → Run (strideLen n_samples 1) (n + 1) d) → ℝ≥0∞}
    (hF : Measurable F) {E : ι → Run (strideLen n_samples 1) (n + 1) d → ℝ≥0∞} (hE : ∀ i, Measurable (E i)) (hle : ∀ c, F c ≤ ∑ i, E i (c (j i)))
    (ν : Measure (Traj (n + 1) d)) :
    ∫⁻ x, longRuns keys (csmcSv adapt ker) ((csmcSv adapt ker).init x) delta burnin n_samples F ∂ν ≤
      ∑ i, ∫⁻ x, (csmcSv adapt ker).experiment_all key ((csmcSv adapt ker).init x) (fun k s => (csmcSv adapt ker).kernel k s delta)
        (n_samples + burnin) (fun r => E i ((runOf _ r).drop burnin)) ∂ν := by
  have hm : ∀ i, Measurable fun x => (csmcSv adapt ker).experiment_all key ((csmcSv adapt ker).init x) (fun k s => (csmcSv adapt ker).kernel k s delta)
      (n_samples + burnin) (fun r => E i ((runOf _ r).drop burnin)) := fun i =>
    (h.ker key (n_samples + burnin)).measurable' ((hE i).comp (measurable_drop burnin))
  rw [← lintegral_finsetSum _ fun i _ => hm i]
  refine lintegral_mono fun x => ?_
  obtain ⟨ρ, _, h1, h2, _⟩ := csmcSv_longRuns h burnin n_samples x
  beta_reduce
  rw [h2 M keys F hF]
  refine (lintegral_mono hle).trans (le_of_eq ?_)
  have hm' : ∀ i, Measurable fun c : Fin M → Run (strideLen n_samples 1) (n + 1) d => E i (c (j i)) := fun i => (hE i).comp (measurable_pi_apply _)
  rw [lintegral_finsetSum _ fun i _ => hm' i]
  refine Finset.sum_congr rfl fun i _ => ?_
  refine Eq.trans ?_ (h1 key (E i) (hE i)).symm
  exact (measurePreserving_eval (fun _ : Fin M => ρ) (j i)).lintegral_comp (hE i)

open Classical in
/-- The law of the chains after the adaptation, with the adapted step sizes. -/
theorem csmcSv_mixture {cfg : AdaptCfg} {delta_init : ℝ} {vol : Measure (Traj (n + 1) d)}
    (hA : ∀ key x b δ k, adapt key x b (fun k s δ => ker k s.1 s.2 δ) cfg W δ k =
      scanM (updBody upd fun k s δ => ker k s.1 s.2 δ) ⟨x, b, δ, fun _ => nanHistory W⟩ (stepInputs key k) >>=
        fun r => pure ((r.1.xs, r.1.bs), r.1.deltas))
    (hupd : ∀ i a δ, Dok (upd i a δ)) (h0 : Dok fun _ => delta_init * 1) (hK : AdaptOK vol Dok fun key s δ => ker key s.1 s.2 δ)
    (hC : ∀ δ, Dok δ → ChainsOK (csmcSv adapt ker) (.perStep δ) fun _ => True)
    {ν : Measure (Traj (n + 1) d)} [IsProbabilityMeasure ν] (hν : ν ≪ vol) (adaptation : ℕ) :
    ∃ Q : Mixture vol Dok, ∀ (M burnin n_samples : ℕ) (ka kb ks : Key) (keys : Fin M → Key)
      (f : StepSize (n + 1) → (Fin M → Run (strideLen n_samples 1) (n + 1) d) → ℝ≥0∞), (∀ δ, Measurable (f δ)) →
      (Measurable fun x => adaptedRuns (csmcSv adapt ker) cfg W delta_init adaptation burnin n_samples ka kb ks x (fun o => f o.1 o.2)) ∧
      ∫⁻ x, adaptedRuns (csmcSv adapt ker) cfg W delta_init adaptation burnin n_samples ka kb ks x (fun o => f o.1 o.2) ∂ν =
        (letI := Q.fin; ∑ i, Q.w i * ∫⁻ x, longRuns keys (csmcSv adapt ker) ((csmcSv adapt ker).init x) (.perStep (Q.δ i)) burnin n_samples
          (f (.perStep (Q.δ i))) ∂Q.μ i) := by
  obtain ⟨hmeas, hP⟩ := hK.scan (W := W) hupd adaptation (fun j => j) (fun _ => 0) _ h0 fun _ => nanHistory W
  obtain ⟨P, hP1, hP2⟩ := hP ν hν
  let _ := P.fin
  have hprob : ∀ i, IsProbabilityMeasure (if P.μ i = 0 then ν else (P.μ i Set.univ)⁻¹ • P.μ i) := fun i => by
    have := P.finite i
    split_ifs with hz
    · infer_instance
    · have : NeZero (P.μ i) := ⟨hz⟩
      exact isProbabilityMeasureSMul
  refine ⟨⟨P.ι, P.fin, fun i => P.μ i Set.univ, fun i => if P.μ i = 0 then ν else (P.μ i Set.univ)⁻¹ • P.μ i, P.δ, hprob, fun i => ?_, P.ok, ?_⟩, ?_⟩
  · split_ifs
    · exact hν
    · exact (Measure.smul_absolutelyContinuous).trans (P.ac i)
  · rw [← measure_univ (μ := ν), ← hP1]
    rfl
  intro M burnin n_samples ka kb ks keys f hf
  -- the chains, from a state and step sizes
  have e1 : ∀ δ, Dok δ → ∀ x b, sv_chains kb ks (csmcSv adapt ker) (x, b) (.perStep δ) burnin n_samples M (fun c => f (.perStep δ) fun i => runOf _ (c i)) =
      longRuns keys (csmcSv adapt ker) ((csmcSv adapt ker).init x) (.perStep δ) burnin n_samples (f (.perStep δ)) := fun δ hδ x b => by
    obtain ⟨_, _, _, h2, h3⟩ := csmcSv_longRuns (hC δ hδ) burnin n_samples x
    rw [h2 M keys _ (hf _)]
    exact h3 M kb ks b _ (hf _)
  have e3 : ∀ x, adaptedRuns (csmcSv adapt ker) cfg W delta_init adaptation burnin n_samples ka kb ks x (fun o => f o.1 o.2) =
      scanM (updBody upd fun k s δ => ker k s.1 s.2 δ) ⟨x, fun _ => 0, fun _ => delta_init * 1, fun _ => nanHistory W⟩ (stepInputs ka adaptation)
        (fun r => sv_chains kb ks (csmcSv adapt ker) (r.1.xs, r.1.bs) (.perStep r.1.deltas) burnin n_samples M
          (fun c => f (.perStep r.1.deltas) fun i => runOf _ (c i))) := fun x =>
    congrFun (hA ka x (fun _ => 0) (fun _ => delta_init * 1) adaptation) fun r =>
      sv_chains kb ks (csmcSv adapt ker) r.1 (.perStep r.2) burnin n_samples M (fun c => f (.perStep r.2) fun i => runOf _ (c i))
  have hF : ∀ b δ, Dok δ → Measurable fun x : Fin (n + 1) → Vec d =>
      sv_chains kb ks (csmcSv adapt ker) (x, b) (.perStep δ) burnin n_samples M (fun c => f (.perStep δ) fun i => runOf _ (c i)) := fun b δ hδ => by
    simp only [e1 δ hδ]
    exact csmcSv_longRuns_measurable (hC δ hδ) burnin n_samples keys (hf _)
  simp only [e3]
  refine ⟨hmeas (splitKey ka adaptation) (fun x b δ => sv_chains kb ks (csmcSv adapt ker) (x, b) (.perStep δ) burnin n_samples M
    (fun c => f (.perStep δ) fun i => runOf _ (c i))) hF, ?_⟩
  refine (hP2 (splitKey ka adaptation) (fun x b δ => sv_chains kb ks (csmcSv adapt ker) (x, b) (.perStep δ) burnin n_samples M
    (fun c => f (.perStep δ) fun i => runOf _ (c i))) hF).trans ?_
  refine Finset.sum_congr rfl fun i _ => ?_
  dsimp only
  simp only [e1 _ (P.ok i)]
  have := P.finite i
  split_ifs with hz
  · simp [hz]
  · rw [lintegral_smul_measure, smul_eq_mul, ← mul_assoc, ENNReal.mul_inv_cancel (fun h => hz (Measure.measure_univ_eq_zero.mp h)) (measure_ne_top _ _), one_mul]

end Verif
