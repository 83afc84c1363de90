import Verif.Spec.Mixing
import Verif.Lemmas.Averages
import Verif.Lemmas.Unique
import Verif.Props.Drivers

/-!
# From kernels that reach everything to samplers that are consistent
-/

open scoped ENNReal
open MeasureTheory ProbabilityTheory

namespace Verif
open Verif.Spec Verif.Model

variable {X : Type} [MeasurableSpace X]

/-- The chain of a part of the state. -/
theorem chain_projM {S S' : Type} [MeasurableSpace S'] {step : Key → S → Ex S} {step' : Key → S' → Ex S'} (hk : ∀ key, IsKer (step' key)) (p : S → S')
    (h : ∀ key s f, Measurable f → step key s (fun s' => f (p s')) = step' key (p s) f) {k : ℕ} (keys : Fin k → Key) (s : S)
    {F : (Fin (k + 1) → S') → ℝ≥0∞} (hF : Measurable F) :
    chain step s keys (fun tr => F fun i => p (tr i)) = chain step' (p s) keys F := by
  induction k generalizing s with
  | zero => rfl
  | succ k ih =>
    show step (keys 0) s (fun s' => chain step s' (tailA keys) fun rest => F fun i => p (insert0 s rest i)) =
      step' (keys 0) (p s) (fun s' => chain step' s' (tailA keys) fun rest => F (insert0 (p s) rest))
    have hG : Measurable fun rest : Fin (k + 1) → S' => F (insert0 (p s) rest) := hF.comp (by
      refine measurable_pi_lambda _ fun i => ?_
      refine Fin.cases ?_ (fun i => ?_) i
      · exact measurable_const
      · exact measurable_pi_apply i)
    rw [← h _ _ _ ((chain_ker hk (tailA keys)).measurable' hG)]
    refine Ex.congr_fun' _ fun s' => ?_
    rw [← ih (tailA keys) s' hG]
    refine Ex.congr_fun' _ fun rest => congrArg F (funext fun i => ?_)
    exact Fin.cases rfl (fun _ => rfl) i

theorem lawOf_ac {lam : Measure X} {l : X → ℝ} : lawOf lam l ≪ lam :=
  (withDensity_absolutelyContinuous _ _).smul_left _

theorem ac_lawOf {lam : Measure X} {l : X → ℝ} (hl : Measurable l)
    (hZ : ∫⁻ x, ENNReal.ofReal (Real.exp (l x)) ∂lam ≠ ∞) : lam ≪ lawOf lam l := by
  intro A hA
  rw [lawOf, Measure.smul_apply, smul_eq_mul, mul_eq_zero] at hA
  rcases hA with hA | hA
  · exact absurd hA (ENNReal.inv_ne_zero.mpr hZ)
  · rw [withDensity_apply_eq_zero' (by fun_prop)] at hA
    refine measure_mono_null ?_ hA
    exact fun x hx => ⟨(ENNReal.ofReal_pos.mpr (Real.exp_pos _)).ne', hx⟩

theorem countablyGenerated_pi [MeasurableSpace.CountablyGenerated X] (k : ℕ) : MeasurableSpace.CountablyGenerated (Fin k → X) := by
  have h : ∀ i : Fin k, ∃ b : Set (Set (Fin k → X)), b.Countable ∧
      MeasurableSpace.comap (fun x : Fin k → X => x i) inferInstance = MeasurableSpace.generateFrom b := fun i =>
    (MeasurableSpace.CountablyGenerated.comap (fun x : Fin k → X => x i)).isCountablyGenerated
  choose b hb he using h
  refine ⟨⋃ i, b i, Set.countable_iUnion hb, ?_⟩
  rw [← MeasurableSpace.iSup_generateFrom]
  exact iSup_congr he

/-- A step of total mass one, as a Markov kernel. -/
theorem exists_markov {X Y : Type} [MeasurableSpace X] [MeasurableSpace Y] {K : X → Ex Y} (hK : IsKer K) (hm : ∀ x, K x (fun _ => 1) = 1) :
    ∃ κ : Kernel X Y, IsMarkovKernel κ ∧ ∀ x f, Measurable f → K x f = ∫⁻ y, f y ∂κ x := by
  obtain ⟨κ, -, h⟩ := hK
  refine ⟨κ, ⟨fun x => ⟨?_⟩⟩, h⟩
  have := h x (fun _ => 1) measurable_const
  rw [hm, lintegral_one] at this
  exact this.symm

/-- Affine images of bounded functions. -/
theorem exists_affine {f : X → ℝ} (hf : Measurable f) (hC : ∃ C, ∀ x, |f x| ≤ C) :
    ∃ (C : ℝ) (g : X → ℝ), 0 < C ∧ Measurable g ∧ (∀ x, 0 ≤ g x ∧ g x ≤ 1) ∧ ∀ x, f x = 2 * C * g x - C := by
  obtain ⟨C, hC⟩ := hC
  have hp : 0 < |C| + 1 := by positivity
  refine ⟨|C| + 1, fun x => (f x + (|C| + 1)) / (2 * (|C| + 1)), hp, by fun_prop, fun x => ?_, fun x => by field_simp; ring⟩
  have := abs_le.mp ((hC x).trans (le_abs_self C))
  refine ⟨div_nonneg (by linarith) (by linarith), (div_le_one (by linarith)).mpr (by linarith)⟩

/-- Weights that pick the samples that thinning keeps. -/
theorem thin_sum (n g : ℕ) :
    ∃ w : Fin (n + 1) → ℝ, (∀ i, 0 ≤ w i ∧ w i ≤ 1) ∧ ∑ i, w i = strideLen n g ∧
      ∀ h : Fin (n + 1) → ℝ, ∑ i, w i * h i = ∑ k : Fin (strideLen n g), h ⟨k * g + 1, Nat.succ_lt_succ (strideLen_lt k)⟩ := by
  classical
  let e : Fin (strideLen n g) → Fin (n + 1) := fun k => ⟨k * g + 1, Nat.succ_lt_succ (strideLen_lt k)⟩
  have he : Function.Injective e := fun a b hab => by
    have hg : 0 < g := by
      rcases Nat.eq_zero_or_pos g with rfl | hg
      · exact absurd a.2 (by simp [strideLen])
      · exact hg
    have h1 : (a : ℕ) * g + 1 = b * g + 1 := congrArg Fin.val hab
    exact Fin.ext (Nat.eq_of_mul_eq_mul_right hg (by omega))
  have key : ∀ h : Fin (n + 1) → ℝ, ∑ i, (if i ∈ Finset.univ.image e then (1 : ℝ) else 0) * h i = ∑ k, h (e k) := fun h => by
    simp only [ite_mul, one_mul, zero_mul]
    rw [← Finset.sum_filter, Finset.filter_mem_eq_inter, Finset.univ_inter, Finset.sum_image he.injOn]
  refine ⟨fun i => if i ∈ Finset.univ.image e then 1 else 0, fun i => ?_, ?_, key⟩
  · dsimp only
    split_ifs <;> norm_num
  · have := key fun _ => 1
    simpa using this

/-- A kernel that keeps the target, reaches everything and does not depend on its key gives a consistent sampler. -/
theorem consistent' {N n : ℕ} {lam : Measure X} [SigmaFinite lam] [MeasurableSpace.CountablyGenerated (Fin (n + 1) → X)]
    {l : (Fin (n + 1) → X) → ℝ} (hl : Measurable l)
    (hZ : ∫⁻ x, ENNReal.ofReal (Real.exp (l x)) ∂(Measure.pi fun _ => lam) ≠ 0 ∧
      ∫⁻ x, ENNReal.ofReal (Real.exp (l x)) ∂(Measure.pi fun _ => lam) ≠ ∞)
    {K : Key → (Fin (n + 1) → X) → (Fin (n + 1) → Fin (N + 1)) → Ex ((Fin (n + 1) → X) × (Fin (n + 1) → Fin (N + 1)))}
    (hfree : ∀ key x b f, Measurable f → K key x b f = K [] x b f) (hK : MarkovStep (K []))
    (hrel : Relabels (K [])) 
    (hinv : ∀ b f, Measurable f → (∀ x, f x ≤ 1) → ∫⁻ x, ENNReal.ofReal (Real.exp (l x)) * K [] x b (fun r => f r.1) ∂(Measure.pi fun _ => lam) =
      ∫⁻ x, ENNReal.ofReal (Real.exp (l x)) * f x ∂(Measure.pi fun _ => lam))
    (hr : ∀ x b f, Measurable f → ∫⁻ x, f x ∂(Measure.pi fun _ => lam) ≤ ∞ * K [] x b (fun r => f r.1)) :
    Consistent (Measure.pi fun _ => lam) (lawOf (Measure.pi fun _ => lam) l) (fun key s => K key s.1 s.2) := by
  obtain ⟨Lam, hLam⟩ : ∃ Lam : Measure (Fin (n + 1) → X), Lam = Measure.pi fun _ => lam := ⟨_, rfl⟩
  rw [← hLam] at hZ hr ⊢
  have hP := lawOf_isProb hZ hl
  obtain ⟨π, hπ⟩ : ∃ π, π = lawOf Lam l := ⟨_, rfl⟩
  rw [← hπ] at hP ⊢
  have hker : IsKer fun x => K [] x (fun _ => 0) >>= fun r => pure r.1 :=
    (hK.ker.comp (g := fun x : Fin (n + 1) → X => (x, fun _ => (0 : Fin (N + 1)))) (by fun_prop)).bind
      (IsKer.pure (g := fun p : (Fin (n + 1) → X) × ((Fin (n + 1) → X) × (Fin (n + 1) → Fin (N + 1))) => p.2.1) (by fun_prop))
  obtain ⟨κ, hκm, hκ⟩ := exists_markov hker fun x => hK.mass x _
  have hκ' : ∀ key x b f, Measurable f → K key x b (fun r => f r.1) = ∫⁻ y, f y ∂κ x := fun key x b f hf => by
    rw [hfree key x b (fun r => f r.1) (by fun_prop), ← hκ x f hf]
    exact hrel.indexFree x b (fun _ => 0) (fun x _ => f x) fun _ => hf
  obtain ⟨step, hstepd⟩ : ∃ step : Key → (Fin (n + 1) → X) → Ex (Fin (n + 1) → X), step = fun _ x f => ∫⁻ y, f y ∂κ x := ⟨_, rfl⟩
  have hstep : StepOf κ step := fun key x f hf => by rw [hstepd]
  have hπinv : π.bind κ = π := by
    refine Measure.ext fun A hA => ?_
    obtain ⟨f, hfA⟩ : ∃ f : (Fin (n + 1) → X) → ℝ≥0∞, f = A.indicator 1 := ⟨_, rfl⟩
    have hf : Measurable f := hfA ▸ measurable_one.indicator hA
    rw [← lintegral_indicator_one hA, ← lintegral_indicator_one hA, ← hfA, lintegral_bindK _ _ hf]
    have h0 := hinv (fun _ => 0) f hf fun x => by
      rw [hfA]
      exact Set.indicator_le_self' (fun _ _ => zero_le_one) x
    rw [← hLam] at h0
    have e : ∀ x, ∫⁻ y, f y ∂κ x = K [] x (fun _ => 0) (fun r => f r.1) := fun x => (hκ' [] x _ f hf).symm
    simp only [e]
    have hm : Measurable fun x => K [] x (fun _ => 0) (fun r => f r.1) := hker.measurable' hf
    rw [hπ, lintegral_lawOf hl hm, lintegral_lawOf hl hf]
    exact congrArg _ h0
  have hac : ∀ x, π ≪ κ x := fun x => (hπ ▸ lawOf_ac : π ≪ Lam).trans <| Measure.AbsolutelyContinuous.mk fun A hA h0 => by
    have := le_top_mul_iff.mp (hr x (fun _ => 0) (A.indicator 1) (measurable_one.indicator hA)) (by
      rw [hκ' [] x _ _ (measurable_one.indicator hA), lintegral_indicator_one hA, h0])
    rwa [lintegral_indicator_one hA] at this
  have hLπ : Lam ≪ π := hπ ▸ ac_lawOf hl hZ.2
  have hstart : ∀ {P : Measure (Fin (n + 1) → X) → Prop}, (∀ ν, IsProbabilityMeasure ν → Smooths κ π ν → P ν) → FromMostStarts Lam P := fun h =>
    ⟨fun ν hν hac' => h ν hν (smooths_of_ac (hac'.trans hLπ)), hLπ.ae_le ((smooths_dirac hπinv hac).mono fun x hx =>
      h _ inferInstance hx)⟩
  have hchain : ∀ {m : ℕ} (keys : Fin m → Key) x b (F : (Fin (m + 1) → Fin (n + 1) → X) → ℝ≥0∞), Measurable F →
      chain (fun key (s : (Fin (n + 1) → X) × (Fin (n + 1) → Fin (N + 1))) => K key s.1 s.2) (x, b) keys (fun tr => F fun i => (tr i).1) =
      chain step x keys F := fun keys x b F hF =>
    chain_projM (step' := step) hstep.ker Prod.fst (fun key s f hf => (hκ' key s.1 s.2 f hf).trans (hstep key s.1 f hf).symm) keys (x, b) hF
  refine ⟨hstart fun ν hν hs δ hδ => ?_, hstart fun ν hν hs f hf hC δ hδ => ?_⟩
  · obtain ⟨n0, h0⟩ := smooths_mixes hπinv hac hs hδ
    refine ⟨n0, fun b key n_steps g k hk f hf hf1 => ?_⟩
    have e : ∀ x, (sampling_routine key x b (fun key (s : (Fin (n + 1) → X) × (Fin (n + 1) → Fin (N + 1))) => K key s.1 s.2) n_steps g : Ex _)
        (fun r => f (r.1 k)) = chain step x (splitKey key n_steps) (fun tr => f (tr ⟨k * g + 1, Nat.succ_lt_succ (strideLen_lt k)⟩)) := fun x => by
      rw [Props.C49_sampling]
      exact hchain (splitKey key n_steps) x b (fun tr => f (tr ⟨k * g + 1, Nat.succ_lt_succ (strideLen_lt k)⟩)) (by fun_prop)
    simp only [e]
    rw [hstep.chain_law _ _ _ hf]
    exact h0 (k * g + 1) hk f hf hf1
  · obtain ⟨C, u, hC, hu, hu1, hfu⟩ := exists_affine hf hC
    obtain ⟨W0, hW⟩ := averages hstep hπinv hac hs hu hu1 (η := δ / ENNReal.ofReal ((2 * C) ^ 2))
      (ENNReal.div_ne_zero.mpr ⟨hδ, ENNReal.ofReal_ne_top⟩)
    refine ⟨max 1 ⌈W0⌉₊, fun b key n_steps g hM => ?_⟩
    obtain ⟨M, hMd⟩ : ∃ M, M = strideLen n_steps g := ⟨_, rfl⟩
    have hM1 : 1 ≤ M := hMd ▸ (le_max_left _ _).trans hM
    have hMpos : (0 : ℝ) < M := by exact_mod_cast hM1
    obtain ⟨w, hw, hws, hwh⟩ := thin_sum n_steps g
    have hWM := hW n_steps (splitKey key n_steps) w hw (by
      rw [hws]
      exact (Nat.le_ceil W0).trans (by exact_mod_cast (le_max_right 1 _).trans hM))
    obtain ⟨m, hm⟩ : ∃ m, m = ∫ x, u x ∂π := ⟨_, rfl⟩
    have hmf : ∫ x, f x ∂π = 2 * C * m - C := by
      have hi : Integrable u π := Integrable.of_bound hu.aestronglyMeasurable 1 (Filter.Eventually.of_forall fun x => by
        rw [Real.norm_eq_abs, abs_of_nonneg (hu1 x).1]; exact (hu1 x).2)
      simp only [hfu]
      rw [integral_sub (hi.const_mul _) (integrable_const _), integral_const_mul, hm]
      simp
    rw [← hm, hws, ← hMd] at hWM
    have e : ∀ x, (sampling_routine key x b (fun key (s : (Fin (n + 1) → X) × (Fin (n + 1) → Fin (N + 1))) => K key s.1 s.2) n_steps g : Ex _)
        (fun r => ENNReal.ofReal ((sampleMean f r.1 - ∫ x, f x ∂π) ^ 2)) =
        ENNReal.ofReal ((2 * C / M) ^ 2) * sqDev step u m (splitKey key n_steps) w x := fun x => by
      rw [Props.C49_sampling, sqDev, ← (hstep.chain_ker _).const_mul x _ (measurable_devF hu m w)]
      rw [← hchain (splitKey key n_steps) x b (fun tr => ENNReal.ofReal ((2 * C / M) ^ 2) * ENNReal.ofReal ((∑ i, w i * (u (tr i) - m)) ^ 2))
        (by fun_prop)]
      refine Ex.congr_fun' (chain (fun key (s : (Fin (n + 1) → X) × (Fin (n + 1) → Fin (N + 1))) => K key s.1 s.2) (x, b) (splitKey key n_steps))
        fun tr => ?_
      show ENNReal.ofReal _ = _
      rw [← ENNReal.ofReal_mul (by positivity), hwh, ← mul_pow]
      congr 2
      rw [hmf]
      simp only [sampleMean, hfu, Finset.sum_sub_distrib, Finset.sum_const, Finset.card_univ, Fintype.card_fin, nsmul_eq_mul, ← hMd,
        ← Finset.mul_sum]
      field_simp
      ring
    simp only [e]
    rw [lintegral_const_mul _ (measurable_sqDev hstep hu m _ w)]
    refine (mul_le_mul_right hWM _).trans (le_of_eq ?_)
    rw [← ENNReal.ofReal_pow hMpos.le, ← mul_assoc, ← ENNReal.ofReal_mul (by positivity),
      show (2 * C / M) ^ 2 * (M : ℝ) ^ 2 = (2 * C) ^ 2 by field_simp]
    exact ENNReal.mul_div_cancel (ENNReal.ofReal_pos.mpr (by positivity)).ne' ENNReal.ofReal_ne_top

/-- The same with exact invariance. -/
theorem consistent {N n : ℕ} {lam : Measure X} [SigmaFinite lam] [MeasurableSpace.CountablyGenerated (Fin (n + 1) → X)]
    {l : (Fin (n + 1) → X) → ℝ} (hl : Measurable l)
    (hZ : ∫⁻ x, ENNReal.ofReal (Real.exp (l x)) ∂(Measure.pi fun _ => lam) ≠ 0 ∧
      ∫⁻ x, ENNReal.ofReal (Real.exp (l x)) ∂(Measure.pi fun _ => lam) ≠ ∞)
    {K : Key → (Fin (n + 1) → X) → (Fin (n + 1) → Fin (N + 1)) → Ex ((Fin (n + 1) → X) × (Fin (n + 1) → Fin (N + 1)))}
    (hfree : ∀ key x b f, Measurable f → K key x b f = K [] x b f) (hK : MarkovStep (K []))
    (hrel : Relabels (K [])) (hinv : InvariantFromAnyIndex lam l (K []))
    (hr : ∀ x b f, Measurable f → ∫⁻ x, f x ∂(Measure.pi fun _ => lam) ≤ ∞ * K [] x b (fun r => f r.1)) :
    Consistent (Measure.pi fun _ => lam) (lawOf (Measure.pi fun _ => lam) l) (fun key s => K key s.1 s.2) :=
  consistent' hl hZ hfree hK hrel (fun b f hf _ => hinv b f hf) hr

end Verif
