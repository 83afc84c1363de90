import Verif.Lemmas.DoeblinNear
import Verif.Lemmas.Unique
import Verif.Spec.OneInvariant
import Verif.Spec.Settles

/-!
# A Markov kernel with a common component has exactly one invariant law
-/

open scoped ENNReal
open MeasureTheory ProbabilityTheory Finset

namespace Verif
open Verif.Spec Verif.Model

variable {X : Type} [MeasurableSpace X]

/-- Existence: the law of the state at the last draw from the common component. -/
theorem doeblin_exists {K : X → Ex X} (hK : IsKer K) (hm : ∀ x, K x (fun _ => 1) = 1) {ν : Measure X} (hν0 : ν ≠ 0)
    (hν : ∀ x g, Measurable g → ∫⁻ y, g y ∂ν ≤ K x g) (x₀ : X) : ∃ π : Measure X, IsProbabilityMeasure π ∧ IsInvariant π K := by
  obtain ⟨κ, _, hκ⟩ := hK
  have h1 : ∀ x, κ x Set.univ = 1 := fun x => by
    have := (hκ x _ measurable_const).symm.trans (hm x)
    rwa [lintegral_one] at this
  have hle : ∀ x, ν ≤ κ x := fun x => Measure.le_iff.mpr fun A hA => by
    have := hν x (A.indicator 1) (measurable_one.indicator hA)
    rwa [hκ x _ (measurable_one.indicator hA), lintegral_indicator_one hA, lintegral_indicator_one hA] at this
  have hν1 : ν Set.univ ≤ 1 := (hle x₀ Set.univ).trans (h1 x₀).le
  have hfin : IsFiniteMeasure ν := ⟨hν1.trans_lt ENNReal.one_lt_top⟩
  have hc0 : ν Set.univ ≠ 0 := fun h => hν0 (Measure.measure_univ_eq_zero.mp h)
  let κ' : X → Measure X := fun x => κ x - ν
  have hfk : ∀ x, IsFiniteMeasure (κ x) := fun x => ⟨by rw [h1]; exact ENNReal.one_lt_top⟩
  have hκ' : Measurable κ' := Measure.measurable_of_measurable_coe _ fun A hA => by
    have e : ∀ x, κ' x A = κ x A - ν A := fun x => Measure.sub_apply hA (hle x)
    simp only [e]
    exact (κ.measurable_coe hA).sub_const _
  have hsum : ∀ x, κ' x + ν = κ x := fun x => Measure.sub_add_cancel_of_le (hle x)
  have hint : ∀ x (f : X → ℝ≥0∞), ∫⁻ y, f y ∂κ x = ∫⁻ y, f y ∂κ' x + ∫⁻ y, f y ∂ν := fun x f => by
    rw [← hsum x, lintegral_add_measure]
  let m : ℕ → Measure X := fun k => Nat.rec ν (fun _ μ => μ.bind κ') k
  have hm0 : m 0 = ν := rfl
  have hms : ∀ k, m (k + 1) = (m k).bind κ' := fun k => rfl
  have hbind : ∀ k f, Measurable f → ∫⁻ y, f y ∂m (k + 1) = ∫⁻ x, ∫⁻ y, f y ∂κ' x ∂m k := fun k f hf => by
    rw [hms, Measure.lintegral_bind hκ'.aemeasurable hf.aemeasurable]
  have hmass : ∀ k, m k Set.univ = ν Set.univ * (1 - ν Set.univ) ^ k := fun k => by
    induction k with
    | zero => rw [hm0, pow_zero, mul_one]
    | succ k ih =>
      have e := hbind k (fun _ => 1) measurable_const
      have e' : ∀ x, κ' x Set.univ = 1 - ν Set.univ := fun x => by
        rw [show κ' x Set.univ = κ x Set.univ - ν Set.univ from Measure.sub_apply MeasurableSet.univ (hle x), h1]
      simp only [lintegral_one, e'] at e
      rw [e, lintegral_const, ih, pow_succ]
      ring
  let π := Measure.sum m
  have hπ1 : π Set.univ = 1 := by
    rw [Measure.sum_apply _ MeasurableSet.univ]
    simp only [hmass]
    rw [ENNReal.tsum_mul_left, ENNReal.tsum_geometric, ENNReal.sub_sub_cancel ENNReal.one_ne_top hν1,
      ENNReal.mul_inv_cancel hc0 (measure_ne_top _ _)]
  refine ⟨π, ⟨hπ1⟩, fun f hf => ?_⟩
  have hfm : Measurable fun x => ∫⁻ y, f y ∂κ' x := (Measure.measurable_lintegral hf).comp hκ'
  have e : ∀ x, K x f = ∫⁻ y, f y ∂κ' x + ∫⁻ y, f y ∂ν := fun x => (hκ x f hf).trans (hint x f)
  simp only [e]
  rw [lintegral_add_left hfm, lintegral_const, hπ1, mul_one, lintegral_sum_measure, lintegral_sum_measure]
  simp only [← hbind _ f hf]
  rw [tsum_eq_zero_add' (f := fun k => ∫⁻ y, f y ∂m k) ENNReal.summable, hm0, add_comm]

/-- A kernel with a common component has exactly one invariant law, and a nearly invariant law is near it. -/
theorem soleInvariant_of {K : X → Ex X} (hK : IsKer K) (hm : ∀ x, K x (fun _ => 1) = 1) {ν : Measure X} (hν0 : ν ≠ 0)
    (hν : ∀ x g, Measurable g → ∫⁻ y, g y ∂ν ≤ K x g) {π : Measure X} [IsProbabilityMeasure π] {δ : ℝ≥0∞}
    (hδ : TVLe δ (fun f => ∫⁻ x, K x f ∂π) fun f => ∫⁻ x, f x ∂π) : SoleInvariantNear (δ / ν Set.univ) (fun x => x) π K := by
  have hne : π ≠ 0 := IsProbabilityMeasure.ne_zero π
  obtain ⟨x₀⟩ : Nonempty X := by
    by_contra h
    rw [not_nonempty_iff] at h
    exact hne (Measure.measure_univ_eq_zero.mp (by rw [Set.univ_eq_empty_iff.mpr h, measure_empty]))
  obtain ⟨ρ, hρ, hinv⟩ := doeblin_exists hK hm hν0 hν x₀
  have hr : Reaches ν K := fun s A hA h0 hk => h0 (by
    have := hν s (A.indicator 1) (measurable_one.indicator hA)
    rw [hk, lintegral_indicator_one hA] at this
    exact le_antisymm this bot_le)
  have hν1 : ν Set.univ ≤ 1 := by
    have := hν x₀ (fun _ => 1) measurable_const
    rwa [hm, lintegral_one] at this
  have hlt : 1 - ν Set.univ < 1 := ENNReal.sub_lt_self ENNReal.one_ne_top one_ne_zero fun h => hν0 (Measure.measure_univ_eq_zero.mp h)
  refine ⟨ρ, hρ, hinv, fun ρ' _ h' => invariant_unique hν0 hK hm hr h' hinv, fun f hf hf1 => ?_⟩
  -- the chain started from the invariant law
  have hk : ∀ _ : Key, IsKer K := fun _ => hK
  have hst : ∀ i : ℕ, ∫⁻ x, chain (fun _ => K) x (fun _ : Fin i => ([] : Key)) (fun tr => f (tr (Fin.last i))) ∂ρ = ∫⁻ x, f x ∂ρ := fun i => by
    have h0 : ∀ _ : Key, TVLe 0 (fun f => ∫⁻ x, K x f ∂ρ) fun f => ∫⁻ x, f x ∂ρ := fun _ f hf _ => by
      simp only [hinv f hf, add_zero, le_refl, and_self]
    obtain ⟨a, b⟩ := chain_near hk (fun _ => hm) (fun f => ∫⁻ x, f x ∂ρ) h0 (fun _ : Fin i => ([] : Key)) (Fin.last i) f hf hf1
    rw [mul_zero, add_zero] at a b
    exact le_antisymm a b
  have hc := fun (i : ℕ) x => doeblin_converges hk (fun _ => hm) (p := fun x : X => x) (σ := fun x => x) measurable_id measurable_id
    (fun _ => rfl) (ν := ν) (fun _ => hν) (fun _ _ _ _ _ => rfl) (fun _ => hδ) (fun _ : Fin i => ([] : Key)) (Fin.last i) x f hf hf1
  have hmeas : ∀ i : ℕ, Measurable fun x => chain (fun _ => K) x (fun _ : Fin i => ([] : Key)) (fun tr => f (tr (Fin.last i))) := fun i =>
    (chain_ker hk _).measurable' (by fun_prop)
  have ec : ∀ c : ℝ≥0∞, ∫⁻ _, c ∂ρ = c := fun c => by rw [lintegral_const, measure_univ, mul_one]
  have hb1 : ∀ i : ℕ, ∫⁻ x, f x ∂ρ ≤ ∫⁻ x, f x ∂π + ((1 - ν Set.univ) ^ i + δ / ν Set.univ) := fun i => by
    rw [← hst i]
    refine (lintegral_mono fun x => (hc i x).1).trans ?_
    rw [ec]
    rfl
  have hb2 : ∀ i : ℕ, ∫⁻ x, f x ∂π ≤ ∫⁻ x, f x ∂ρ + ((1 - ν Set.univ) ^ i + δ / ν Set.univ) := fun i => by
    rw [← hst i, ← ec (∫⁻ x, f x ∂π)]
    refine (lintegral_mono fun x => (hc i x).2).trans ?_
    rw [lintegral_add_left (hmeas i), ec]
    rfl
  have ht : Filter.Tendsto (fun i : ℕ => (1 - ν Set.univ) ^ i + δ / ν Set.univ) Filter.atTop (nhds (0 + δ / ν Set.univ)) :=
    (ENNReal.tendsto_pow_atTop_nhds_zero_of_lt_one hlt).add tendsto_const_nhds
  rw [zero_add] at ht
  exact ⟨ge_of_tendsto' (tendsto_const_nhds.add ht) hb1, ge_of_tendsto' (tendsto_const_nhds.add ht) hb2⟩

/-- The same for a kernel on trajectories and indices. -/
theorem indexed_sole {N n : ℕ} {lam : Measure X} {ε : ℝ≥0∞} {l : (Fin (n + 1) → X) → ℝ} (hl : Measurable l)
    (hZ : ∫⁻ x, ENNReal.ofReal (Real.exp (l x)) ∂(Measure.pi fun _ => lam) ≠ 0 ∧
      ∫⁻ x, ENNReal.ofReal (Real.exp (l x)) ∂(Measure.pi fun _ => lam) ≠ ∞)
    {K : (Fin (n + 1) → X) → (Fin (n + 1) → Fin (N + 1)) → Ex ((Fin (n + 1) → X) × (Fin (n + 1) → Fin (N + 1)))}
    (hmk : MarkovStep K) (hrel : Relabels K) (hnear : LeavesNearInvariant ε lam l K) {C : ℝ≥0∞} (hC0 : C ≠ 0)
    (hC : ∀ x b f, Measurable f → C * ∫⁻ y, ENNReal.ofReal (Real.exp (l y)) * f y ∂(Measure.pi fun _ => lam) ≤ K x b fun r => f r.1) :
    OnlyInvariantNear (ε / (C * ∫⁻ x, ENNReal.ofReal (Real.exp (l x)) ∂(Measure.pi fun _ => lam))) (lawOf (Measure.pi fun _ => lam) l) K := by
  have hP := lawOf_isProb hZ hl
  have hE : Measurable fun x => ENNReal.ofReal (Real.exp (l x)) := by fun_prop
  let ν : Measure (Fin (n + 1) → X) := C • (Measure.pi fun _ => lam).withDensity fun x => ENNReal.ofReal (Real.exp (l x))
  have hνi : ∀ f, Measurable f → ∫⁻ x, f x ∂ν = C * ∫⁻ y, ENNReal.ofReal (Real.exp (l y)) * f y ∂(Measure.pi fun _ => lam) := fun f hf => by
    show ∫⁻ x, f x ∂(C • _) = _
    rw [lintegral_smul_measure, lintegral_withDensity_eq_lintegral_mul _ hE hf]
    rfl
  have hν1 : ν Set.univ = C * ∫⁻ x, ENNReal.ofReal (Real.exp (l x)) ∂(Measure.pi fun _ => lam) := by
    rw [← lintegral_one, hνi _ measurable_const]
    simp only [mul_one]
  have hν0 : ν ≠ 0 := fun h => mul_ne_zero hC0 hZ.1 (by rw [← hν1, h]; rfl)
  let b0 : Fin (n + 1) → Fin (N + 1) := fun _ => 0
  have hb : ∀ b, IsKer fun x => K x b >>= fun r => pure r.1 := fun b =>
    (hmk.ker.comp (g := fun x : Fin (n + 1) → X => (x, b)) (by fun_prop)).bind
      (IsKer.pure (g := fun p : (Fin (n + 1) → X) × ((Fin (n + 1) → X) × (Fin (n + 1) → Fin (N + 1))) => p.2.1) (by fun_prop))
  have hfree : ∀ x b b' f, Measurable f → K x b (fun s => f s.1) = K x b' (fun s => f s.1) := fun x b b' f hf =>
    hrel.indexFree x b b' (fun x _ => f x) fun _ => hf
  -- the error of one step
  have hδ : TVLe ε (fun f => ∫⁻ x, (K x b0 >>= fun r => pure r.1 : Ex _) f ∂lawOf (Measure.pi fun _ => lam) l)
      fun f => ∫⁻ x, f x ∂lawOf (Measure.pi fun _ => lam) l := by
    intro f hf hf1
    have h1 := hnear (fun s => f s.1) (by fun_prop) fun s => hf1 _
    have e : ∀ x b, K x b (fun s => f s.1) = K x b0 (fun s => f s.1) := fun x b => hfree x b b0 f hf
    obtain ⟨h0, hT⟩ := mass_index hZ (Fin (n + 1) → Fin (N + 1))
    simp only [e, Finset.sum_const, nsmul_eq_mul] at h1 h0 hT
    have hKm : Measurable fun x => (K x b0 >>= fun r => pure r.1 : Ex _) f := (hb b0).measurable' hf
    dsimp only
    rw [lintegral_lawOf hl hKm, lintegral_lawOf hl hf]
    have hcard : ((Finset.univ : Finset (Fin (n + 1) → Fin (N + 1))).card : ℝ≥0∞) ≠ 0 := by simp
    have hcard' : ((Finset.univ : Finset (Fin (n + 1) → Fin (N + 1))).card : ℝ≥0∞) ≠ ∞ := ENNReal.natCast_ne_top _
    generalize ((Finset.univ : Finset (Fin (n + 1) → Fin (N + 1))).card : ℝ≥0∞) = q at hcard hcard' h1
    generalize (∫⁻ x, ENNReal.ofReal (Real.exp (l x)) ∂(Measure.pi fun _ => lam)) = Z at hZ h1
    have key : ∀ a b : ℝ≥0∞, q * a ≤ q * b + ε * (q * Z) → Z⁻¹ * a ≤ Z⁻¹ * b + ε := fun a b h => by
      have h2 : q * a ≤ q * (b + ε * Z) := h.trans (le_of_eq (by ring))
      have h3 := (ENNReal.mul_le_mul_iff_right hcard hcard').1 h2
      calc Z⁻¹ * a ≤ Z⁻¹ * (b + ε * Z) := by gcongr
        _ = Z⁻¹ * b + ε * (Z * Z⁻¹) := by ring
        _ = _ := by rw [ENNReal.mul_inv_cancel hZ.1 hZ.2, mul_one]
    exact ⟨key _ _ h1.1, key _ _ h1.2⟩
  obtain ⟨μ, hμ, hinv, huni, htv⟩ := soleInvariant_of (hb b0) (fun x => hmk.mass x b0) hν0
    (fun x g hg => (hνi g hg).le.trans (hC x b0 g hg)) hδ
  rw [hν1] at htv
  have hswap : ∀ b (π : Measure (Fin (n + 1) → X)), IsInvariant π (fun x => K x b >>= fun r => pure r.1) →
      IsInvariant π (fun x => K x b0 >>= fun r => pure r.1) := fun b π h f hf => by
    rw [← h f hf]
    exact lintegral_congr fun x => hfree x b0 b f hf
  refine ⟨μ, hμ, ⟨fun b π hπ => ⟨fun h => huni π hπ (hswap b π h), ?_⟩, fun ρ hρ h => ?_⟩, htv⟩
  · rintro rfl f hf
    rw [← hinv f hf]
    exact lintegral_congr fun x => hfree x b b0 f hf
  · have : IsProbabilityMeasure (ρ.map Prod.fst) := Measure.isProbabilityMeasure_map measurable_fst.aemeasurable
    refine huni _ this fun f hf => ?_
    rw [lintegral_map ((hb _).measurable' hf) measurable_fst, lintegral_map hf measurable_fst, ← h (fun s => f s.1) (by fun_prop)]
    exact lintegral_congr fun s => hfree s.1 b0 s.2 f hf

/-- A kernel on states with cached values, started with the right ones, inherits the invariant law of its positions. -/
theorem cached_sole {R : Type} [MeasurableSpace R] {cache : X → R} (hc : Measurable cache) {K : X × R → Ex (X × R)} (hK : IsKer K)
    (hone : AtMostOneInvariant K) (hcons : ∀ x f, K (x, cache x) f = K (x, cache x) (fun s => f (s.1, cache s.1))) {π : Measure X}
    {ε : ℝ≥0∞} (h : SoleInvariantNear ε (fun x => x) π fun x => K (x, cache x) >>= fun s => pure s.1) :
    SoleInvariantNear ε (fun s : X × R => s.1) π K := by
  obtain ⟨μ, hμ, hinv, -, htv⟩ := h
  have hi : Measurable fun x => (x, cache x) := measurable_id.prodMk hc
  have hp : IsProbabilityMeasure (μ.map fun x => (x, cache x)) := Measure.isProbabilityMeasure_map hi.aemeasurable
  have hI : IsInvariant (μ.map fun x => (x, cache x)) K := fun f hf => by
    rw [lintegral_map (hK.measurable' hf) hi, lintegral_map hf hi, ← hinv (fun x => f (x, cache x)) (hf.comp hi)]
    exact lintegral_congr fun x => hcons x f
  refine ⟨_, hp, hI, fun ρ' hρ' h' => hone _ _ h' hI, fun f hf hf1 => ?_⟩
  dsimp only
  rw [lintegral_map (f := fun s : X × R => f s.1) (by fun_prop) hi]
  exact htv f hf hf1

end Verif
