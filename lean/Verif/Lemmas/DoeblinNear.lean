import Verif.Lemmas.DoeblinCsmc

/-!
# Chains that forget their start forget their errors
-/

open scoped ENNReal
open MeasureTheory ProbabilityTheory Finset

namespace Verif
open Verif.Spec Verif.Model

variable {S X : Type} [MeasurableSpace S] [MeasurableSpace X]

/-- Two close laws give close expectations to a function of small oscillation. -/
theorem tv_osc {J : Unit → Ex X} (hJ : IsKer J) (h1 : J () (fun _ => 1) = 1) {π : Measure X} [IsProbabilityMeasure π] {δ : ℝ≥0∞}
    (h : TVLe δ (J ()) fun f => ∫⁻ x, f x ∂π) {g : X → ℝ≥0∞} (hg : Measurable g) {r : ℝ≥0∞} (hr : r ≠ ∞)
    (hgr : ∀ x y, g x ≤ g y + r) :
    J () g ≤ ∫⁻ x, g x ∂π + r * δ ∧ ∫⁻ x, g x ∂π ≤ J () g + r * δ := by
  let m := ⨅ x, g x
  let g' : X → ℝ≥0∞ := fun x => g x - m
  have hg' : Measurable g' := hg.sub_const m
  have e : ∀ x, g x = m + g' x := fun x => (add_tsub_cancel_of_le (iInf_le g x)).symm
  have hg'r : ∀ x, g' x ≤ r := fun x => by
    rw [tsub_le_iff_left]
    have : Nonempty X := ⟨x⟩
    show g x ≤ (⨅ y, g y) + r
    rw [ENNReal.iInf_add]
    exact le_iInf fun y => hgr x y
  have eJ : J () g = m + J () g' := by
    rw [show g = fun x => m + g' x from funext e, hJ.add () (f := fun _ => m) (g := g') measurable_const hg', hJ.const_fun, h1, mul_one]
  have eπ : ∫⁻ x, g x ∂π = m + ∫⁻ x, g' x ∂π := by
    rw [lintegral_congr e, lintegral_add_left measurable_const, lintegral_const, measure_univ, mul_one]
  by_cases h0 : r = 0
  · have z : g' = fun _ => 0 := funext fun x => le_antisymm ((hg'r x).trans h0.le) bot_le
    have zJ : J () g' = 0 := by rw [z, hJ.const_fun, zero_mul]
    have zπ : ∫⁻ x, g' x ∂π = 0 := by rw [z, lintegral_zero]
    rw [eJ, eπ, zJ, zπ]
    exact ⟨le_self_add, le_self_add⟩
  · have hq : Measurable fun x => r⁻¹ * g' x := hg'.const_mul _
    obtain ⟨a, b⟩ := h (fun x => r⁻¹ * g' x) hq fun x => by
      calc r⁻¹ * g' x ≤ r⁻¹ * r := by gcongr; exact hg'r x
        _ = 1 := ENNReal.inv_mul_cancel h0 hr
    have s : ∀ c : ℝ≥0∞, r * (r⁻¹ * c) = c := fun c => by rw [← mul_assoc, ENNReal.mul_inv_cancel h0 hr, one_mul]
    have kJ : J () (fun x => r⁻¹ * g' x) = r⁻¹ * J () g' := hJ.const_mul () _ hg'
    have kπ : ∫⁻ x, r⁻¹ * g' x ∂π = r⁻¹ * ∫⁻ x, g' x ∂π := lintegral_const_mul _ hg'
    dsimp only at a b
    rw [kJ, kπ] at a b
    have a' := mul_le_mul_right a r
    have b' := mul_le_mul_right b r
    rw [mul_add, s, s] at a' b'
    rw [eJ, eπ, add_assoc, add_assoc]
    exact ⟨by gcongr, by gcongr⟩

/-- The errors of the steps do not accumulate: those of the past are forgotten at the same rate as the start. -/
theorem doeblin_near {step : Key → S → Ex S} (hk : ∀ key, IsKer (step key)) (hm : ∀ key s, step key s (fun _ => 1) = 1) {p : S → X}
    (hp : Measurable p) {σ : X → S} (hσ : Measurable σ) (hpσ : ∀ x, p (σ x) = x) {ν : Measure X}
    (hν : ∀ key s g, Measurable g → ∫⁻ x, g x ∂ν ≤ step key s (fun s' => g (p s')))
    (hlump : ∀ {f : X → ℝ≥0∞}, Measurable f → ∀ {T : ℕ} (keys : Fin T → Key) (i : Fin (T + 1)) (s : S),
      chain step s keys (fun tr => f (p (tr i))) = chain step (σ (p s)) keys (fun tr => f (p (tr i))))
    {π : Measure X} [IsProbabilityMeasure π] {δ : ℝ≥0∞}
    (hδ : ∀ key, TVLe δ (fun f => ∫⁻ x, step key (σ x) (fun s => f (p s)) ∂π) fun f => ∫⁻ x, f x ∂π)
    {T : ℕ} (keys : Fin T → Key) (i : Fin (T + 1)) :
    TVLe ((∑ j ∈ range i, (1 - ν Set.univ) ^ j) * δ) (fun f => ∫⁻ x, chain step (σ x) keys (fun tr => f (p (tr i))) ∂π)
      fun f => ∫⁻ x, f x ∂π := by
  have hconst : ∀ {n : ℕ} (keys : Fin n → Key) (s : S) (c : ℝ≥0∞), chain step s keys (fun _ => c) = c :=
    fun keys s c => by rw [(chain_ker hk keys).const_fun s c, chain_mass hm, mul_one]
  have zero : ∀ {T : ℕ} (keys : Fin T → Key) (f : X → ℝ≥0∞) (x : X), chain step (σ x) keys (fun tr => f (p (tr 0))) = f x := by
    intro T keys f x
    cases T with
    | zero =>
      show f (p (σ x)) = f x
      rw [hpσ]
    | succ T =>
      show step (keys 0) (σ x) (fun s' => chain step s' (tailA keys) (fun _ => f (p (σ x)))) = f x
      simp only [hconst]
      rw [(hk (keys 0)).const_fun (σ x), hm, mul_one, hpσ]
  induction T with
  | zero =>
    intro f hf hf1
    have : i = 0 := by omega
    subst this
    simp only [zero]
    exact ⟨le_self_add, le_self_add⟩
  | succ T ih =>
    refine Fin.cases ?_ (fun j => ?_) i
    · intro f hf hf1
      simp only [zero]
      exact ⟨le_self_add, le_self_add⟩
    · intro f hf hf1
      let g : X → ℝ≥0∞ := fun x => chain step (σ x) (tailA keys) fun tr => f (p (tr j))
      have hg : Measurable g := ((chain_ker hk (tailA keys)).comp hσ).measurable' (by fun_prop)
      have e : ∀ s, chain step s keys (fun tr => f (p (tr j.succ))) = step (keys 0) s fun s1 => g (p s1) := fun s => by
        show step (keys 0) s (fun s1 => chain step s1 (tailA keys) fun rest => f (p (insert0 s rest j.succ))) = _
        refine Ex.congr_fun' _ fun s1 => ?_
        simp only [insert0_succ]
        exact hlump hf (tailA keys) j s1
      have hr : (1 - ν Set.univ) ^ (j : ℕ) ≠ ∞ := ENNReal.pow_ne_top (ne_top_of_le_ne_top ENNReal.one_ne_top tsub_le_self)
      have hJ : IsKer fun (_ : Unit) (f : X → ℝ≥0∞) => ∫⁻ x, step (keys 0) (σ x) (fun s => f (p s)) ∂π :=
        (IsKer.const (β := Unit) π (P := fun f => ∫⁻ x, f x ∂π) fun _ _ => rfl).bind
          (((hk (keys 0)).comp (g := fun q : Unit × X => σ q.2) (hσ.comp measurable_snd)).bind
            (IsKer.pure (g := fun q : (Unit × X) × S => p q.2) (hp.comp measurable_snd)))
      have h1 : ∫⁻ x, step (keys 0) (σ x) (fun _ => 1) ∂π = 1 := by simp only [hm, lintegral_one, measure_univ]
      have h := tv_osc hJ h1 (hδ (keys 0)) hg hr fun x y =>
        doeblin_chain hk hm hp hσ hν hf (hlump hf) hf1 (tailA keys) j (σ x) (σ y)
      obtain ⟨a, b⟩ := ih (tailA keys) j f hf hf1
      dsimp only at h a b ⊢
      simp only [e]
      rw [Fin.val_succ, sum_range_succ, add_mul]
      constructor
      · calc _ ≤ ∫⁻ x, g x ∂π + (1 - ν Set.univ) ^ (j : ℕ) * δ := h.1
          _ ≤ (∫⁻ x, f x ∂π + (∑ i ∈ range j, (1 - ν Set.univ) ^ i) * δ) + (1 - ν Set.univ) ^ (j : ℕ) * δ := by gcongr
          _ = _ := by rw [add_assoc]
      · calc _ ≤ ∫⁻ x, g x ∂π + (∑ i ∈ range j, (1 - ν Set.univ) ^ i) * δ := b
          _ ≤ (_ + (1 - ν Set.univ) ^ (j : ℕ) * δ) + (∑ i ∈ range j, (1 - ν Set.univ) ^ i) * δ := by gcongr; exact h.2
          _ = _ := by rw [add_assoc, add_comm ((1 - ν Set.univ) ^ (j : ℕ) * δ)]

theorem geom_le {c : ℝ≥0∞} (hc : c ≤ 1) (i : ℕ) : ∑ j ∈ range i, (1 - c) ^ j ≤ c⁻¹ := by
  refine (ENNReal.sum_le_tsum _).trans ?_
  rw [ENNReal.tsum_geometric, ENNReal.sub_sub_cancel ENNReal.one_ne_top hc]

/-- A chain of approximate steps approaches `π`, up to the error of one step divided by the rate. -/
theorem doeblin_converges {step : Key → S → Ex S} (hk : ∀ key, IsKer (step key)) (hm : ∀ key s, step key s (fun _ => 1) = 1) {p : S → X}
    (hp : Measurable p) {σ : X → S} (hσ : Measurable σ) (hpσ : ∀ x, p (σ x) = x) {ν : Measure X}
    (hν : ∀ key s g, Measurable g → ∫⁻ x, g x ∂ν ≤ step key s (fun s' => g (p s')))
    (hlump : ∀ {f : X → ℝ≥0∞}, Measurable f → ∀ {T : ℕ} (keys : Fin T → Key) (i : Fin (T + 1)) (s : S),
      chain step s keys (fun tr => f (p (tr i))) = chain step (σ (p s)) keys (fun tr => f (p (tr i))))
    {π : Measure X} [IsProbabilityMeasure π] {δ : ℝ≥0∞}
    (hδ : ∀ key, TVLe δ (fun f => ∫⁻ x, step key (σ x) (fun s => f (p s)) ∂π) fun f => ∫⁻ x, f x ∂π)
    {T : ℕ} (keys : Fin T → Key) (i : Fin (T + 1)) (s : S) :
    TVLe ((1 - ν Set.univ) ^ (i : ℕ) + δ / ν Set.univ) (fun f => chain step s keys fun tr => f (p (tr i))) fun f => ∫⁻ x, f x ∂π := by
  have h := converges_of_near hk hp hσ keys i (r := (1 - ν Set.univ) ^ (i : ℕ))
    (fun f hf hf1 s s' => doeblin_chain hk hm hp hσ hν hf (hlump hf) hf1 keys i s s')
    (doeblin_near hk hm hp hσ hpσ hν hlump hδ keys i) s
  have hν1 : ν Set.univ ≤ 1 := by
    have := hν [] s (fun _ => 1) measurable_const
    rwa [hm, lintegral_one] at this
  intro f hf hf1
  have hle : (1 - ν Set.univ) ^ (i : ℕ) + (∑ j ∈ range i, (1 - ν Set.univ) ^ j) * δ ≤ (1 - ν Set.univ) ^ (i : ℕ) + δ / ν Set.univ := by
    rw [ENNReal.div_eq_inv_mul]
    gcongr
    exact geom_le hν1 i
  obtain ⟨a, b⟩ := h f hf hf1
  exact ⟨a.trans (by gcongr), b.trans (by gcongr)⟩

variable {N n : ℕ}

/-- A chain of trajectories and indices approaches the target from every start, up to the error of one step divided by the
rate. -/
theorem indexed_chain_settles {lam : Measure X} {ε : ℝ≥0∞} {l : (Fin (n + 1) → X) → ℝ} (hl : Measurable l)
    (hZ : ∫⁻ x, ENNReal.ofReal (Real.exp (l x)) ∂(Measure.pi fun _ => lam) ≠ 0 ∧
      ∫⁻ x, ENNReal.ofReal (Real.exp (l x)) ∂(Measure.pi fun _ => lam) ≠ ∞)
    {step : Key → (Fin (n + 1) → X) × (Fin (n + 1) → Fin (N + 1)) → Ex ((Fin (n + 1) → X) × (Fin (n + 1) → Fin (N + 1)))}
    (hmk : ∀ key, MarkovStep fun x b => step key (x, b)) (hrel : ∀ key, Relabels fun x b => step key (x, b))
    (hnear : ∀ key, LeavesNearInvariant ε lam l fun x b => step key (x, b)) {C : ℝ≥0∞}
    (hC : ∀ key x b f, Measurable f → C * ∫⁻ y, ENNReal.ofReal (Real.exp (l y)) * f y ∂(Measure.pi fun _ => lam) ≤
      step key (x, b) fun r => f r.1)
    {T : ℕ} (keys : Fin T → Key) (i : Fin (T + 1)) (s : (Fin (n + 1) → X) × (Fin (n + 1) → Fin (N + 1))) :
    TVLe ((1 - C * ∫⁻ x, ENNReal.ofReal (Real.exp (l x)) ∂(Measure.pi fun _ => lam)) ^ (i : ℕ) +
        ε / (C * ∫⁻ x, ENNReal.ofReal (Real.exp (l x)) ∂(Measure.pi fun _ => lam)))
      (fun f => chain step s keys fun tr => f (tr i).1) fun f => ∫⁻ x, f x ∂lawOf (Measure.pi fun _ => lam) l := by
  have hk : ∀ key, IsKer (step key) := fun key => (hmk key).ker
  have hm : ∀ key s, step key s (fun _ => 1) = 1 := fun key s => (hmk key).mass s.1 s.2
  have hlump : ∀ {f : (Fin (n + 1) → X) → ℝ≥0∞}, Measurable f → ∀ {T : ℕ} (keys : Fin T → Key) (i : Fin (T + 1)) s,
      chain step s keys (fun tr => f (tr i).1) = chain step (s.1, fun _ => 0) keys (fun tr => f (tr i).1) := fun {f} hf T keys i s => by
    have h1 := chain_relabels (kernel := step) hk hrel keys s.1 0 s.2 (fun tr => f (tr i).1) (by fun_prop)
    rw [zero_add] at h1
    exact h1
  have hP := lawOf_isProb hZ hl
  have hE : Measurable fun x => ENNReal.ofReal (Real.exp (l x)) := by fun_prop
  let ν : Measure (Fin (n + 1) → X) := C • (Measure.pi fun _ => lam).withDensity fun x => ENNReal.ofReal (Real.exp (l x))
  have hνi : ∀ f, Measurable f → ∫⁻ x, f x ∂ν = C * ∫⁻ y, ENNReal.ofReal (Real.exp (l y)) * f y ∂(Measure.pi fun _ => lam) := fun f hf => by
    show ∫⁻ x, f x ∂(C • _) = _
    rw [lintegral_smul_measure, lintegral_withDensity_eq_lintegral_mul _ hE hf]
    rfl
  have hν1 : ν Set.univ = C * ∫⁻ x, ENNReal.ofReal (Real.exp (l x)) ∂(Measure.pi fun _ => lam) := by
    rw [← lintegral_one, hνi _ measurable_const]
    simp only [mul_one]
  rw [← hν1]
  refine doeblin_converges hk hm (p := fun s : (Fin (n + 1) → X) × (Fin (n + 1) → Fin (N + 1)) => s.1) (σ := fun x => (x, fun _ => 0))
    (by fun_prop) (by fun_prop) (fun _ => rfl) (fun key s g hg => (hνi g hg).le.trans (hC key s.1 s.2 g hg)) hlump (fun key => ?_) keys i s
  obtain ⟨h0, hT⟩ := mass_index hZ (Fin (n + 1) → Fin (N + 1))
  intro f hf hf1
  have h1 := hnear key (fun s => f s.1) (by fun_prop) fun s => hf1 _
  have e : ∀ x b, step key (x, b) (fun s => f s.1) = step key (x, fun _ => 0) (fun s => f s.1) := fun x b =>
    (hrel key).indexFree x b (fun _ => 0) (fun x _ => f x) fun _ => hf
  have hKm : Measurable fun x => step key (x, fun _ => 0) (fun s => f s.1) :=
    ((hk key).comp (g := fun x : Fin (n + 1) → X => (x, fun _ => 0)) (by fun_prop)).measurable' (by fun_prop)
  simp only [e, Finset.sum_const, nsmul_eq_mul] at h1 h0 hT
  dsimp only
  rw [lintegral_lawOf hl hKm, lintegral_lawOf hl hf]
  have hcard : ((Finset.univ : Finset (Fin (n + 1) → Fin (N + 1))).card : ℝ≥0∞) ≠ 0 := by simp
  have hcard' : ((Finset.univ : Finset (Fin (n + 1) → Fin (N + 1))).card : ℝ≥0∞) ≠ ∞ := ENNReal.natCast_ne_top _
  generalize ((Finset.univ : Finset (Fin (n + 1) → Fin (N + 1))).card : ℝ≥0∞) = q at hcard hcard' h1
  generalize (∫⁻ x, ENNReal.ofReal (Real.exp (l x)) ∂(Measure.pi fun _ => lam)) = Z at hZ h1
  have key : ∀ a b : ℝ≥0∞, q * a ≤ q * b + ε * (q * Z) → Z⁻¹ * a ≤ Z⁻¹ * b + ε := fun a b h => by
    have h2 : q * a ≤ q * (b + ε * Z) := h.trans (le_of_eq (by ring))
    have h3 := (ENNReal.mul_le_mul_iff_right hcard hcard').1 h2
    calc Z⁻¹ * a ≤ Z⁻¹ * (b + ε * Z) := by gcongr
      _ = Z⁻¹ * b + ε * (Z * Z⁻¹) := by ring
      _ = _ := by rw [ENNReal.mul_inv_cancel hZ.1 hZ.2, mul_one]
  exact ⟨key _ _ h1.1, key _ _ h1.2⟩

end Verif
