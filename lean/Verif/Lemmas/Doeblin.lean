import Verif.Lemmas.ChainInv
import Verif.Lemmas.Near

/-!
# Chains that reach a fixed measure from every state forget their start
-/

open scoped ENNReal
open MeasureTheory ProbabilityTheory Finset

namespace Verif
open Verif.Spec Verif.Model

variable {S X : Type} [MeasurableSpace S] [MeasurableSpace X]

/-- One step brings the expectations of a function from any two states closer. -/
theorem doeblin_step {K : S → Ex S} (hK : IsKer K) (hm : ∀ s, K s (fun _ => 1) = 1) {p : S → X} (hp : Measurable p) {ν : Measure X}
    (hν : ∀ s g, Measurable g → ∫⁻ x, g x ∂ν ≤ K s (fun s' => g (p s'))) {g : X → ℝ≥0∞} (hg : Measurable g)
    {r : ℝ≥0∞} (hr : r ≠ ∞) (hgr : ∀ x y, g x ≤ g y + r) (s s' : S) :
    K s (fun s => g (p s)) ≤ K s' (fun s => g (p s)) + (1 - ν Set.univ) * r := by
  obtain ⟨κ, _, hκ⟩ := hK
  have h1 : ∀ s, κ s Set.univ = 1 := fun s => by
    have := (hκ s _ measurable_const).symm.trans (hm s)
    rwa [lintegral_one] at this
  have hν1 : ν Set.univ ≤ 1 := by
    have := hν s (fun _ => 1) measurable_const
    rwa [hm, lintegral_one] at this
  let m := ⨅ x, g x
  let g' : X → ℝ≥0∞ := fun x => g x - m
  have hg' : Measurable g' := hg.sub_const m
  have e : ∀ x, g x = m + g' x := fun x => (add_tsub_cancel_of_le (iInf_le g x)).symm
  have hg'r : ∀ x, g' x ≤ r := fun x => by
    rw [tsub_le_iff_left]
    have : Nonempty X := ⟨x⟩
    show g x ≤ (⨅ y, g y) + r
    rw [ENNReal.iInf_add]
    exact le_iInf fun y => hgr x y
  have eK : ∀ s, K s (fun s => g (p s)) = m + ∫⁻ t, g' (p t) ∂κ s := fun s => by
    refine (hκ s _ (hg.comp hp)).trans ?_
    show ∫⁻ t, g (p t) ∂κ s = _
    rw [lintegral_congr fun t => e (p t), lintegral_add_left measurable_const, lintegral_const, h1, mul_one]
  rw [eK, eK, add_assoc]
  gcongr
  have h2 : ∫⁻ t, g' (p t) ∂κ s + ∫⁻ t, (r - g' (p t)) ∂κ s = r := by
    refine (lintegral_add_left (hg'.comp hp) _).symm.trans ?_
    simp only [Function.comp_apply]
    simp only [add_tsub_cancel_of_le (hg'r _)]
    rw [lintegral_const, h1, mul_one]
  have h3 : ∫⁻ x, (r - g' x) ∂ν + ∫⁻ x, g' x ∂ν = r * ν Set.univ := by
    rw [add_comm, ← lintegral_add_left hg']
    simp only [add_tsub_cancel_of_le (hg'r _)]
    rw [lintegral_const]
  have h4 : ∫⁻ x, (r - g' x) ∂ν ≤ ∫⁻ t, (r - g' (p t)) ∂κ s := by
    refine (hν s _ (measurable_const.sub hg')).trans (le_of_eq ?_)
    exact hκ s _ ((measurable_const.sub hg').comp hp)
  have h5 : ∫⁻ x, g' x ∂ν ≤ ∫⁻ t, g' (p t) ∂κ s' := (hν s' _ hg').trans (le_of_eq (hκ s' _ (hg'.comp hp)))
  have hfin : r * ν Set.univ ≠ ∞ := ENNReal.mul_ne_top hr (ne_top_of_le_ne_top ENNReal.one_ne_top hν1)
  refine (ENNReal.add_le_add_iff_right hfin).mp ?_
  have h6 : (1 - ν Set.univ) * r + r * ν Set.univ = r := by
    rw [mul_comm r, ← add_mul, tsub_add_cancel_of_le hν1, one_mul]
  rw [add_assoc, h6, ← h3]
  calc ∫⁻ t, g' (p t) ∂κ s + (∫⁻ x, (r - g' x) ∂ν + ∫⁻ x, g' x ∂ν)
      ≤ ∫⁻ t, g' (p t) ∂κ s + (∫⁻ t, (r - g' (p t)) ∂κ s + ∫⁻ t, g' (p t) ∂κ s') := by gcongr
    _ = ∫⁻ t, g' (p t) ∂κ s' + r := by rw [← add_assoc, h2, add_comm]

/-- Two chains with the same keys and any starting points get closer at a geometric rate. -/
theorem doeblin_chain {step : Key → S → Ex S} (hk : ∀ key, IsKer (step key)) (hm : ∀ key s, step key s (fun _ => 1) = 1) {p : S → X}
    (hp : Measurable p) {σ : X → S} (hσ : Measurable σ) {ν : Measure X}
    (hν : ∀ key s g, Measurable g → ∫⁻ x, g x ∂ν ≤ step key s (fun s' => g (p s'))) {f : X → ℝ≥0∞} (hf : Measurable f)
    (hlump : ∀ {T : ℕ} (keys : Fin T → Key) (i : Fin (T + 1)) (s : S), chain step s keys (fun tr => f (p (tr i))) =
      chain step (σ (p s)) keys (fun tr => f (p (tr i)))) (hf1 : ∀ x, f x ≤ 1) {T : ℕ} (keys : Fin T → Key) (i : Fin (T + 1)) (s s' : S) :
    chain step s keys (fun tr => f (p (tr i))) ≤ chain step s' keys (fun tr => f (p (tr i))) + (1 - ν Set.univ) ^ (i : ℕ) := by
  have hle : ∀ {T : ℕ} (keys : Fin T → Key) (i : Fin (T + 1)) (s : S), chain step s keys (fun tr => f (p (tr i))) ≤ 1 :=
    fun keys i s => ((chain_ker hk keys).mono s (by fun_prop) measurable_const fun tr => hf1 _).trans (chain_mass hm keys s).le
  induction T generalizing s s' with
  | zero =>
    have : i = 0 := by omega
    subst this
    rw [Fin.val_zero, pow_zero]
    exact (hle keys 0 s).trans le_add_self
  | succ T ih =>
    refine Fin.cases ?_ (fun j => ?_) i
    · rw [Fin.val_zero, pow_zero]
      exact (hle keys 0 s).trans le_add_self
    · let g : X → ℝ≥0∞ := fun x => chain step (σ x) (tailA keys) fun tr => f (p (tr j))
      have hg : Measurable g := ((chain_ker hk (tailA keys)).comp hσ).measurable' (by fun_prop)
      have e : ∀ s, chain step s keys (fun tr => f (p (tr j.succ))) = step (keys 0) s fun s1 => g (p s1) := fun s => by
        show step (keys 0) s (fun s1 => chain step s1 (tailA keys) fun rest => f (p (insert0 s rest j.succ))) = _
        refine Ex.congr_fun' _ fun s1 => ?_
        simp only [insert0_succ]
        exact hlump (tailA keys) j s1
      have hν1 : ν Set.univ ≤ 1 := by
        have := hν (keys 0) s (fun _ => 1) measurable_const
        rwa [hm, lintegral_one] at this
      have hr : (1 - ν Set.univ) ^ (j : ℕ) ≠ ∞ := ENNReal.pow_ne_top (ne_top_of_le_ne_top ENNReal.one_ne_top tsub_le_self)
      have h := doeblin_step (hk (keys 0)) (hm (keys 0)) hp (hν (keys 0)) hg hr (fun x y => ih (tailA keys) j (σ x) (σ y)) s s'
      rw [e, e, Fin.val_succ, pow_succ, mul_comm ((1 - ν Set.univ) ^ (j : ℕ))]
      exact h

/-- A chain that forgets its start and that approximately keeps `π` approaches `π`. -/
theorem converges_of_near {step : Key → S → Ex S} (hk : ∀ key, IsKer (step key)) {p : S → X} (hp : Measurable p) {σ : X → S}
    (hσ : Measurable σ) {π : Measure X} [IsProbabilityMeasure π] {r δ : ℝ≥0∞} {T : ℕ} (keys : Fin T → Key) (i : Fin (T + 1))
    (hr : ∀ f : X → ℝ≥0∞, Measurable f → (∀ x, f x ≤ 1) → ∀ s s', chain step s keys (fun tr => f (p (tr i))) ≤
      chain step s' keys (fun tr => f (p (tr i))) + r)
    (hδ : TVLe δ (fun f => ∫⁻ x, chain step (σ x) keys (fun tr => f (p (tr i))) ∂π) (fun f => ∫⁻ x, f x ∂π)) (s : S) :
    TVLe (r + δ) (fun f => chain step s keys fun tr => f (p (tr i))) fun f => ∫⁻ x, f x ∂π := by
  intro f hf hf1
  obtain ⟨h1, h2⟩ := hδ f hf hf1
  have hm : Measurable fun x => chain step (σ x) keys fun tr => f (p (tr i)) := ((chain_ker hk keys).comp hσ).measurable' (by fun_prop)
  have e : ∀ c : ℝ≥0∞, c = ∫⁻ _, c ∂π := fun c => by rw [lintegral_const, measure_univ, mul_one]
  dsimp only at h1 h2 ⊢
  constructor
  · calc chain step s keys (fun tr => f (p (tr i))) = ∫⁻ _, chain step s keys (fun tr => f (p (tr i))) ∂π := e _
      _ ≤ ∫⁻ x, (chain step (σ x) keys (fun tr => f (p (tr i))) + r) ∂π := lintegral_mono fun x => hr f hf hf1 s (σ x)
      _ = ∫⁻ x, chain step (σ x) keys (fun tr => f (p (tr i))) ∂π + r := by rw [lintegral_add_left hm, ← e]
      _ ≤ (∫⁻ x, f x ∂π + δ) + r := by gcongr
      _ = ∫⁻ x, f x ∂π + (r + δ) := by rw [add_assoc, add_comm δ]
  · calc ∫⁻ x, f x ∂π ≤ ∫⁻ x, chain step (σ x) keys (fun tr => f (p (tr i))) ∂π + δ := h2
      _ ≤ ∫⁻ _, (chain step s keys (fun tr => f (p (tr i))) + r) ∂π + δ := by
          gcongr with x
          exact hr f hf hf1 (σ x) s
      _ = chain step s keys (fun tr => f (p (tr i))) + (r + δ) := by rw [← e, add_assoc]

end Verif
