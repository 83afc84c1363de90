import Verif.Lemmas.ManyParticles
import Verif.Lemmas.MinorizeCsmc
import Verif.Lemmas.MinorizeSchemes
import Verif.Lemmas.MovePairs
import Verif.Lemmas.MultiTryInv
import Verif.Spec.Indices
import Mathlib.Probability.Independence.Integration

/-!
# `csmc.kernel` with many particles
-/

open scoped ENNReal
open MeasureTheory ProbabilityTheory Finset

namespace Verif
open Verif.Spec Verif.Model

variable {N n : ℕ}

/-- The chord of `1 / y`. -/
theorem two_div_le {y c : ℝ≥0∞} (hy : y ≠ 0) (hy' : y ≠ ∞) (hc : c ≠ 0) (hc' : c ≠ ∞) : 2 * c⁻¹ ≤ y⁻¹ + y * (c⁻¹ * c⁻¹) := by
  lift y to NNReal using hy'
  lift c to NNReal using hc'
  have hy0 : y ≠ 0 := by simpa using hy
  have hc0 : c ≠ 0 := by simpa using hc
  rw [← ENNReal.coe_inv hy0, ← ENNReal.coe_inv hc0]
  norm_cast
  rw [← NNReal.coe_le_coe]
  push_cast
  have h1 : (0 : ℝ) < y := by positivity
  have h2 : (0 : ℝ) < c := by positivity
  have h3 : (y : ℝ)⁻¹ + y * ((c : ℝ)⁻¹ * (c : ℝ)⁻¹) - 2 * (c : ℝ)⁻¹ = (y - c) ^ 2 / (y * c ^ 2) := by
    field_simp
    ring
  have h4 : 0 ≤ ((y : ℝ) - c) ^ 2 / (y * c ^ 2) := by positivity
  linarith

theorem pow_ge {x e : ℝ≥0∞} (hx : x ≤ 1) (h : 1 ≤ x + e) (n : ℕ) : 1 ≤ x ^ n + n * e := by
  induction n with
  | zero => simp
  | succ n ih =>
    calc 1 ≤ x * 1 + e := by rwa [mul_one]
      _ ≤ x * (x ^ n + n * e) + e := by gcongr
      _ = x ^ (n + 1) + x * (n * e) + e := by ring
      _ ≤ x ^ (n + 1) + 1 * (n * e) + e := by gcongr
      _ = _ := by push_cast; ring

/-- A lower bound on the probabilities of a kernel is one on its expectations. -/
theorem lintegral_le_of_le_one {S α β : Type} [MeasurableSpace S] [MeasurableSpace α] [MeasurableSpace β] {K : S → Ex α} (hK : IsKer K) (s : S)
    {p : α → β} (hp : Measurable p) {ν : Measure β} (h : ∀ f : β → ℝ≥0∞, Measurable f → (∀ b, f b ≤ 1) → ∫⁻ b, f b ∂ν ≤ K s fun a => f (p a))
    {f : β → ℝ≥0∞} (hf : Measurable f) : ∫⁻ b, f b ∂ν ≤ K s fun a => f (p a) := by
  obtain ⟨κ, _, hκ⟩ := hK
  have e : ∀ f : β → ℝ≥0∞, Measurable f → K s (fun a => f (p a)) = ∫⁻ b, f b ∂(κ s).map p := fun f hf =>
    (hκ s _ (hf.comp hp)).trans (lintegral_map hf hp).symm
  have hle : ν ≤ (κ s).map p := Measure.le_iff.mpr fun A hA => by
    have h1 := h (A.indicator 1) (measurable_one.indicator hA) fun b => Set.indicator_le_self' (fun _ _ => zero_le) b |>.trans le_rfl
    rw [e _ (measurable_one.indicator hA), lintegral_indicator_one hA, lintegral_indicator_one hA] at h1
    exact h1
  exact (lintegral_mono' hle le_rfl).trans (e f hf).ge

/-- A probability law at least a multiple of another is close to it. -/
theorem tvLe_of_ge {S α β : Type} [MeasurableSpace S] [MeasurableSpace α] [MeasurableSpace β] {K : S → Ex α} (hK : IsKer K) (s : S)
    (h1 : K s (fun _ => 1) = 1) {p : α → β} (hp : Measurable p) {π : Measure β} [IsProbabilityMeasure π] {ε : ℝ≥0∞}
    (h : ∀ f : β → ℝ≥0∞, Measurable f → ε * ∫⁻ b, f b ∂π ≤ K s fun a => f (p a)) :
    TVLe (1 - ε) (fun f => K s fun a => f (p a)) fun f => ∫⁻ b, f b ∂π := fun f hf hf1 => by
  have hε : ε ≤ 1 := by
    have := h (fun _ => 1) measurable_const
    rwa [lintegral_one, measure_univ, mul_one, h1] at this
  have hε' : ε ≠ ∞ := ne_top_of_le_ne_top ENNReal.one_ne_top hε
  have hπ : ∀ g : β → ℝ≥0∞, (∀ b, g b ≤ 1) → ∫⁻ b, g b ∂π ≤ 1 := fun g hg =>
    (lintegral_mono hg).trans (by rw [lintegral_one, measure_univ])
  have hg : Measurable fun b => 1 - f b := measurable_const.sub hf
  have e1 : ∫⁻ b, f b ∂π + ∫⁻ b, (1 - f b) ∂π = 1 := by
    rw [← lintegral_add_left hf, lintegral_congr fun b => add_tsub_cancel_of_le (hf1 b), lintegral_one, measure_univ]
  have e2 : K s (fun a => f (p a)) + K s (fun a => 1 - f (p a)) = 1 := by
    refine (hK.add s (hf.comp hp) (hg.comp hp)).symm.trans (Eq.trans ?_ h1)
    exact Ex.congr_fun' _ fun a => add_tsub_cancel_of_le (hf1 (p a))
  constructor
  · have h3 := h _ hg
    have hfin : ε * ∫⁻ b, (1 - f b) ∂π ≠ ∞ := ENNReal.mul_ne_top hε' (ne_top_of_le_ne_top ENNReal.one_ne_top (hπ _ fun b => tsub_le_self))
    refine (ENNReal.add_le_add_iff_right hfin).mp ?_
    calc K s (fun a => f (p a)) + ε * ∫⁻ b, (1 - f b) ∂π ≤ 1 := (add_le_add le_rfl h3).trans e2.le
      _ = ε * (∫⁻ b, f b ∂π + ∫⁻ b, (1 - f b) ∂π) + (1 - ε) := by rw [e1, mul_one, add_tsub_cancel_of_le hε]
      _ = ε * ∫⁻ b, f b ∂π + (1 - ε) + ε * ∫⁻ b, (1 - f b) ∂π := by ring
      _ ≤ _ := by
        gcongr
        exact mul_le_of_le_one_left' hε
  · calc ∫⁻ b, f b ∂π = (ε + (1 - ε)) * ∫⁻ b, f b ∂π := by rw [add_tsub_cancel_of_le hε, one_mul]
      _ = ε * ∫⁻ b, f b ∂π + (1 - ε) * ∫⁻ b, f b ∂π := by ring
      _ ≤ _ := add_le_add (h f hf) (mul_le_of_le_one_right' (hπ f hf1))

/-- If every step is close to a law from everywhere, so is every later state of a chain. -/
theorem chain_close {S β : Type} [MeasurableSpace S] [MeasurableSpace β] {step : Key → S → Ex S} (hk : ∀ key, IsKer (step key))
    (hm : ∀ key s, step key s (fun _ => 1) = 1) {p : S → β} (hp : Measurable p) {Q : Ex β} {E : ℝ≥0∞}
    (h : ∀ key s, TVLe E (fun f => step key s fun s' => f (p s')) Q) {T : ℕ} (keys : Fin T → Key) (i : Fin T) (s : S) :
    TVLe E (fun f => chain step s keys fun tr => f (p (tr i.succ))) Q := by
  induction T generalizing s with
  | zero => exact i.elim0
  | succ T ih =>
    intro f hf hf1
    have e : ∀ j : Fin (T + 1), chain step s keys (fun tr => f (p (tr j.succ))) = step (keys 0) s fun s1 =>
        chain step s1 (tailA keys) fun tr => f (p (tr j)) := fun j => by
      show step (keys 0) s (fun s1 => chain step s1 (tailA keys) fun rest => f (p (insert0 s rest j.succ))) = _
      simp only [insert0_succ]
    simp only [e]
    revert i
    refine Fin.cases ?_ fun j => ?_
    · have e0 : ∀ s1, chain step s1 (tailA keys) (fun tr => f (p (tr 0))) = f (p s1) := fun s1 => by
        have hconst : ∀ {n : ℕ} (keys : Fin n → Key) (s : S) (c : ℝ≥0∞), chain step s keys (fun _ => c) = c :=
          fun keys s c => by rw [(chain_ker hk keys).const_fun s c, chain_mass hm, mul_one]
        cases T with
        | zero => rfl
        | succ T =>
          show step (tailA keys 0) s1 (fun s' => chain step s' (tailA (tailA keys)) (fun _ => f (p s1))) = f (p s1)
          simp only [hconst]
          rw [(hk _).const_fun s1 (f (p s1)), hm, mul_one]
      simp only [e0]
      exact h (keys 0) s f hf hf1
    · have hmeas : Measurable fun s1 => chain step s1 (tailA keys) fun tr => f (p (tr j.succ)) :=
        (chain_ker hk (tailA keys)).measurable' (by fun_prop)
      have hc : ∀ c, step (keys 0) s (fun _ => c) = c := fun c => by rw [(hk _).const_fun s c, hm, mul_one]
      have ih' := fun s1 => ih (tailA keys) j s1 f hf hf1
      constructor
      · refine ((hk (keys 0)).mono s hmeas measurable_const fun s1 => (ih' s1).1).trans (le_of_eq ?_)
        exact hc _
      · have h2 := (hk (keys 0)).mono s (f := fun _ => Q f) measurable_const (hmeas.add_const E) fun s1 => (ih' s1).2
        rw [hc] at h2
        refine h2.trans (le_of_eq ?_)
        refine ((hk (keys 0)).add s hmeas measurable_const).trans ?_
        rw [hc]

/-- Chains of two kernels that are close stay close. -/
theorem chain_compare {S β : Type} [MeasurableSpace S] [MeasurableSpace β] {step step' : Key → S → Ex S} (hk : ∀ key, IsKer (step key))
    (hk' : ∀ key, IsKer (step' key)) (hm : ∀ key s, step key s (fun _ => 1) = 1) (hm' : ∀ key s, step' key s (fun _ => 1) = 1)
    {p : S → β} (hp : Measurable p) {ε : ℝ≥0∞} (h : ∀ key s, TVLe ε (step key s) (step' key s)) {T : ℕ} (keys : Fin T → Key)
    (i : Fin (T + 1)) (s : S) :
    TVLe (i * ε) (fun f => chain step s keys fun tr => f (p (tr i))) fun f => chain step' s keys fun tr => f (p (tr i)) := by
  induction T generalizing s with
  | zero => exact fun f _ _ => ⟨le_self_add, le_self_add⟩
  | succ T ih =>
    intro f hf hf1
    have hconst : ∀ {step : Key → S → Ex S} (_ : ∀ key, IsKer (step key)) (_ : ∀ key s, step key s (fun _ => 1) = 1) {n : ℕ}
        (keys : Fin n → Key) (s : S) (c : ℝ≥0∞), chain step s keys (fun _ => c) = c := fun hk hm _ keys s c => by
      rw [(chain_ker hk keys).const_fun s c, chain_mass hm, mul_one]
    revert i
    refine Fin.cases ?_ fun j => ?_
    · have e0 : ∀ {step : Key → S → Ex S} (_ : ∀ key, IsKer (step key)) (_ : ∀ key s, step key s (fun _ => 1) = 1),
          chain step s keys (fun tr => f (p (tr 0))) = f (p s) := fun {step} hk hm => by
        show step (keys 0) s (fun s' => chain step s' (tailA keys) (fun _ => f (p s))) = f (p s)
        simp only [hconst hk hm]
        rw [(hk _).const_fun s (f (p s)), hm, mul_one]
      simp only [e0 hk hm, e0 hk' hm']
      exact ⟨le_self_add, le_self_add⟩
    · have e : ∀ step : Key → S → Ex S, chain step s keys (fun tr => f (p (tr j.succ))) = step (keys 0) s fun s1 =>
          chain step s1 (tailA keys) fun tr => f (p (tr j)) := fun step => by
        show step (keys 0) s (fun s1 => chain step s1 (tailA keys) fun rest => f (p (insert0 s rest j.succ))) = _
        simp only [insert0_succ]
      simp only [e]
      have hg : Measurable fun s1 => chain step s1 (tailA keys) fun tr => f (p (tr j)) :=
        (chain_ker hk (tailA keys)).measurable' (by fun_prop)
      have hg' : Measurable fun s1 => chain step' s1 (tailA keys) fun tr => f (p (tr j)) :=
        (chain_ker hk' (tailA keys)).measurable' (by fun_prop)
      have hg1 : ∀ s1, chain step' s1 (tailA keys) (fun tr => f (p (tr j))) ≤ 1 := fun s1 =>
        ((chain_ker hk' (tailA keys)).mono s1 (f := fun tr => f (p (tr j))) (g := fun _ => 1) (by fun_prop) (by fun_prop)
          fun tr => hf1 _).trans (hconst hk' hm' _ _ _).le
      have ih' := fun s1 => ih (tailA keys) j s1 f hf hf1
      obtain ⟨a1, a2⟩ := h (keys 0) s _ hg' hg1
      have e' : (((Fin.succ j : Fin (T + 1 + 1)) : ℕ) : ℝ≥0∞) * ε = ε + ((j : ℕ) : ℝ≥0∞) * ε := by
        rw [Fin.val_succ]; push_cast; ring
      have hc : ∀ c, step (keys 0) s (fun _ => c) = c := fun c => by rw [(hk _).const_fun s c, hm, mul_one]
      rw [e']
      constructor
      · refine ((hk (keys 0)).mono s hg (hg'.add_const _) fun s1 => (ih' s1).1).trans ?_
        refine ((hk (keys 0)).add s hg' measurable_const).le.trans ?_
        rw [hc, ← add_assoc]
        exact add_le_add a1 le_rfl
      · refine a2.trans ?_
        rw [add_comm ε, ← add_assoc]
        refine add_le_add ?_ le_rfl
        refine ((hk (keys 0)).mono s hg' (hg.add_const _) fun s1 => (ih' s1).2).trans ?_
        refine ((hk (keys 0)).add s hg measurable_const).le.trans ?_
        rw [hc]

section kernel
variable {X : Type} [MeasurableSpace X] {lam : Measure X} [SFinite lam]

/-- The kernel of an abstract conditional particle system with many particles and the first moment. -/
theorem Sys.OK.kernel_first {S : Sys X N n} (hS : S.OK) (hN : 1 ≤ N) {c B : Fin (n + 1) → ℝ} (hI : S.Indep c B)
    {Γ : Fin n → X → X → ℝ} (hd : S.Density lam Γ) (bw : Bool)
    (ho : ∀ t, FewOffspring (S.R t)) (hp : ∀ t, PairsSpread (S.R t))
    {move : (Fin (N + 1) → ℝ) → Fin (N + 1) → Ex (Fin (N + 1))} (hm : MoveKer move) (hmove : MovesAway 1 move)
    (hZ0 : S.path (fun _ => 1) ≠ 0) (hZ : S.path (fun _ => 1) ≠ ∞)
    (x : Fin (n + 1) → X) (b : Fin (n + 1) → Fin (N + 1)) {f : (Fin (n + 1) → X) → ℝ≥0∞} (hf : Measurable f) :
    2 * (S.path (fun _ => 1) + 2 * (n + 1) * ((N : ℝ≥0∞) + 1)⁻¹ * ∏ t, ENNReal.ofReal (Real.exp (B t)))⁻¹ * ((N : ℝ≥0∞) + 1)⁻¹ *
        S.fwd b x (fun h => S.past c h * S.avSum c Γ bw b h f) ≤
      S.kernel Γ move bw x b (fun r => f r.1) + S.path f *
        (S.path (fun _ => 1) + 2 * (n + 1) * ((N : ℝ≥0∞) + 1)⁻¹ * ∏ t, ENNReal.ofReal (Real.exp (B t)))⁻¹ := by
  have hNN : ((N : ℝ≥0∞) + 1) * ((N : ℝ≥0∞) + 1)⁻¹ = 1 := ENNReal.mul_inv_cancel (by positivity) (by finiteness)
  have h2 := hS.second_up hN hI hd bw ho hp b x hf (r := fun _ => 1) measurable_const (C := 1) fun _ => le_rfl
  have eA := fun h => S.mass_avSum c Γ bw b h f
  rw [mul_one] at h2
  have hc : S.path (fun _ => 1) + 2 * (n + 1) * ((N : ℝ≥0∞) + 1)⁻¹ * ∏ t, ENNReal.ofReal (Real.exp (B t)) ≠ 0 := fun h =>
    hZ0 (add_eq_zero.mp h).1
  have hc' : S.path (fun _ => 1) + 2 * (n + 1) * ((N : ℝ≥0∞) + 1)⁻¹ * ∏ t, ENNReal.ofReal (Real.exp (B t)) ≠ ∞ :=
    ENNReal.add_ne_top.mpr ⟨hZ, ENNReal.mul_ne_top (by finiteness) (ENNReal.prod_ne_top fun t _ => ENNReal.ofReal_ne_top)⟩
  generalize S.path (fun _ => 1) + 2 * (n + 1) * ((N : ℝ≥0∞) + 1)⁻¹ * ∏ t, ENNReal.ofReal (Real.exp (B t)) = C at *
  have hCC : C * C⁻¹ = 1 := ENNReal.mul_inv_cancel hc hc'
  generalize ((N : ℝ≥0∞) + 1)⁻¹ = ν at *
  have hm1 := hS.measurable_first c hd.meas bw b hf
  have hm2 := hS.measurable_second c hd.meas bw b hf (r := fun _ => 1) measurable_const
  have e : (S.kernel Γ move bw x b fun r => f r.1) =
      S.fwd b x fun h => move (S.wLast h) (lastA b) fun k => S.sel Γ bw h k f := by
    cases bw <;> rfl
  rw [e]
  have hm3 : Measurable fun h => move (S.wLast h) (lastA b) fun k => S.sel Γ bw h k f := by
    refine (hm.comp (g := fun h : Hist X N n => (S.wLast h, lastA b)) (hS.measurable_wLast.prodMk measurable_const)).measurable
      (f := fun h k => S.sel Γ bw h k f) ?_
    exact (hS.sel_ker hd.meas bw).measurable' hf
  have hpt : ∀ h, 2 * C⁻¹ * ν * (S.past c h * S.avSum c Γ bw b h f) ≤
      move (S.wLast h) (lastA b) (fun k => S.sel Γ bw h k f) +
        C⁻¹ * C⁻¹ * ν * ν * (S.past c h ^ 2 * S.avSum c Γ bw b h f * S.vSum c (fun _ => 1) h) := fun h => by
    have e1 := eA h
    rw [sum_erase_ite] at e1
    have e2 := hmove (S.wLast h) (normalize_isProb _) (normalize_pos _) (lastA b) (fun k => S.sel Γ bw h k f)
    have e3 : ∑ l ∈ univ.erase (lastA b), ENNReal.ofReal (S.wLast h l) * S.av Γ bw b h l f ≤
        ∑ l ∈ univ.erase (lastA b), ENNReal.ofReal (S.wLast h l) * S.sel Γ bw h l f :=
      sum_le_sum fun l _ => mul_le_mul_right (S.av_le Γ bw b h l f) _
    rw [one_mul] at e2
    refine le_trans ?_ (add_le_add (e3.trans e2) le_rfl)
    have e4 := S.vSum_one c h
    rw [e4]
    have hy := S.mass_pos c h
    have hy' := S.mass_ne_top c h
    have hz := S.past_pos c h
    have hz' := S.past_ne_top c h
    generalize (∑ l ∈ univ.erase (lastA b), ENNReal.ofReal (S.wLast h l) * S.av Γ bw b h l f) = D at *
    generalize S.avSum c Γ bw b h f = A at *
    generalize S.mass c h = μ at *
    generalize S.past c h = p at *
    have h3 := mul_le_mul_right (two_div_le (mul_ne_zero hz hy) (ENNReal.mul_ne_top hz' hy') hc hc') (p * μ * D)
    have h4 : p * μ * (p * μ)⁻¹ = 1 := ENNReal.mul_inv_cancel (mul_ne_zero hz hy) (ENNReal.mul_ne_top hz' hy')
    calc 2 * C⁻¹ * ν * (p * A) = 2 * C⁻¹ * p * (ν * A) := by ring
      _ = p * μ * D * (2 * C⁻¹) := by rw [← e1]; ring
      _ ≤ _ := h3
      _ = p * μ * (p * μ)⁻¹ * D + C⁻¹ * C⁻¹ * (p * (p * μ)) * (μ * D) := by ring
      _ = D + C⁻¹ * C⁻¹ * (p * (p * μ)) * (((N + 1) * ν) * (ν * A)) := by rw [h4, one_mul, e1, hNN, one_mul]
      _ = _ := by ring
  have h3 := (hS.fwd_ker).mono (b, x) (hm1.const_mul (2 * C⁻¹ * ν)) (hm3.add (hm2.const_mul (C⁻¹ * C⁻¹ * ν * ν))) hpt
  have h4 := (hS.fwd_ker).const_mul (b, x) (2 * C⁻¹ * ν) hm1
  have h5 := (hS.fwd_ker).add (b, x) hm3 (hm2.const_mul (C⁻¹ * C⁻¹ * ν * ν))
  have h6 := (hS.fwd_ker).const_mul (b, x) (C⁻¹ * C⁻¹ * ν * ν) hm2
  calc 2 * C⁻¹ * ν * S.fwd b x (fun h => S.past c h * S.avSum c Γ bw b h f) ≤ _ := h4.symm.le.trans (h3.trans (h5.le.trans (add_le_add le_rfl (h6.le.trans (mul_le_mul_right h2 _)))))
    _ = S.fwd b x (fun h => move (S.wLast h) (lastA b) fun k => S.sel Γ bw h k f) +
        S.path f * C⁻¹ * (C * C⁻¹) * (((N + 1) * ν) * ((N + 1) * ν)) := by ring
    _ = _ := by rw [hCC, hNN, mul_one, mul_one, mul_one]

/-- **Lower bound** on the kernel of an abstract conditional particle system with many particles. -/
theorem Sys.OK.kernel_many {S : Sys X N n} (hS : S.OK) (hN : 1 ≤ N) {c B : Fin (n + 1) → ℝ} (hI : S.Indep c B)
    {Γ : Fin n → X → X → ℝ} (hd : S.Density lam Γ) {q : ℝ≥0∞} (bw : Bool) (hq : ∀ t, Spreads q bw (S.R t))
    (ho : ∀ t, FewOffspring (S.R t)) (hp : ∀ t, PairsSpread (S.R t))
    {move : (Fin (N + 1) → ℝ) → Fin (N + 1) → Ex (Fin (N + 1))} (hm : MoveKer move) (hmove : MovesAway 1 move)
    (hZ0 : S.path (fun _ => 1) ≠ 0) (hZ : S.path (fun _ => 1) ≠ ∞)
    (x : Fin (n + 1) → X) (b : Fin (n + 1) → Fin (N + 1)) {f : (Fin (n + 1) → X) → ℝ≥0∞} (hf : Measurable f) :
    2 * (N * ((N : ℝ≥0∞) + 1)⁻¹ * (q * ((N : ℝ≥0∞) + 1)⁻¹) ^ n) * S.path f *
        (S.path (fun _ => 1) + 2 * (n + 1) * ((N : ℝ≥0∞) + 1)⁻¹ * ∏ t, ENNReal.ofReal (Real.exp (B t)))⁻¹ ≤
      S.kernel Γ move bw x b (fun r => f r.1) + S.path f *
        (S.path (fun _ => 1) + 2 * (n + 1) * ((N : ℝ≥0∞) + 1)⁻¹ * ∏ t, ENNReal.ofReal (Real.exp (B t)))⁻¹ := by
  have h1 := hS.first_low hI hd (q := q) bw hq b x hf
  refine le_trans ?_ (hS.kernel_first hN hI hd bw ho hp hm hmove hZ0 hZ x b hf)
  generalize S.path (fun _ => 1) + 2 * (n + 1) * ((N : ℝ≥0∞) + 1)⁻¹ * ∏ t, ENNReal.ofReal (Real.exp (B t)) = C at *
  generalize ((N : ℝ≥0∞) + 1)⁻¹ = ν at *
  calc 2 * (N * ν * (q * ν) ^ n) * S.path f * C⁻¹ = 2 * C⁻¹ * ν * (N * (q * ν) ^ n * S.path f) := by ring
    _ ≤ _ := by gcongr

/-- The bound of `kernel_many` in terms of the mass of the target. -/
theorem many_rate (hN : 1 ≤ N) {q : ℝ≥0∞} (hq : q ≤ N) (hq' : N ≤ q + 1) {B : Fin (n + 1) → ℝ} {Z : ℝ≥0∞} (hZ0 : Z ≠ 0) (hZ : Z ≠ ∞) :
    1 - (2 * (N * ((N : ℝ≥0∞) + 1)⁻¹ * (q * ((N : ℝ≥0∞) + 1)⁻¹) ^ n) - 1) *
        (Z + 2 * (n + 1) * ((N : ℝ≥0∞) + 1)⁻¹ * ∏ t, ENNReal.ofReal (Real.exp (B t)))⁻¹ * Z ≤ manyErr N n B Z := by
  have hNN : ((N : ℝ≥0∞) + 1) * ((N : ℝ≥0∞) + 1)⁻¹ = 1 := ENNReal.mul_inv_cancel (by positivity) (by finiteness)
  have hE : manyErr N n B Z = (4 * n + 2) * ((N : ℝ≥0∞) + 1)⁻¹ +
      2 * (n + 1) * ((N : ℝ≥0∞) + 1)⁻¹ * (∏ t, ENNReal.ofReal (Real.exp (B t))) * Z⁻¹ := by
    rw [manyErr, div_eq_mul_inv, div_eq_mul_inv]
    ring
  rw [hE]
  have hfin : 2 * (n + 1) * ((N : ℝ≥0∞) + 1)⁻¹ * ∏ t, ENNReal.ofReal (Real.exp (B t)) ≠ ∞ :=
    ENNReal.mul_ne_top (by finiteness) (ENNReal.prod_ne_top fun t _ => ENNReal.ofReal_ne_top)
  generalize 2 * (n + 1) * ((N : ℝ≥0∞) + 1)⁻¹ * ∏ t, ENNReal.ofReal (Real.exp (B t)) = δ at *
  generalize ((N : ℝ≥0∞) + 1)⁻¹ = ν at *
  have hx1 : q * ν ≤ 1 := by
    rw [← hNN]
    gcongr
    exact hq.trans le_self_add
  have hx2 : 1 ≤ q * ν + 2 * ν := by
    rw [← hNN, ← add_mul]
    refine mul_le_mul_left ?_ ν
    calc (N : ℝ≥0∞) + 1 ≤ q + 1 + 1 := by gcongr
      _ = q + 2 := by rw [add_assoc, one_add_one_eq_two]
  have hy1 : N * ν ≤ 1 := by
    rw [← hNN]
    gcongr
    exact le_self_add
  have hr1 : N * ν * (q * ν) ^ n ≤ 1 := mul_le_one' hy1 (pow_le_one' hx1 n)
  have hr2 : 1 ≤ N * ν * (q * ν) ^ n + (2 * n + 1) * ν := by
    have h := pow_ge hx1 hx2 n
    calc (1 : ℝ≥0∞) = (N + 1) * ν := hNN.symm
      _ = N * ν * 1 + ν := by ring
      _ ≤ N * ν * ((q * ν) ^ n + n * (2 * ν)) + ν := by gcongr
      _ = N * ν * (q * ν) ^ n + N * ν * (n * (2 * ν)) + ν := by ring
      _ ≤ N * ν * (q * ν) ^ n + 1 * (n * (2 * ν)) + ν := by gcongr
      _ = _ := by ring
  generalize N * ν * (q * ν) ^ n = r at *
  have hρ : 1 ≤ (2 * r - 1) + (4 * n + 2) * ν := by
    have h : (1 : ℝ≥0∞) + 1 ≤ (2 * r - 1) + (4 * n + 2) * ν + 1 := by
      calc (1 : ℝ≥0∞) + 1 = 2 * 1 := by norm_num
        _ ≤ 2 * (r + (2 * n + 1) * ν) := by gcongr
        _ = 2 * r + (4 * n + 2) * ν := by ring
        _ ≤ ((2 * r - 1) + 1) + (4 * n + 2) * ν := by
          gcongr
          exact le_tsub_add
        _ = _ := by ring
    exact (ENNReal.add_le_add_iff_right ENNReal.one_ne_top).mp h
  have hρ1 : 2 * r - 1 ≤ 1 := by
    rw [tsub_le_iff_right]
    calc 2 * r ≤ 2 * 1 := by gcongr
      _ = 1 + 1 := by norm_num
  generalize 2 * r - 1 = ρ at *
  rw [tsub_le_iff_right]
  have hc : (Z + δ) * (Z + δ)⁻¹ = 1 := ENNReal.mul_inv_cancel (fun h => hZ0 (add_eq_zero.mp h).1) (ENNReal.add_ne_top.mpr ⟨hZ, hfin⟩)
  calc 1 ≤ ρ + (4 * n + 2) * ν := hρ
    _ = ρ * (Z + δ)⁻¹ * Z + ρ * (δ * (Z + δ)⁻¹) + (4 * n + 2) * ν := by
      nth_rewrite 1 [← mul_one ρ, ← hc]
      ring
    _ ≤ ρ * (Z + δ)⁻¹ * Z + 1 * (δ * Z⁻¹) + (4 * n + 2) * ν := by
      gcongr
      exact le_self_add
    _ = _ := by ring

end kernel

/-! ## The schemes -/

section schemes
variable {w : Fin (N + 1) → ℝ}

theorem sum_prod_pair {α : Type} [Fintype α] [DecidableEq α] (p : Fin (N + 1) → α → ℝ≥0∞) (hp : ∀ t, ∑ l, p t l = 1) {k m : Fin (N + 1)}
    (hkm : m ≠ k) (f g : α → ℝ≥0∞) :
    ∑ a : Fin (N + 1) → α, (∏ t, p t (a t)) * (f (a k) * g (a m)) = (∑ l, p k l * f l) * ∑ l, p m l * g l := by
  let F : Fin (N + 1) → α → ℝ≥0∞ := fun t => if t = k then f else if t = m then g else fun _ => 1
  have h := Finset.prod_univ_sum (fun _ : Fin (N + 1) => (univ : Finset α)) fun t l => p t l * F t l
  have e1 : ∏ t, ∑ l, p t l * F t l = (∑ l, p k l * F k l) * ∑ l, p m l * F m l :=
    prod_eq_mul k m hkm.symm (fun t _ ht => by simp [F, ht.1, ht.2, hp]) (fun h => absurd (mem_univ _) h) fun h => absurd (mem_univ _) h
  have e2 : ∀ a : Fin (N + 1) → α, ∏ t, p t (a t) * F t (a t) = (∏ t, p t (a t)) * (f (a k) * g (a m)) := fun a => by
    rw [prod_mul_distrib]
    congr 1
    have := prod_eq_mul (s := univ) (f := fun t => F t (a t)) k m hkm.symm (fun t _ ht => by simp [F, ht.1, ht.2])
      (fun h => absurd (mem_univ _) h) fun h => absurd (mem_univ _) h
    simpa [F, hkm] using this
  rw [e1, Fintype.piFinset_univ] at h
  simp only [e2] at h
  rw [← h]
  simp [F, hkm]

theorem pairs_prod {p : Fin (N + 1) → Fin (N + 1) → ℝ≥0∞} (hp : ∀ t, ∑ l, p t l = 1)
    (hw : ∀ l, ∑ t, p t l = (N + 1) * ENNReal.ofReal (w l)) (i j : Fin (N + 1)) (f g : Fin (N + 1) → ℝ≥0∞) :
    ∑ a : Fin (N + 1) → Fin (N + 1), (∏ t, p t (a t)) *
        (∑ k ∈ univ.erase j, ∑ m ∈ (univ.erase j).erase k, f (atSet a j i k) * g (atSet a j i m)) ≤
      (N + 1) ^ 2 * ((∑ l, ENNReal.ofReal (w l) * f l) * ∑ l, ENNReal.ofReal (w l) * g l) := by
  have e : ∀ a : Fin (N + 1) → Fin (N + 1), (∏ t, p t (a t)) *
        (∑ k ∈ univ.erase j, ∑ m ∈ (univ.erase j).erase k, f (atSet a j i k) * g (atSet a j i m)) =
      ∑ k ∈ univ.erase j, ∑ m ∈ (univ.erase j).erase k, (∏ t, p t (a t)) * (f (a k) * g (a m)) := fun a => by
    rw [mul_sum]
    refine sum_congr rfl fun k hk => ?_
    rw [mul_sum]
    refine sum_congr rfl fun m hm => ?_
    rw [atSet_ne _ _ (ne_of_mem_erase hk), atSet_ne _ _ (ne_of_mem_erase (mem_of_mem_erase hm))]
  simp only [e]
  rw [sum_comm]
  have e1 : ∀ k ∈ univ.erase j, ∑ a : Fin (N + 1) → Fin (N + 1), ∑ m ∈ (univ.erase j).erase k, (∏ t, p t (a t)) * (f (a k) * g (a m)) ≤
      (∑ l, p k l * f l) * ∑ m, ∑ l, p m l * g l := fun k hk => by
    rw [sum_comm, sum_congr rfl fun m hm => sum_prod_pair p hp (ne_of_mem_erase hm) f g, ← mul_sum]
    gcongr
    exact subset_univ _
  have e2 : ∀ f : Fin (N + 1) → ℝ≥0∞, ∑ k, ∑ l, p k l * f l = (N + 1) * ∑ l, ENNReal.ofReal (w l) * f l := fun f => by
    rw [sum_comm, mul_sum]
    refine sum_congr rfl fun l _ => ?_
    rw [← sum_mul, hw]
    ring
  calc _ ≤ ∑ k ∈ univ.erase j, (∑ l, p k l * f l) * ∑ m, ∑ l, p m l * g l := sum_le_sum e1
    _ ≤ ∑ k, (∑ l, p k l * f l) * ∑ m, ∑ l, p m l * g l := sum_le_sum_of_subset (erase_subset _ _)
    _ = _ := by
      rw [← sum_mul, e2, e2]
      ring

theorem multinomial_pairs (key : Key) : PairsSpread (fun w i j => (multinomial (n := N) key w i j true : Ex _)) := fun w hw i j f g =>
  pairs_prod (p := fun _ => catP w) (fun _ => by simp only [catP_of_isProb hw, sum_ofReal_of_isProb hw])
    (fun l => by simp [catP_of_isProb hw]) i j f g

theorem multinomial_few (key : Key) : FewOffspring (fun w i j => (multinomial (n := N) key w i j true : Ex _)) := fun w hw i j l => by
  have e : offspring (fun w i j => (multinomial (n := N) key w i j true : Ex _)) w i j l =
      ∑ a : Fin (N + 1) → Fin (N + 1), (∏ t, catP w (a t)) * ∑ c ∈ univ.erase j, (if atSet a j i c = l then (1 : ℝ≥0∞) else 0) := rfl
  rw [e, offspring_prod (p := fun _ => catP w) fun _ => by simp only [catP_of_isProb hw, sum_ofReal_of_isProb hw]]
  rw [sum_const, card_erase_of_mem (mem_univ _), card_univ, Fintype.card_fin, catP_of_isProb hw, nsmul_eq_mul]
  gcongr
  simp

theorem killing_pairs (key : Key) : PairsSpread (fun w i j => (killing (n := N) key w i j true : Ex _)) := fun w hw i j f g => by
  obtain ⟨hp, -⟩ := killingJProb_isProb hw i
  refine (killing_law_true hw key i j _).le.trans ?_
  refine (sum_le_sum fun J _ => mul_le_mul_right (pairs_prod (p := fun t l => ENNReal.ofReal (killK w (t - (j - J)) l)) (w := w)
    (fun t => ?_) (fun l => ?_) i j f g) _).trans ?_
  · rw [← ENNReal.ofReal_sum_of_nonneg fun l _ => killK_nonneg hw _ _, killK_sum hw, ENNReal.ofReal_one]
  · rw [← ENNReal.ofReal_sum_of_nonneg fun t _ => killK_nonneg hw _ _]
    have h3 : ∑ c, killK w (c - (j - J)) l = (N + 1) * w l := by
      rw [← killK_sum' hw l]
      exact Fintype.sum_equiv (Equiv.subRight (j - J)) _ _ fun _ => rfl
    rw [h3, ENNReal.ofReal_mul (by positivity), ENNReal.ofReal_add (by positivity) zero_le_one, ENNReal.ofReal_natCast, ENNReal.ofReal_one]
  · rw [← sum_mul, sum_ofReal_of_isProb hp, one_mul]

theorem killing_few (key : Key) : FewOffspring (fun w i j => (killing (n := N) key w i j true : Ex _)) := fun w hw i j l => by
  obtain ⟨hp, -⟩ := killingJProb_isProb hw i
  rw [killing_offspring key hw]
  have h : ENNReal.ofReal ((N + 1) * w l) = (N + 1) * ENNReal.ofReal (w l) := by
    rw [ENNReal.ofReal_mul (by positivity), ENNReal.ofReal_add (by positivity) zero_le_one, ENNReal.ofReal_natCast, ENNReal.ofReal_one]
  rw [← h]
  refine ENNReal.ofReal_le_ofReal ?_
  have : 0 ≤ ∑ J, killingJProb w i J * killK w J l := sum_nonneg fun J _ => mul_nonneg (hp.nonneg J) (killK_nonneg hw _ _)
  linarith

theorem liu_movesAway : MovesAway (N := N) 1 liuMove := fun w hw _ k f => by
  rw [one_mul, liuMove]
  exact (sum_le_sum fun l hl => mul_le_mul_left (ENNReal.ofReal_le_ofReal (liuQ_ge hw (ne_of_mem_erase hl))) _).trans le_self_add

theorem liu_moveMass : MoveMass (liuMove (N := N)) := fun w hw k => by
  show (∑ l ∈ univ.erase k, ENNReal.ofReal (liuQ w k l) * 1) + ENNReal.ofReal (1 - ∑ l ∈ univ.erase k, liuQ w k l) * 1 = 1
  simp only [mul_one]
  rw [← ENNReal.ofReal_sum_of_nonneg fun l _ => liuQ_nonneg hw k l,
    ← ENNReal.ofReal_add (sum_nonneg fun l _ => liuQ_nonneg hw k l) (by linarith [liuQ_sum_le hw k]), add_sub_cancel, ENNReal.ofReal_one]

theorem liu_rot : RotMove (liuMove (N := N)) := fun s w _ _ k f => by
  have h := liu_equivariant (Equiv.addRight s) w k fun i => f (i - s)
  simp only [Equiv.coe_addRight, add_sub_cancel_right] at h
  exact h

theorem manyErr_tendsto (n : ℕ) (B : Fin (n + 1) → ℝ) {Z : ℝ≥0∞} (hZ : Z ≠ 0) :
    Filter.Tendsto (fun N => manyErr N n B Z) Filter.atTop (nhds 0) := by
  have hC : (4 * n + 2 + 2 * (n + 1) * (∏ t, ENNReal.ofReal (Real.exp (B t))) / Z : ℝ≥0∞) ≠ ∞ := by
    refine ENNReal.add_ne_top.mpr ⟨by finiteness, ENNReal.div_ne_top (ENNReal.mul_ne_top (by finiteness)
      (ENNReal.prod_ne_top fun t _ => ENNReal.ofReal_ne_top)) hZ⟩
  have h1 : Filter.Tendsto (fun N : ℕ => ((N : ℝ≥0∞) + 1)⁻¹) Filter.atTop (nhds 0) := by
    have h := (Filter.tendsto_add_atTop_iff_nat 1).mpr ENNReal.tendsto_inv_nat_nhds_zero
    simpa using h
  have h2 := ENNReal.Tendsto.const_mul h1 (Or.inr hC)
  rw [mul_zero] at h2
  simpa only [manyErr, div_eq_mul_inv] using h2

end schemes

/-! ## `csmc.kernel` -/

section csmc
variable {X P G : Type} [MeasurableSpace X]

theorem Spec.SamplesFrom.marginal_pair {k : ℕ} {lam : Measure X} {q : Fin k → X → ℝ} {Q : Ex (Fin k → X)} (h : SamplesFrom lam q Q)
    {i j : Fin k} (hij : j ≠ i) {f g : X → ℝ≥0∞} (hf : Measurable f) (hg : Measurable g) :
    Q (fun Xs => f (Xs i) * g (Xs j)) = Q (fun Xs => f (Xs i)) * Q (fun Xs => g (Xs j)) := by
  have : ∀ i, IsProbabilityMeasure (lam.withDensity fun x => ENNReal.ofReal (Real.exp (q i x))) := fun i =>
    ⟨by rw [withDensity_apply _ MeasurableSet.univ, Measure.restrict_univ, h.norm i]⟩
  rw [h.law _ (by fun_prop), h.law _ (by fun_prop), h.law _ (by fun_prop)]
  have hi := (iIndepFun_pi (μ := fun i => lam.withDensity fun x => ENNReal.ofReal (Real.exp (q i x)))
    (X := fun _ x => x) fun i => measurable_id.aemeasurable).indepFun hij.symm
  exact lintegral_mul_eq_lintegral_mul_lintegral_of_indepFun (f := fun Xs : Fin k → X => f (Xs i)) (g := fun Xs : Fin k → X => g (Xs j))
    (by fun_prop) (by fun_prop) (hi.comp hf hg)

theorem csmcDSys_indep {lam : Measure X} [SFinite lam] (key : Key) {M : FK Ex X P G N} {Mparams : Fin n → P}
    {Gparams : Fin n → G} (resampling : Resampling Ex N) (hM : ProperFK lam M) {B : Fin (n + 1) → ℝ} (hB : BoundedFK lam M Mparams Gparams B)
    (c0 : ℝ) (c : Fin n → ℝ) :
    ∃ c' : Fin (n + 1) → ℝ, (csmcDSys lam key M Mparams Gparams resampling c0 c).Indep c' B := by
  obtain ⟨m, k0, h0, hs0, hb0⟩ := hB.init
  choose mt k h hs hb using hB.step
  have hm : Measurable m := (hs0 key).meas 0
  have hg0 := hM.Gamma0_meas
  have hmt : ∀ t y, Measurable (mt t y) := fun t y => (hs t key fun _ => y).meas 0
  have hgt : ∀ t y, Measurable fun z => M.Gammat y z (Gparams t) := fun t y =>
    (hM.Gammat_meas (Gparams t)).comp (by fun_prop : Measurable fun z : X => (y, z))
  have e0 : ∀ b x i, i ≠ b → ∀ (f : X → ℝ≥0∞) (Xs : PA X N),
      ENNReal.ofReal (Real.exp (k0 + (M.Gamma0 (atSet Xs b x i) - M.M0_logpdf (atSet Xs b x) i))) * f (atSet Xs b x i) =
        ENNReal.ofReal (Real.exp (M.Gamma0 (Xs i) - m (Xs i))) * f (Xs i) := fun b x i hi f Xs => by
    rw [h0, atSet_ne _ _ hi]
    congr 3
    ring
  have et : ∀ t Y b x i, i ≠ b → ∀ (f : X → ℝ≥0∞) (Xs : PA X N),
      ENNReal.ofReal (Real.exp (k t + (M.Gammat (Y i) (atSet Xs b x i) (Gparams t) - M.Mt_logpdf Y (atSet Xs b x) (Mparams t) i))) *
        f (atSet Xs b x i) = ENNReal.ofReal (Real.exp (M.Gammat (Y i) (Xs i) (Gparams t) - mt t (Y i) (Xs i))) * f (Xs i) :=
    fun t Y b x i hi f Xs => by
    rw [h, atSet_ne _ _ hi]
    congr 3
    ring
  have o0 : ∀ key i (f : X → ℝ≥0∞), Measurable f → M.M0_rvs key (fun Xs => ENNReal.ofReal (Real.exp (M.Gamma0 (Xs i) - m (Xs i))) * f (Xs i)) =
      ∫⁻ y, ENNReal.ofReal (Real.exp (M.Gamma0 y)) * f y ∂lam := fun key i f hf => by
    refine ((hs0 key).marginal i (f := fun y => ENNReal.ofReal (Real.exp (M.Gamma0 y - m y)) * f y) (by fun_prop)).trans ?_
    refine lintegral_congr fun y => ?_
    rw [← mul_assoc, ← ofReal_exp_add]
    congr 3
    ring
  have ot : ∀ t key Y i (f : X → ℝ≥0∞), Measurable f → M.Mt_rvs key Y (Mparams t) (fun Xs =>
      ENNReal.ofReal (Real.exp (M.Gammat (Y i) (Xs i) (Gparams t) - mt t (Y i) (Xs i))) * f (Xs i)) =
      ∫⁻ y, ENNReal.ofReal (Real.exp (M.Gammat (Y i) y (Gparams t))) * f y ∂lam := fun t key Y i f hf => by
    have := hmt t (Y i)
    have := hgt t (Y i)
    refine ((hs t key Y).marginal i (f := fun y => ENNReal.ofReal (Real.exp (M.Gammat (Y i) y (Gparams t) - mt t (Y i) y)) * f y)
      (by fun_prop)).trans ?_
    refine lintegral_congr fun y => ?_
    rw [← mul_assoc, ← ofReal_exp_add]
    congr 3
    ring
  refine ⟨Fin.cons k0 k, fun b x i hi f hf => ?_, fun b x i j hi hj hij f g hf hg => ?_, fun t Y b x i hi f hf => ?_,
    fun t Y b x i j hi hj hij f g hf hg => ?_, fun Xs i => ?_, fun t Y Xs i => ?_⟩
  · show M.M0_rvs (splitKey key 3 0) (fun Xs => ENNReal.ofReal (Real.exp (k0 + (M.Gamma0 (atSet Xs b x i) - M.M0_logpdf (atSet Xs b x) i))) *
      f (atSet Xs b x i)) = _
    exact (Ex.congr_fun' _ (e0 b x i hi f)).trans (o0 _ i f hf)
  · show M.M0_rvs (splitKey key 3 0) (fun Xs => ENNReal.ofReal (Real.exp (k0 + (M.Gamma0 (atSet Xs b x i) - M.M0_logpdf (atSet Xs b x) i))) *
      f (atSet Xs b x i) * (ENNReal.ofReal (Real.exp (k0 + (M.Gamma0 (atSet Xs b x j) - M.M0_logpdf (atSet Xs b x) j))) *
      g (atSet Xs b x j))) = _
    refine (Ex.congr_fun' _ fun Xs => by rw [e0 b x i hi, e0 b x j hj]).trans (((hs0 _).marginal_pair hij
      (f := fun y => ENNReal.ofReal (Real.exp (M.Gamma0 y - m y)) * f y) (g := fun y => ENNReal.ofReal (Real.exp (M.Gamma0 y - m y)) * g y)
      (by fun_prop) (by fun_prop)).trans ?_)
    rw [o0 _ i f hf, o0 _ j g hg]
    rfl
  · show M.Mt_rvs _ Y (Mparams t) (fun Xs => ENNReal.ofReal (Real.exp (k t + (M.Gammat (Y i) (atSet Xs b x i) (Gparams t) -
          M.Mt_logpdf Y (atSet Xs b x) (Mparams t) i))) * f (atSet Xs b x i)) = _
    exact (Ex.congr_fun' _ (et t Y b x i hi f)).trans (ot t _ Y i f hf)
  · show M.Mt_rvs _ Y (Mparams t) (fun Xs => ENNReal.ofReal (Real.exp (k t + (M.Gammat (Y i) (atSet Xs b x i) (Gparams t) -
          M.Mt_logpdf Y (atSet Xs b x) (Mparams t) i))) * f (atSet Xs b x i) *
        (ENNReal.ofReal (Real.exp (k t + (M.Gammat (Y j) (atSet Xs b x j) (Gparams t) -
          M.Mt_logpdf Y (atSet Xs b x) (Mparams t) j))) * g (atSet Xs b x j))) = _
    have := hmt t (Y i)
    have := hgt t (Y i)
    have := hmt t (Y j)
    have := hgt t (Y j)
    refine (Ex.congr_fun' _ fun Xs => by rw [et t Y b x i hi, et t Y b x j hj]).trans (((hs t _ Y).marginal_pair hij
      (f := fun y => ENNReal.ofReal (Real.exp (M.Gammat (Y i) y (Gparams t) - mt t (Y i) y)) * f y)
      (g := fun y => ENNReal.ofReal (Real.exp (M.Gammat (Y j) y (Gparams t) - mt t (Y j) y)) * g y) (by fun_prop) (by fun_prop)).trans ?_)
    rw [ot t _ Y i f hf, ot t _ Y j g hg]
    rfl
  · show k0 + (M.Gamma0 (Xs i) - M.M0_logpdf Xs i) ≤ B 0
    rw [h0]
    linarith [hb0 (Xs i)]
  · show k t + (M.Gammat (Y i) (Xs i) (Gparams t) - M.Mt_logpdf Y Xs (Mparams t) i) ≤ B t.succ
    rw [h]
    linarith [hb t (Y i) (Xs i)]

/-- **Minorisation** of `csmc.kernel` with many particles. -/
theorem csmc_many {lam : Measure X} [SigmaFinite lam] (key : Key) {M : FK Ex X P G N} {Mparams : Fin n → P}
    {Gparams : Fin n → G} {resampling : Resampling Ex N} {mv : AncestorMove Ex N} {backward : Bool} (hM : ProperFK lam M) (hN : 1 ≤ N)
    {B : Fin (n + 1) → ℝ} (hB : BoundedFK lam M Mparams Gparams B) {q : ℝ≥0∞}
    (hR : ∀ key, CondResampling (fun w i j => resampling key w i j true))
    (hq : ∀ key, Spreads q backward (fun w i j => resampling key w i j true))
    (ho : ∀ key, FewOffspring (fun w i j => resampling key w i j true)) (hp : ∀ key, PairsSpread (fun w i j => resampling key w i j true))
    (hm : ∀ key, MoveKer (moveIndex mv key)) (ha : ∀ key, MovesAway 1 (moveIndex mv key)) {Z : ℝ≥0∞}
    (hZ : ∫⁻ y, ENNReal.ofReal (Real.exp (pathLogDensity M.Gamma0 (fun t y x => M.Gammat y x (Gparams t)) y)) ∂(Measure.pi fun _ => lam) = Z)
    (hZ0 : Z ≠ 0) (hZ1 : Z ≠ ∞)
    (x : Fin (n + 1) → X) (b : Fin (n + 1) → Fin (N + 1)) {f : (Fin (n + 1) → X) → ℝ≥0∞} (hf : Measurable f) :
    (2 * (N * ((N : ℝ≥0∞) + 1)⁻¹ * (q * ((N : ℝ≥0∞) + 1)⁻¹) ^ n) - 1) *
        (Z + 2 * (n + 1) * ((N : ℝ≥0∞) + 1)⁻¹ * ∏ t, ENNReal.ofReal (Real.exp (B t)))⁻¹ *
      ∫⁻ y, ENNReal.ofReal (Real.exp (pathLogDensity M.Gamma0 (fun t y x => M.Gammat y x (Gparams t)) y)) * f y ∂(Measure.pi fun _ => lam) ≤
      ((csmc_kernel key x b M Mparams Gparams resampling mv backward true : Ex _) >>= fun r => pure (r.xs, r.Bs)) fun r => f r.1 := by
  obtain ⟨c0, c, hS⟩ := csmcDSys_OK (lam := lam) key Mparams Gparams hM hR
  obtain ⟨c', hS'⟩ := csmcDSys_indep key resampling hM hB c0 c
  have e := csmc_kernel_eq key M Mparams Gparams resampling mv backward
    (fun f => ∫⁻ x, ENNReal.ofReal (Real.exp (M.Gamma0 x)) * f x ∂lam)
    (fun t y f => ∫⁻ x, ENNReal.ofReal (Real.exp (M.Gammat y x (Gparams t))) * f x ∂lam)
    (tilt c0 (M.M0_rvs (splitKey key 3 0)))
    (fun t Y => tilt (c t) (M.Mt_rvs (splitKey (splitKey (splitKey key 3 1) n t) 2 0) Y (Mparams t))) x b
  have hd : (csmcDSys lam key M Mparams Gparams resampling c0 c).Density lam (fun t y x => M.Gammat y x (Gparams t)) :=
    ⟨fun t => hM.Gammat_meas _, fun t y f _ => rfl⟩
  have e1 : (csmcDSys lam key M Mparams Gparams resampling c0 c).path (fun _ => 1) = Z := by
    rw [hS.path_eq hM.Gamma0_meas (fun f _ => rfl) hd _ measurable_const, ← hZ]
    simp only [mul_one]
  have hE : Measurable fun y : Fin (n + 1) → X =>
      ENNReal.ofReal (Real.exp (pathLogDensity M.Gamma0 (fun t y x => M.Gammat y x (Gparams t)) y)) :=
    (Real.measurable_exp.comp (measurable_pathLogDensity hM.Gamma0_meas fun _ => hM.Gammat_meas _)).ennreal_ofReal
  rw [e]
  refine le_trans (le_of_eq ?_) (lintegral_le_of_le_one (hS.kernel_ker hd.meas (hm _) backward) (x, b) measurable_fst
    (ν := ((2 * (N * ((N : ℝ≥0∞) + 1)⁻¹ * (q * ((N : ℝ≥0∞) + 1)⁻¹) ^ n) - 1) *
        (Z + 2 * (n + 1) * ((N : ℝ≥0∞) + 1)⁻¹ * ∏ t, ENNReal.ofReal (Real.exp (B t)))⁻¹) •
      (Measure.pi fun _ => lam).withDensity fun y =>
        ENNReal.ofReal (Real.exp (pathLogDensity M.Gamma0 (fun t y x => M.Gammat y x (Gparams t)) y))) (fun f hf hf1 => ?_) hf)
  · rw [lintegral_smul_measure, lintegral_withDensity_eq_lintegral_mul _ hE hf]
    rfl
  rw [lintegral_smul_measure, lintegral_withDensity_eq_lintegral_mul _ hE hf]
  show _ * ∫⁻ y, ENNReal.ofReal (Real.exp (pathLogDensity M.Gamma0 (fun t y x => M.Gammat y x (Gparams t)) y)) * f y ∂_ ≤ _
  have h := hS.kernel_many hN hS' hd (q := q) backward (fun t => hq _) (fun t => ho _) (fun t => hp _) (hm _)
    (ha (if backward then lastA (splitKey (splitKey key 3 2) (n + 1)) else splitKey key 3 2)) (e1 ▸ hZ0) (e1 ▸ hZ1) x b hf
  rw [e1, hS.path_eq hM.Gamma0_meas (fun f _ => rfl) hd f hf] at h
  have hfin : ∫⁻ y, ENNReal.ofReal (Real.exp (pathLogDensity M.Gamma0 (fun t y x => M.Gammat y x (Gparams t)) y)) * f y
      ∂(Measure.pi fun _ => lam) ≠ ∞ := ne_top_of_le_ne_top (hZ ▸ hZ1) (lintegral_mono fun y => mul_le_of_le_one_right' (hf1 y))
  have hc : (Z + 2 * (n + 1) * ((N : ℝ≥0∞) + 1)⁻¹ * ∏ t, ENNReal.ofReal (Real.exp (B t)))⁻¹ ≠ ∞ :=
    ENNReal.inv_ne_top.mpr fun h => hZ0 (add_eq_zero.mp h).1
  rw [mul_assoc, ENNReal.sub_mul fun _ _ => ENNReal.mul_ne_top hc hfin, one_mul, tsub_le_iff_right]
  refine le_trans (le_of_eq ?_) (h.trans (le_of_eq ?_))
  · ring
  · rw [mul_comm (∫⁻ y, _ ∂_)]

end csmc

end Verif
