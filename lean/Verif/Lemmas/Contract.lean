import Verif.Lemmas.ManyKernel
import Verif.Lemmas.DoeblinCsmc
import Verif.Lemmas.Rotation

/-!
# Chains whose steps are all close to the target approach it geometrically
-/

open scoped ENNReal
open MeasureTheory

namespace Verif
open Verif.Spec Verif.Model

/-- Laws that are close give close values to functions that vary little. -/
theorem tvLe_osc {α : Type} [MeasurableSpace α] {P Q : Ex α} {E D c : ℝ≥0∞} (h : TVLe E P Q)
    (hP : ∀ f : α → ℝ≥0∞, Measurable f → ∀ a b, P (fun x => a + b * f x) = a + b * P f)
    (hQ : ∀ f : α → ℝ≥0∞, Measurable f → ∀ a b, Q (fun x => a + b * f x) = a + b * Q f)
    (hD : D ≠ ∞) {g : α → ℝ≥0∞} (hg : Measurable g) (hc : ∀ x, c ≤ g x) (hd : ∀ x, g x ≤ c + D) :
    P g ≤ Q g + E * D ∧ Q g ≤ P g + E * D := by
  by_cases h0 : D = 0
  · have e : g = fun x => c + 0 * (1 : ℝ≥0∞) := funext fun x => by
      have := hd x
      rw [h0, add_zero] at this
      rw [zero_mul, add_zero]
      exact le_antisymm this (hc x)
    rw [e, hP _ measurable_const, hQ _ measurable_const]
    simp
  · have e : g = fun x => c + D * ((g x - c) / D) := funext fun x => by
      rw [ENNReal.mul_div_cancel h0 hD, add_tsub_cancel_of_le (hc x)]
    have hm : Measurable fun x => (g x - c) / D := (hg.sub_const c).div_const D
    obtain ⟨h1, h2⟩ := h _ hm fun x => by
      refine ENNReal.div_le_of_le_mul ?_
      rw [one_mul, tsub_le_iff_left]
      exact hd x
    rw [e, hP _ hm, hQ _ hm]
    constructor
    · calc _ ≤ c + D * (Q (fun x => (g x - c) / D) + E) := by gcongr
        _ = _ := by ring
    · calc _ ≤ c + D * (P (fun x => (g x - c) / D) + E) := by gcongr
        _ = _ := by ring

variable {X : Type} [MeasurableSpace X] {N n : ℕ}

/-- If from every state the trajectory after one step is within `E` of the target, then after `i + 1` steps it is within
`E * (2 * E) ^ i`. -/
theorem indexed_chain_contracts {lam : Measure X} {l : (Fin (n + 1) → X) → ℝ} (hl : Measurable l)
    (hZ : ∫⁻ x, ENNReal.ofReal (Real.exp (l x)) ∂(Measure.pi fun _ => lam) ≠ 0 ∧
      ∫⁻ x, ENNReal.ofReal (Real.exp (l x)) ∂(Measure.pi fun _ => lam) ≠ ∞)
    {step : Key → (Fin (n + 1) → X) × (Fin (n + 1) → Fin (N + 1)) → Ex ((Fin (n + 1) → X) × (Fin (n + 1) → Fin (N + 1)))}
    (hmk : ∀ key, MarkovStep fun x b => step key (x, b)) (hrel : ∀ key, Relabels fun x b => step key (x, b))
    (hinv : ∀ key, InvariantFromAnyIndex lam l fun x b => step key (x, b)) {E : ℝ≥0∞} (hE : E ≠ ∞)
    (h : ∀ key s, TVLe E (fun f => step key s fun r => f r.1) fun f => ∫⁻ x, f x ∂lawOf (Measure.pi fun _ => lam) l)
    {T : ℕ} (keys : Fin T → Key) (i : Fin T) (s : (Fin (n + 1) → X) × (Fin (n + 1) → Fin (N + 1))) :
    TVLe (E * (2 * E) ^ (i : ℕ)) (fun f => chain step s keys fun tr => f (tr i.succ).1)
      fun f => ∫⁻ x, f x ∂lawOf (Measure.pi fun _ => lam) l := by
  have hk : ∀ key, IsKer (step key) := fun key => (hmk key).ker
  have hm : ∀ key s, step key s (fun _ => 1) = 1 := fun key s => (hmk key).mass s.1 s.2
  have hlump : ∀ {f : (Fin (n + 1) → X) → ℝ≥0∞}, Measurable f → ∀ {T : ℕ} (keys : Fin T → Key) (i : Fin (T + 1)) s,
      chain step s keys (fun tr => f (tr i).1) = chain step (s.1, fun _ => 0) keys (fun tr => f (tr i).1) := fun {f} hf T keys i s => by
    have h1 := chain_relabels (kernel := step) hk hrel keys s.1 0 s.2 (fun tr => f (tr i).1) (by fun_prop)
    rw [zero_add] at h1
    exact h1
  have hPr := lawOf_isProb hZ hl
  have hlin : ∀ key s (f : (Fin (n + 1) → X) → ℝ≥0∞), Measurable f → ∀ a b,
      step key s (fun r => a + b * f r.1) = a + b * step key s fun r => f r.1 := fun key s f hf a b => by
    refine ((hk key).add s (f := fun _ => a) measurable_const (by fun_prop)).trans ?_
    rw [(hk key).const_fun s a, hm, mul_one]
    exact congrArg (a + ·) ((hk key).const_mul s b (f := fun r => f r.1) (by fun_prop))
  have hlinQ : ∀ (f : (Fin (n + 1) → X) → ℝ≥0∞), Measurable f → ∀ a b,
      ∫⁻ x, (a + b * f x) ∂lawOf (Measure.pi fun _ => lam) l = a + b * ∫⁻ x, f x ∂lawOf (Measure.pi fun _ => lam) l := fun f hf a b => by
    rw [lintegral_add_left measurable_const, lintegral_const, measure_univ, mul_one, lintegral_const_mul _ hf]
  have hconst : ∀ {n : ℕ} (keys : Fin n → Key) s (c : ℝ≥0∞), chain step s keys (fun _ => c) = c :=
    fun keys s c => by rw [(chain_ker hk keys).const_fun s c, chain_mass hm, mul_one]
  have h0 : ∀ {f : (Fin (n + 1) → X) → ℝ≥0∞} {T : ℕ} (keys : Fin T → Key) s, chain step s keys (fun tr => f (tr 0).1) = f s.1 :=
    fun {f} T keys s => by
      cases T with
      | zero => rfl
      | succ T =>
        show step (keys 0) s (fun s' => chain step s' (tailA keys) (fun _ => f s.1)) = f s.1
        simp only [hconst]
        rw [(hk _).const_fun s (f s.1), hm, mul_one]
  have hs : ∀ {f : (Fin (n + 1) → X) → ℝ≥0∞}, Measurable f → ∀ {T : ℕ} (keys : Fin (T + 1) → Key) (j : Fin (T + 1)) s,
      chain step s keys (fun tr => f (tr j.succ).1) = step (keys 0) s fun s1 =>
        chain step (s1.1, fun _ => 0) (tailA keys) fun tr => f (tr j).1 := fun {f} hf T keys j s => by
    show step (keys 0) s (fun s1 => chain step s1 (tailA keys) fun rest => f (insert0 s rest j.succ).1) = _
    simp only [insert0_succ]
    exact Ex.congr_fun' _ fun s1 => hlump hf _ _ s1
  have hmeas : ∀ {f : (Fin (n + 1) → X) → ℝ≥0∞}, Measurable f → ∀ {T : ℕ} (keys : Fin T → Key) (j : Fin (T + 1)),
      Measurable fun x => chain step (x, fun _ => 0) keys fun tr => f (tr j).1 := fun {f} hf T keys j =>
    ((chain_ker hk keys).comp (g := fun x : Fin (n + 1) → X => (x, fun _ => 0)) (by fun_prop)).measurable' (by fun_prop)
  -- the law of state `i` from the target
  have hI : ∀ {f : (Fin (n + 1) → X) → ℝ≥0∞}, Measurable f → ∀ {T : ℕ} (keys : Fin T → Key) (i : Fin (T + 1)),
      ∫⁻ x, chain step (x, fun _ => 0) keys (fun tr => f (tr i).1) ∂lawOf (Measure.pi fun _ => lam) l =
        ∫⁻ x, f x ∂lawOf (Measure.pi fun _ => lam) l := by
    intro f hf T
    induction T with
    | zero =>
      intro keys i
      have e : i = 0 := Fin.ext (by omega)
      rw [e]
      exact lintegral_congr fun x => h0 keys (x, fun _ => 0)
    | succ T ih =>
      intro keys i
      revert i
      refine Fin.cases (lintegral_congr fun x => h0 keys (x, fun _ => 0)) fun j => ?_
      have hg := hmeas hf (tailA keys) j
      simp only [hs hf]
      have h1 := hinv (keys 0) (fun _ => 0) _ hg
      have h2 : Measurable fun x => step (keys 0) (x, fun _ => 0) fun s1 =>
          chain step (s1.1, fun _ => 0) (tailA keys) fun tr => f (tr j).1 :=
        ((hk (keys 0)).comp (g := fun x : Fin (n + 1) → X => (x, fun _ => 0)) (by fun_prop)).measurable' (hg.comp measurable_fst)
      rw [lintegral_lawOf hl h2, h1, ← lintegral_lawOf hl hg]
      exact ih _ _
  induction T generalizing s with
  | zero => exact i.elim0
  | succ T ih =>
    intro f hf hf1
    have main : ∀ (i : Fin (T + 1)) c, (∀ x, c ≤ chain step (x, fun _ => 0) (tailA keys) fun tr => f (tr i).1) →
        (∀ x, chain step (x, fun _ => 0) (tailA keys) (fun tr => f (tr i).1) ≤ c + (2 * E) ^ (i : ℕ)) →
        chain step s keys (fun tr => f (tr i.succ).1) ≤
            ∫⁻ x, f x ∂lawOf (Measure.pi fun _ => lam) l + E * (2 * E) ^ (i : ℕ) ∧
          ∫⁻ x, f x ∂lawOf (Measure.pi fun _ => lam) l ≤
            chain step s keys (fun tr => f (tr i.succ).1) + E * (2 * E) ^ (i : ℕ) := fun i c hc hd => by
      rw [hs hf, ← hI hf (tailA keys) i]
      exact tvLe_osc (h (keys 0) s) (hlin (keys 0) s) hlinQ (ENNReal.pow_ne_top (ENNReal.mul_ne_top ENNReal.ofNat_ne_top hE))
        (hmeas hf (tailA keys) i) hc hd
    revert i
    refine Fin.cases ?_ fun j => ?_
    · refine main 0 0 (fun _ => zero_le) fun x => ?_
      rw [zero_add, h0]
      simpa using hf1 x
    · have hb := fun x => ih (tailA keys) j (x, fun _ => 0) f hf hf1
      refine main j.succ (∫⁻ x, f x ∂lawOf (Measure.pi fun _ => lam) l - E * (2 * E) ^ (j : ℕ)) (fun x => ?_) fun x => ?_
      · rw [tsub_le_iff_right]
        exact (hb x).2
      · refine (hb x).1.trans ?_
        have e : (2 * E) ^ (j.succ : ℕ) = E * (2 * E) ^ (j : ℕ) + E * (2 * E) ^ (j : ℕ) := by
          rw [Fin.val_succ, pow_succ]
          ring
        rw [e, ← add_assoc]
        gcongr
        exact le_tsub_add

end Verif
