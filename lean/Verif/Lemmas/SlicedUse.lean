import Verif.Lemmas.Sliced
import Verif.Lemmas.Near

/-!
# Reversibility, comparison of last moves, and nonnegative correlation of successive states
-/

open scoped ENNReal
open MeasureTheory Finset

namespace Verif
open Verif.Spec Verif.Model

variable {X : Type} [MeasurableSpace X] {N n : ℕ} {lam : Measure X} {logpi : (Fin (n + 1) → X) → ℝ}
  {K : AncestorMove Ex N → (Fin (n + 1) → X) → (Fin (n + 1) → Fin (N + 1)) → Ex (PathState X N n)} {backward : Bool}

theorem slice_measurable {Ω : Type} [MeasurableSpace Ω] {w : Ω → Fin (N + 1) → ℝ} {p : Ω → Fin (N + 1) → PathState X N n}
    {out : Ω → Fin (N + 1) → Ex (PathState X N n)} (hw : Measurable w)
    (hp : Measurable fun q : Ω × Fin (N + 1) => p q.1 q.2) (hout : IsKer (fun q : Ω × Fin (N + 1) => out q.1 q.2))
    {move : (Fin (N + 1) → ℝ) → Fin (N + 1) → Ex (Fin (N + 1))} (hm : MoveKer move)
    {H : PathState X N n → PathState X N n → ℝ≥0∞} (hH : Measurable (Function.uncurry H)) :
    Measurable fun ω => ∑ k, ENNReal.ofReal (w ω k) * move (w ω) k (fun l => out ω l (H (p ω k))) := by
  refine Finset.measurable_fun_sum _ fun k _ => Measurable.mul
    (ENNReal.measurable_ofReal.comp ((measurable_pi_apply k).comp hw)) ?_
  refine (hm.comp (g := fun ω => (w ω, k)) (by fun_prop)).measurable (f := fun ω l => out ω l (H (p ω k))) ?_
  have hpk : Measurable fun ω => p ω k := hp.comp (by fun_prop : Measurable fun ω : Ω => (ω, k))
  refine hout.measurable (f := fun (q : Ω × Fin (N + 1)) z => H (p q.1 k) z) ?_
  exact hH.comp ((hpk.comp (by fun_prop : Measurable fun q : (Ω × Fin (N + 1)) × PathState X N n => q.1.1)).prodMk
    measurable_snd)

theorem out_mass {Ω : Type} {p : Ω → Fin (N + 1) → PathState X N n} {out : Ω → Fin (N + 1) → Ex (PathState X N n)}
    (h8 : ∀ ω k (f : X → ℝ≥0∞), Measurable f → out ω k (fun z => f (lastA z.1)) = f (lastA (p ω k).1)) (ω : Ω)
    (k : Fin (N + 1)) : out ω k (fun _ => 1) = 1 := h8 ω k (fun _ => 1) measurable_const

/-- A reversible last move makes the kernel reversible, if the new state is read off the genealogy. -/
theorem Sliced.reversible (h : Sliced lam logpi K false) {mv : AncestorMove Ex N}
    (hm : ∀ key, MoveReversible (moveIndex mv key)) : ReversibleFor lam logpi (K mv) := by
  obtain ⟨Ω, mΩ, Φ, w, p, out, kk, h1, h2, h3, h4, h5, h6, h7, h8, h8', h9⟩ := h
  intro H hH
  rw [h9 mv (fun key => (hm key).ker) H hH, h9 mv (fun key => (hm key).ker) (fun z z' => H z' z) (hH.comp measurable_swap)]
  congr 1
  funext ω
  simp only [h7 rfl]
  exact (hm kk).rev (w ω) (h5 ω) (h6 ω) fun k l => H (p ω k) (p ω l)

theorem Sliced.mass_eq {Ω : Type} [MeasurableSpace Ω] {Φ : Ex Ω} {w : Ω → Fin (N + 1) → ℝ}
    {p : Ω → Fin (N + 1) → PathState X N n} (h5 : ∀ ω, IsProb (w ω))
    (h8' : ∀ f : PathState X N n → ℝ≥0∞, Measurable f → Φ (fun ω => ∑ k, ENNReal.ofReal (w ω k) * f (p ω k)) =
      ∑ b, ∫⁻ x, ENNReal.ofReal (Real.exp (logpi x)) * f (x, b) ∂(Measure.pi fun _ => lam)) :
    Φ (fun _ => 1) = targetMass N lam logpi := by
  have := h8' (fun _ => 1) measurable_const
  simp only [mul_one] at this
  rw [targetMass, ← this]
  congr 1
  funext ω
  rw [← ENNReal.ofReal_sum_of_nonneg fun i _ => (h5 ω).nonneg i, (h5 ω).sum_one, ENNReal.ofReal_one]

/-- Comparison of two last moves. -/
theorem Sliced.le_of {mv mv' : AncestorMove Ex N} (h : Sliced lam logpi K backward)
    (hm : ∀ key, MoveKer (moveIndex mv key)) (hm' : ∀ key, MoveKer (moveIndex mv' key)) {ε : ℝ≥0∞}
    {H : PathState X N n → PathState X N n → ℝ≥0∞} (hH : Measurable (Function.uncurry H))
    (hle : ∀ key (w : Fin (N + 1) → ℝ), IsProb w → ∀ k (g : Fin (N + 1) → ℝ≥0∞), ((∀ z z', H z z' ≤ 1) → ∀ i, g i ≤ 1) →
      (((∀ z, H z z = 0) ∧ backward = false ∨ ∃ η : X → X → ℝ≥0∞, Measurable (Function.uncurry η) ∧ (∀ v, η v v = 0) ∧
        ∀ z z', H z z' = η (lastA z.1) (lastA z'.1)) → g k = 0) →
      moveIndex mv key w k g ≤ moveIndex mv' key w k g + ε) :
    stationaryPair lam logpi (K mv) H ≤ stationaryPair lam logpi (K mv') H + ε * targetMass N lam logpi := by
  obtain ⟨Ω, mΩ, Φ, w, p, out, kk, h1, h2, h3, h4, h5, h6, h7, h8, h8', h9⟩ := h
  have hmv := slice_measurable h2 h3 h4 (hm kk) hH
  have hmv' := slice_measurable h2 h3 h4 (hm' kk) hH
  rw [h9 mv hm H hH, h9 mv' hm' H hH, ← Sliced.mass_eq h5 h8', ← mul_one ε, mul_assoc, one_mul,
    ← h1.const_fun () ε, ← h1.add () hmv' measurable_const]
  refine h1.mono () hmv (hmv'.add measurable_const) fun ω => ?_
  have hs : ∑ k, ENNReal.ofReal (w ω k) = 1 := by
    rw [← ENNReal.ofReal_sum_of_nonneg fun i _ => (h5 ω).nonneg i, (h5 ω).sum_one, ENNReal.ofReal_one]
  calc ∑ k, ENNReal.ofReal (w ω k) * moveIndex mv kk (w ω) k (fun l => out ω l (H (p ω k)))
      ≤ ∑ k, ENNReal.ofReal (w ω k) * (moveIndex mv' kk (w ω) k (fun l => out ω l (H (p ω k))) + ε) := by
        refine sum_le_sum fun k _ => mul_le_mul_right ?_ _
        refine hle kk (w ω) (h5 ω) k _ (fun hb i => ?_) fun hz => ?_
        · have hHk : Measurable (H (p ω k)) := hH.comp (by fun_prop : Measurable fun z : PathState X N n => (p ω k, z))
          exact (h4.mono (ω, i) hHk measurable_const (hb _)).trans (out_mass h8 ω i).le
        · rcases hz with ⟨hz, hb⟩ | ⟨η, hη, hz, e⟩
          · rw [h7 hb]
            exact hz _
          · have e' : H (p ω k) = fun z => η (lastA (p ω k).1) (lastA z.1) := funext fun z => e _ z
            show out ω k (H (p ω k)) = 0
            rw [e', h8 ω k (fun v => η (lastA (p ω k).1) v)
              (hη.comp (by fun_prop : Measurable fun v : X => (lastA (p ω k).1, v)))]
            exact hz _
    _ = (∑ k, ENNReal.ofReal (w ω k) * moveIndex mv' kk (w ω) k (fun l => out ω l (H (p ω k)))) + ε := by
        simp only [mul_add, sum_add_distrib, ← sum_mul, hs, one_mul]

/-- A last move close to a reversible one makes the kernel nearly reversible. -/
theorem Sliced.near_reversible (h : Sliced lam logpi K false) {mv mv' : AncestorMove Ex N} {ε : ℝ≥0∞}
    (hm : ∀ key, MoveKer (moveIndex mv key)) (hm' : ∀ key, MoveReversible (moveIndex mv' key))
    (hn : ∀ key w, IsProb w → ∀ k, TVLe ε (moveIndex mv key w k) (moveIndex mv' key w k)) :
    NearReversibleFor (2 * ε) lam logpi (K mv) := by
  intro H hH hb
  have hH' : Measurable (Function.uncurry fun z z' => H z' z) := hH.comp measurable_swap
  have e1 := h.le_of (mv := mv) (mv' := mv') hm (fun key => (hm' key).ker) (ε := ε) hH fun key w hw k g hg _ =>
    (hn key w hw k g (measurable_of_countable g) (hg hb)).1
  have e2 := h.le_of (mv := mv') (mv' := mv) (fun key => (hm' key).ker) hm (ε := ε) hH' fun key w hw k g hg _ =>
    (hn key w hw k g (measurable_of_countable g) (hg fun z z' => hb z' z)).2
  rw [h.reversible hm' H hH] at e1
  refine e1.trans ((add_le_add_left e2 _).trans (le_of_eq ?_))
  rw [two_mul, add_mul, add_assoc]

/-- Peskun's comparison: a last move that moves more makes any distance between successive states larger. -/
theorem Sliced.peskun (h : Sliced lam logpi K backward) {mv mv' : AncestorMove Ex N}
    (hm : ∀ key, MoveKer (moveIndex mv key)) (hm' : ∀ key, MoveKer (moveIndex mv' key))
    (hp : ∀ key, MovesMore (moveIndex mv key) (moveIndex mv' key)) :
    (backward = false → JumpsLess lam logpi (K mv) (K mv')) ∧ LastJumpsLess lam logpi (K mv) (K mv') := by
  refine ⟨fun hb H hH hz => ?_, fun η hη hz => ?_⟩
  · have := h.le_of hm hm' (ε := 0) hH fun key w hw k g _ hg => by
      rw [add_zero]
      exact hp key w hw k g (hg (Or.inl ⟨hz, hb⟩))
    rwa [zero_mul, add_zero] at this
  · have := h.le_of hm hm' (ε := 0) (H := fun z z' => η (lastA z.1) (lastA z'.1))
      (hη.comp (by fun_prop : Measurable fun q : PathState X N n × PathState X N n => (lastA q.1.1, lastA q.2.1)))
      fun key w hw k g _ hg => by
        rw [add_zero]
        exact hp key w hw k g (hg (Or.inr ⟨η, hη, hz, fun _ _ => rfl⟩))
    rwa [zero_mul, add_zero] at this

/-- The same up to an error. -/
theorem Sliced.near_peskun (h : Sliced lam logpi K backward) {mv mv' : AncestorMove Ex N} {ε : ℝ≥0∞}
    (hm : ∀ key, MoveKer (moveIndex mv key)) (hm' : ∀ key, MoveKer (moveIndex mv' key))
    (hp : ∀ key, MovesNearlyMore ε (moveIndex mv key) (moveIndex mv' key)) :
    (backward = false → JumpsNearlyLess ε lam logpi (K mv) (K mv')) ∧
      LastJumpsNearlyLess ε lam logpi (K mv) (K mv') := by
  refine ⟨fun hb H hH h1 hz => ?_, fun η hη h1 hz => ?_⟩
  · exact h.le_of hm hm' hH fun key w hw k g hg1 hg => hp key w hw k g (hg1 h1) (hg (Or.inl ⟨hz, hb⟩))
  · exact h.le_of hm hm' (H := fun z z' => η (lastA z.1) (lastA z'.1))
      (hη.comp (by fun_prop : Measurable fun q : PathState X N n × PathState X N n => (lastA q.1.1, lastA q.2.1)))
      fun key w hw k g hg1 hg => hp key w hw k g (hg1 fun _ _ => h1 _ _) (hg (Or.inr ⟨η, hη, hz, fun _ _ => rfl⟩))

/-- Cauchy-Schwarz for a measure given as a functional. -/
theorem isKer_sq_le {Ω : Type} [MeasurableSpace Ω] {Φ : Ex Ω} (h : IsKer (fun _ : Unit => Φ)) {g : Ω → ℝ≥0∞}
    (hg : Measurable g) : (Φ g) ^ 2 ≤ Φ (fun _ => 1) * Φ (fun ω => g ω * g ω) := by
  obtain ⟨κ, _, hκ⟩ := h
  have hk : ∀ f : Ω → ℝ≥0∞, Measurable f → Φ f = ∫⁻ a, f a ∂κ () := hκ ()
  rw [hk _ hg, hk _ measurable_const, hk (fun ω => g ω * g ω) (hg.mul hg)]
  have := ENNReal.lintegral_mul_le_Lp_mul_Lq (κ ()) Real.HolderConjugate.two_two (f := fun _ => 1) (g := g)
    aemeasurable_const hg.aemeasurable
  simp only [Pi.mul_apply, one_mul, ENNReal.one_rpow] at this
  calc (∫⁻ a, g a ∂κ ()) ^ 2 ≤ ((∫⁻ _, 1 ∂κ ()) ^ (1 / 2 : ℝ) * (∫⁻ a, g a ^ (2 : ℝ) ∂κ ()) ^ (1 / 2 : ℝ)) ^ 2 := by
        gcongr
    _ = _ := by
        rw [mul_pow, ← ENNReal.rpow_natCast, ← ENNReal.rpow_natCast, ← ENNReal.rpow_mul, ← ENNReal.rpow_mul]
        norm_num
        simp only [← pow_two]

/-- A last move that draws from the weights whatever the current index makes successive states nonnegatively
correlated. -/
theorem Sliced.autocov (h : Sliced lam logpi K backward) {mv : AncestorMove Ex N}
    (hm : ∀ key, MoveKer (moveIndex mv key))
    (hd : ∀ key (w : Fin (N + 1) → ℝ), IsProb w → ∀ k g, moveIndex mv key w k g = ∑ l, ENNReal.ofReal (w l) * g l) :
    (backward = false → NonnegAutocov lam logpi (K mv)) ∧ LastNonnegAutocov lam logpi (K mv) := by
  obtain ⟨Ω, mΩ, Φ, w, p, out, kk, h1, h2, h3, h4, h5, h6, h7, h8, h8', h9⟩ := h
  have key : ∀ f : PathState X N n → ℝ≥0∞, Measurable f →
      (∀ ω k l, out ω l (fun z => f (p ω k) * f z) = f (p ω k) * f (p ω l)) →
      (∑ b, ∫⁻ x, ENNReal.ofReal (Real.exp (logpi x)) * f (x, b) ∂(Measure.pi fun _ => lam)) ^ 2 ≤
      targetMass N lam logpi * stationaryPair lam logpi (K mv) (fun z z' => f z * f z') := by
    intro f hf ho
    have hg : Measurable fun ω => ∑ k, ENNReal.ofReal (w ω k) * f (p ω k) :=
      Finset.measurable_fun_sum _ fun k _ => Measurable.mul
        (ENNReal.measurable_ofReal.comp ((measurable_pi_apply k).comp h2))
        (hf.comp (h3.comp (by fun_prop : Measurable fun ω : Ω => (ω, k))))
    rw [h9 mv hm _ (by
      exact (hf.comp measurable_fst).mul (hf.comp measurable_snd)), ← h8' f hf, ← Sliced.mass_eq h5 h8']
    refine (isKer_sq_le h1 hg).trans (le_of_eq ?_)
    congr 2
    funext ω
    simp only [hd kk (w ω) (h5 ω), ho]
    rw [sum_mul_sum]
    simp only [mul_sum]
    exact sum_congr rfl fun k _ => sum_congr rfl fun l _ => by ring
  refine ⟨fun hb f hf => key f hf fun ω k l => by rw [h7 hb]; rfl, fun f hf => ?_⟩
  exact key (fun z => f (lastA z.1)) (hf.comp (by fun_prop)) fun ω k l =>
    (h8 ω l (fun v => f (lastA (p ω k).1) * f v) (hf.const_mul _))

end Verif
