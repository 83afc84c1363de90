import Verif.Lemmas.MultiTryProg
import Verif.Lemmas.MovePairs
import Verif.Spec.NearReversible

/-!
# Multi-try kernels are reversible: helper lemmas
-/

open scoped ENNReal
open MeasureTheory Finset

namespace Verif
open Verif.Spec Verif.Model

variable {N : ℕ}

/-- **Selection among exchangeable candidates**, for functions of the old and the new state. -/
theorem multitry_pair {X : Type} [MeasurableSpace X] {lam : Measure X} [SigmaFinite lam]
    {A C : (Fin (N + 1) → X) → ℝ≥0∞} {lw : (Fin (N + 1) → X) → Fin (N + 1) → ℝ} (hAm : Measurable A)
    (hlwm : Measurable lw)
    (hA : ∀ z k, A (fun i => z (Equiv.swap 0 k i)) = ENNReal.ofReal (Real.exp (lw z k)) * C z)
    (hlw : ∀ z k i, lw (fun i => z (Equiv.swap 0 k i)) i = lw z (Equiv.swap 0 k i))
    {move : (Fin (N + 1) → ℝ) → Fin (N + 1) → Ex (Fin (N + 1))} (hm : MoveReversible move) (he : Equivariant move)
    {H : X → X → ℝ≥0∞} (hH : Measurable (Function.uncurry H)) :
    ∫⁻ z, A z * move (normalizeW (lw z)) 0 (fun i => H (z 0) (z i)) ∂(Measure.pi fun _ => lam) =
      ∫⁻ z, A z * move (normalizeW (lw z)) 0 (fun i => H (z i) (z 0)) ∂(Measure.pi fun _ => lam) := by
  have hperm : ∀ k : Fin (N + 1), Measurable fun (z : Fin (N + 1) → X) i => z (Equiv.swap 0 k i) := fun k => by fun_prop
  -- both sides as sums over the index that plays the reference
  have key : ∀ G : X → X → ℝ≥0∞, Measurable (Function.uncurry G) →
      ((N + 1 : ℕ) : ℝ≥0∞) * ∫⁻ z, A z * move (normalizeW (lw z)) 0 (fun i => G (z 0) (z i)) ∂(Measure.pi fun _ => lam) =
      ∫⁻ z, ∑ k, A (fun i => z (Equiv.swap 0 k i)) * move (normalizeW (lw z)) k (fun i => G (z k) (z i))
        ∂(Measure.pi fun _ => lam) := by
    intro G hG
    have hM : ∀ k, Measurable fun z => move (normalizeW (lw z)) k (fun i => G (z k) (z i)) := fun k =>
      measurable_move hm.ker (measurable_normalizeW hlwm) k (measurable_pi_lambda _ fun i =>
        hG.comp (by fun_prop : Measurable fun z : Fin (N + 1) → X => (z k, z i)))
    rw [lintegral_finsetSum (f := fun k z => A (fun i => z (Equiv.swap 0 k i)) *
      move (normalizeW (lw z)) k (fun i => G (z k) (z i))) univ fun k _ => (hAm.comp (hperm k)).mul (hM k)]
    have h1 : ∀ k, ∫⁻ z, A z * move (normalizeW (lw z)) 0 (fun i => G (z 0) (z i)) ∂(Measure.pi fun _ => lam) =
        ∫⁻ z, A (fun i => z (Equiv.swap 0 k i)) * move (normalizeW (lw z)) k (fun i => G (z k) (z i))
          ∂(Measure.pi fun _ => lam) := by
      intro k
      refine (lintegral_pi_perm lam (Equiv.swap 0 k) (fun z => A z * move (normalizeW (lw z)) 0 (fun i => G (z 0) (z i)))
        (hAm.mul (hM 0))).symm.trans (lintegral_congr fun z => ?_)
      show A (fun i => z (Equiv.swap 0 k i)) * move (normalizeW (lw fun i => z (Equiv.swap 0 k i))) 0
        (fun i => G (z (Equiv.swap 0 k 0)) (z (Equiv.swap 0 k i))) = _
      have e1 : lw (fun i => z (Equiv.swap 0 k i)) = fun i => lw z (Equiv.swap 0 k i) := funext fun i => hlw z k i
      rw [e1, normalizeW_perm]
      have := he (Equiv.swap 0 k) (normalizeW (lw z)) 0 (fun i => G (z k) (z i))
      rw [Equiv.swap_apply_left] at this
      rw [Equiv.swap_apply_left, this]
    rw [← sum_congr rfl fun k _ => h1 k]
    simp only [sum_const, card_univ, Fintype.card_fin, nsmul_eq_mul]
  have hne : ((N + 1 : ℕ) : ℝ≥0∞) ≠ 0 := by simp
  have hnt : ((N + 1 : ℕ) : ℝ≥0∞) ≠ ⊤ := ENNReal.natCast_ne_top _
  refine (ENNReal.mul_right_inj hne hnt).mp ?_
  rw [key H hH, key (fun a b => H b a) (hH.comp measurable_swap)]
  refine lintegral_congr fun z => ?_
  have hw : ∀ k, ENNReal.ofReal (Real.exp (lw z k)) =
      ENNReal.ofReal (∑ l, Real.exp (lw z l)) * ENNReal.ofReal (normalizeW (lw z) k) := by
    intro k
    rw [← ENNReal.ofReal_mul (sum_exp_pos _).le, normalize_eq, mul_div_cancel₀ _ (sum_exp_pos _).ne']
  have hi := hm.rev (normalizeW (lw z)) (normalize_isProb _) (normalize_pos _) (fun k i => H (z k) (z i))
  simp only [hA, hw]
  have : ∀ (g : Fin (N + 1) → ℝ≥0∞), ∑ k, ENNReal.ofReal (∑ l, Real.exp (lw z l)) *
      ENNReal.ofReal (normalizeW (lw z) k) * C z * g k =
      ENNReal.ofReal (∑ l, Real.exp (lw z l)) * C z * ∑ k, ENNReal.ofReal (normalizeW (lw z) k) * g k := by
    intro g
    rw [mul_sum]
    exact sum_congr rfl fun k _ => by ring
  rw [this, this, hi]

section aux
variable {X Θ : Type} [MeasurableSpace X] [MeasurableSpace Θ] {lam : Measure X} [SigmaFinite lam] {μ : Measure Θ}
  [SFinite μ] {logpi : X → ℝ} {r : X → Θ → ℝ} {q : Θ → X → ℝ}

/-- **Multi-try kernels with an auxiliary variable** are reversible. -/
theorem mt_aux_pair (hp : Measurable logpi) (hr : Measurable fun p : X × Θ => r p.1 p.2)
    (hq : Measurable fun p : Θ × X => q p.1 p.2)
    {move : (Fin (N + 1) → ℝ) → Fin (N + 1) → Ex (Fin (N + 1))} (hm : MoveReversible move) (he : Equivariant move)
    {H : X → X → ℝ≥0∞} (hH : Measurable (Function.uncurry H)) :
    ∫⁻ x, ENNReal.ofReal (Real.exp (logpi x)) * ∫⁻ u, ENNReal.ofReal (Real.exp (r x u)) *
      ∫⁻ y, ENNReal.ofReal (Real.exp (∑ i, q u (y i))) *
        move (normalizeW fun k => logpi ((insert0 x y : Fin (N + 1) → X) k) + r ((insert0 x y : Fin (N + 1) → X) k) u -
          q u ((insert0 x y : Fin (N + 1) → X) k)) 0 (fun k => H x ((insert0 x y : Fin (N + 1) → X) k))
        ∂(Measure.pi fun _ : Fin N => lam) ∂μ ∂lam =
    ∫⁻ x, ENNReal.ofReal (Real.exp (logpi x)) * ∫⁻ u, ENNReal.ofReal (Real.exp (r x u)) *
      ∫⁻ y, ENNReal.ofReal (Real.exp (∑ i, q u (y i))) *
        move (normalizeW fun k => logpi ((insert0 x y : Fin (N + 1) → X) k) + r ((insert0 x y : Fin (N + 1) → X) k) u -
          q u ((insert0 x y : Fin (N + 1) → X) k)) 0 (fun k => H ((insert0 x y : Fin (N + 1) → X) k) x)
        ∂(Measure.pi fun _ : Fin N => lam) ∂μ ∂lam := by
  have hlw : Measurable fun p : Θ × (Fin (N + 1) → X) => fun k => logpi (p.2 k) + r (p.2 k) p.1 - q p.1 (p.2 k) := by
    refine measurable_pi_lambda _ fun k => ?_
    exact ((hp.comp (by fun_prop)).add (hr.comp (by fun_prop : Measurable fun p : Θ × (Fin (N + 1) → X) => (p.2 k, p.1)))).sub
      (hq.comp (by fun_prop : Measurable fun p : Θ × (Fin (N + 1) → X) => (p.1, p.2 k)))
  have side : ∀ G : X → X → ℝ≥0∞, Measurable (Function.uncurry G) →
      ∫⁻ x, ENNReal.ofReal (Real.exp (logpi x)) * ∫⁻ u, ENNReal.ofReal (Real.exp (r x u)) *
      ∫⁻ y, ENNReal.ofReal (Real.exp (∑ i, q u (y i))) *
        move (normalizeW fun k => logpi ((insert0 x y : Fin (N + 1) → X) k) + r ((insert0 x y : Fin (N + 1) → X) k) u -
          q u ((insert0 x y : Fin (N + 1) → X) k)) 0 (fun k => G x ((insert0 x y : Fin (N + 1) → X) k))
        ∂(Measure.pi fun _ : Fin N => lam) ∂μ ∂lam =
      ∫⁻ u, ∫⁻ z, ENNReal.ofReal (Real.exp (mtLog logpi r q u z)) * move (normalizeW fun k => logpi (z k) + r (z k) u - q u (z k)) 0
        (fun k => G (z 0) (z k)) ∂(Measure.pi fun _ => lam) ∂μ := fun G hG => by
    have hfz : Measurable fun (p : Θ × (Fin (N + 1) → X)) k => G (p.2 0) (p.2 k) :=
      measurable_pi_lambda _ fun i => hG.comp (by fun_prop : Measurable fun p : Θ × (Fin (N + 1) → X) => (p.2 0, p.2 i))
    have hM := measurable_move hm.ker (measurable_normalizeW hlw) 0 hfz
    exact mt_joint (N := N) hp hr hq (M := fun u z => move (normalizeW fun k => logpi (z k) + r (z k) u - q u (z k)) 0
      (fun k => G (z 0) (z k))) hM
  rw [side H hH, side (fun a b => H b a) (hH.comp measurable_swap)]
  refine lintegral_congr fun u => ?_
  refine multitry_pair (C := fun z => ENNReal.ofReal (Real.exp (∑ i, q u (z i))))
    (lw := fun z k => logpi (z k) + r (z k) u - q u (z k)) ?_ ?_ ?_ ?_ hm he hH
  · exact measurable_expR ((measurable_mtLog hp hr hq).comp (by fun_prop : Measurable fun z : Fin (N + 1) → X => (u, z)))
  · exact hlw.comp (by fun_prop : Measurable fun z : Fin (N + 1) → X => (u, z))
  · intro z k
    rw [mtLog_swap, ofReal_exp_add]
  · intro z k i
    rfl

/-- **Multi-try kernels with a marginalised auxiliary variable** are reversible. -/
theorem mt_marg_pair (hp : Measurable logpi) (hr : Measurable fun p : X × Θ => r p.1 p.2)
    (hq : Measurable fun p : Θ × X => q p.1 p.2)
    {lw : (Fin (N + 1) → X) → Fin (N + 1) → ℝ} (hlwm : Measurable lw) {C : (Fin (N + 1) → X) → ℝ≥0∞}
    (hC : ∀ z k, ∫⁻ u, ENNReal.ofReal (Real.exp (mtLog logpi r q u (fun i => z (Equiv.swap 0 k i)))) ∂μ =
      ENNReal.ofReal (Real.exp (lw z k)) * C z)
    (hlw : ∀ z k i, lw (fun i => z (Equiv.swap 0 k i)) i = lw z (Equiv.swap 0 k i))
    {move : (Fin (N + 1) → ℝ) → Fin (N + 1) → Ex (Fin (N + 1))} (hm : MoveReversible move) (he : Equivariant move)
    {H : X → X → ℝ≥0∞} (hH : Measurable (Function.uncurry H)) :
    ∫⁻ x, ENNReal.ofReal (Real.exp (logpi x)) * ∫⁻ u, ENNReal.ofReal (Real.exp (r x u)) *
      ∫⁻ y, ENNReal.ofReal (Real.exp (∑ i, q u (y i))) *
        move (normalizeW (lw (insert0 x y))) 0 (fun k => H x ((insert0 x y : Fin (N + 1) → X) k))
        ∂(Measure.pi fun _ : Fin N => lam) ∂μ ∂lam =
    ∫⁻ x, ENNReal.ofReal (Real.exp (logpi x)) * ∫⁻ u, ENNReal.ofReal (Real.exp (r x u)) *
      ∫⁻ y, ENNReal.ofReal (Real.exp (∑ i, q u (y i))) *
        move (normalizeW (lw (insert0 x y))) 0 (fun k => H ((insert0 x y : Fin (N + 1) → X) k) x)
        ∂(Measure.pi fun _ : Fin N => lam) ∂μ ∂lam := by
  have hE : Measurable fun p : Θ × (Fin (N + 1) → X) => ENNReal.ofReal (Real.exp (mtLog logpi r q p.1 p.2)) :=
    measurable_expR (measurable_mtLog hp hr hq)
  have hsw : ∀ M : (Fin (N + 1) → X) → ℝ≥0∞, Measurable M →
      ∫⁻ x, ENNReal.ofReal (Real.exp (logpi x)) * ∫⁻ u, ENNReal.ofReal (Real.exp (r x u)) *
      ∫⁻ y, ENNReal.ofReal (Real.exp (∑ i, q u (y i))) * M (insert0 x y) ∂(Measure.pi fun _ : Fin N => lam) ∂μ ∂lam =
      ∫⁻ z, (∫⁻ u, ENNReal.ofReal (Real.exp (mtLog logpi r q u z)) ∂μ) * M z ∂(Measure.pi fun _ => lam) := by
    intro M hM
    rw [mt_joint (N := N) (lam := lam) (μ := μ) hp hr hq (M := fun _ z => M z) (hM.comp measurable_snd)]
    rw [lintegral_lintegral_swap (hE.mul (hM.comp measurable_snd)).aemeasurable]
    refine lintegral_congr fun z => ?_
    rw [lintegral_mul_const]
    exact hE.comp (by fun_prop : Measurable fun u : Θ => (u, z))
  have hM : ∀ G : X → X → ℝ≥0∞, Measurable (Function.uncurry G) →
      Measurable fun z => move (normalizeW (lw z)) 0 (fun k => G (z 0) (z k)) := fun G hG =>
    measurable_move hm.ker (measurable_normalizeW hlwm) 0 (measurable_pi_lambda _ fun i =>
      hG.comp (by fun_prop : Measurable fun z : Fin (N + 1) → X => (z 0, z i)))
  refine (hsw _ (hM H hH)).trans (Eq.trans ?_ (hsw _ (hM (fun a b => H b a) (hH.comp measurable_swap))).symm)
  exact multitry_pair (C := C) hE.lintegral_prod_left' hlwm hC hlw hm he hH

end aux

/-- Selection with a reversible move, from states of the form `init x`. -/
theorem nearPair_of {X S E : Type} [MeasurableSpace X] [MeasurableSpace S] [MeasurableSpace E] {lam : Measure X}
    {logpi : X → ℝ} (hpi : Measurable logpi) {init : X → S} {K : S → Ex S} {D : S → Ex E} (hD : IsKer D)
    (h1 : ∀ s, D s (fun _ => 1) = 1) {W : S → E → Fin (N + 1) → ℝ} (hW : Measurable fun p : S × E => W p.1 p.2)
    (hp : ∀ s e, IsProb (W s e)) {g : S → E → Fin (N + 1) → S} (hg : Measurable fun p : S × E => g p.1 p.2)
    {move move' : (Fin (N + 1) → ℝ) → Fin (N + 1) → Ex (Fin (N + 1))} (hm : MoveKer move) (hm' : MoveKer move') {ε : ℝ≥0∞}
    (hn : ∀ w, IsProb w → ∀ k, TVLe ε (move w k) (move' w k))
    (hK : ∀ s, K s = drawSelect (D s) (W s) (g s) move)
    (hrev : ∀ H : S × S → ℝ≥0∞, Measurable H → ∫⁻ x, ENNReal.ofReal (Real.exp (logpi x)) *
        drawSelect (D (init x)) (W (init x)) (g (init x)) move' (fun s => H (init x, s)) ∂lam =
      ∫⁻ x, ENNReal.ofReal (Real.exp (logpi x)) *
        drawSelect (D (init x)) (W (init x)) (g (init x)) move' (fun s => H (s, init x)) ∂lam) :
    StateNearReversible (2 * ε) lam logpi init K := by
  have hE : Measurable fun x => ENNReal.ofReal (Real.exp (logpi x)) := measurable_expR hpi
  have key : ∀ A B : X → ℝ≥0∞, (∀ x, A x ≤ B x + ε) → ∫⁻ x, ENNReal.ofReal (Real.exp (logpi x)) * A x ∂lam ≤
      ∫⁻ x, ENNReal.ofReal (Real.exp (logpi x)) * B x ∂lam + ε * ∫⁻ x, ENNReal.ofReal (Real.exp (logpi x)) ∂lam := by
    intro A B h
    calc _ ≤ ∫⁻ x, (ENNReal.ofReal (Real.exp (logpi x)) * B x + ε * ENNReal.ofReal (Real.exp (logpi x))) ∂lam := by
          refine lintegral_mono fun x => ?_
          calc _ ≤ ENNReal.ofReal (Real.exp (logpi x)) * (B x + ε) := by gcongr; exact h x
            _ = _ := by ring
      _ = _ := by rw [lintegral_add_right _ (hE.const_mul ε), lintegral_const_mul _ hE]
  have near : ∀ x, TVLe ε (K (init x)) (drawSelect (D (init x)) (W (init x)) (g (init x)) move') := fun x => by
    rw [hK]
    exact drawSelect_near (hD.comp (g := fun _ : Unit => init x) measurable_const) (h1 _)
      (hW.comp measurable_prodMk_left) (hp _) (hg.comp measurable_prodMk_left) hm hm' hn
  intro H hH hH1
  have a := fun x => near x (fun s => H (init x, s)) (hH.comp measurable_prodMk_left) fun s => hH1 _
  have b := fun x => near x (fun s => H (s, init x)) (hH.comp measurable_prodMk_right) fun s => hH1 _
  have a1 := key _ _ fun x => (a x).1
  have a2 := key _ _ fun x => (a x).2
  have b1 := key _ _ fun x => (b x).1
  have b2 := key _ _ fun x => (b x).2
  rw [hrev H hH] at a1 a2
  constructor
  · refine a1.trans ((add_le_add_left b2 _).trans (le_of_eq ?_))
    ring
  · refine b1.trans ((add_le_add_left a2 _).trans (le_of_eq ?_))
    ring

end Verif
