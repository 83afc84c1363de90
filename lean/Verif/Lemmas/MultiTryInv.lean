import Verif.Lemmas.MultiTry
import Verif.Lemmas.AuxFamily
import Verif.Lemmas.Near
import Verif.Lemmas.KalmanLaws

/-!
# Invariance of multi-try kernels: helper lemmas
-/

open scoped ENNReal
open MeasureTheory Finset

namespace Verif
open Verif.Spec Verif.Model

variable {N : ℕ}

/-! ## Moves that do not depend on the labels -/

/-- A move that commutes with relabelling. -/
def Equivariant (move : (Fin (N + 1) → ℝ) → Fin (N + 1) → Ex (Fin (N + 1))) : Prop :=
  ∀ (σ : Equiv.Perm (Fin (N + 1))) (w : Fin (N + 1) → ℝ) (k : Fin (N + 1)) (f : Fin (N + 1) → ℝ≥0∞),
    move (fun i => w (σ i)) k (fun i => f (σ i)) = move w (σ k) f

theorem sum_erase_perm {β : Type} [AddCommMonoid β] (σ : Equiv.Perm (Fin (N + 1))) (k : Fin (N + 1))
    (g : Fin (N + 1) → β) : ∑ l ∈ univ.erase k, g (σ l) = ∑ l ∈ univ.erase (σ k), g l :=
  Finset.sum_equiv σ (by intro i; simp) (fun i _ => rfl)

theorem liu_equivariant : Equivariant (liuMove (N := N)) := by
  intro σ w k f
  have h1 := sum_erase_perm σ k (fun l => ENNReal.ofReal (liuQ w (σ k) l) * f l)
  have h2 := sum_erase_perm σ k (fun l => liuQ w (σ k) l)
  show (∑ l ∈ univ.erase k, ENNReal.ofReal (liuQ w (σ k) (σ l)) * f (σ l)) +
    ENNReal.ofReal (1 - ∑ l ∈ univ.erase k, liuQ w (σ k) (σ l)) * f (σ k) = _
  rw [h1, h2]
  rfl

theorem normalizeW_perm (σ : Equiv.Perm (Fin (N + 1))) (lw : Fin (N + 1) → ℝ) :
    normalizeW (fun i => lw (σ i)) = fun i => normalizeW lw (σ i) := by
  funext i
  rw [normalize_eq, normalize_eq, Equiv.sum_comp σ (fun l => Real.exp (lw l))]

theorem lintegral_pi_perm {X : Type} [MeasurableSpace X] (lam : Measure X) [SigmaFinite lam]
    (σ : Equiv.Perm (Fin (N + 1))) (F : (Fin (N + 1) → X) → ℝ≥0∞) (hF : Measurable F) :
    ∫⁻ y, F (fun i => y (σ i)) ∂(Measure.pi fun _ => lam) = ∫⁻ y, F y ∂(Measure.pi fun _ => lam) := by
  have h := (measurePreserving_piCongrLeft (fun _ : Fin (N + 1) => lam) σ).symm
  exact h.lintegral_comp hF

theorem measurable_move {move : (Fin (N + 1) → ℝ) → Fin (N + 1) → Ex (Fin (N + 1))} (hm : MoveKer move)
    {β : Type} [MeasurableSpace β] {w : β → Fin (N + 1) → ℝ} (hw : Measurable w) (k : Fin (N + 1))
    {g : β → Fin (N + 1) → ℝ≥0∞} (hg : Measurable g) : Measurable fun b => move (w b) k (g b) :=
  (hm.comp (g := fun b => (w b, k)) (hw.prodMk measurable_const)).measurable (f := fun b i => g b i)
    (measurable_from_prod_countable_left fun i => (measurable_pi_apply i).comp hg)

/-- **Selection among exchangeable candidates.** `A z` is the joint density of the reference `z 0` and of the proposals
`z 1, …, z N`; the weights are proportional to the joint densities in which each candidate plays the reference. -/
theorem multitry_core {X : Type} [MeasurableSpace X] {lam : Measure X} [SigmaFinite lam]
    {A C : (Fin (N + 1) → X) → ℝ≥0∞} {lw : (Fin (N + 1) → X) → Fin (N + 1) → ℝ} (hAm : Measurable A)
    (hlwm : Measurable lw)
    (hA : ∀ z k, A (fun i => z (Equiv.swap 0 k i)) = ENNReal.ofReal (Real.exp (lw z k)) * C z)
    (hlw : ∀ z k i, lw (fun i => z (Equiv.swap 0 k i)) i = lw z (Equiv.swap 0 k i))
    {move : (Fin (N + 1) → ℝ) → Fin (N + 1) → Ex (Fin (N + 1))} (hm : MoveInvariant move) (he : Equivariant move)
    {f : X → ℝ≥0∞} (hf : Measurable f) :
    ∫⁻ z, A z * move (normalizeW (lw z)) 0 (fun i => f (z i)) ∂(Measure.pi fun _ => lam) =
      ∫⁻ z, A z * f (z 0) ∂(Measure.pi fun _ => lam) := by
  have hfz : Measurable fun (z : Fin (N + 1) → X) i => f (z i) :=
    measurable_pi_lambda _ fun i => hf.comp (measurable_pi_apply i)
  have hM : ∀ k, Measurable fun z => move (normalizeW (lw z)) k (fun i => f (z i)) := fun k =>
    measurable_move hm.ker (measurable_normalizeW hlwm) k hfz
  have hperm : ∀ k : Fin (N + 1), Measurable fun (z : Fin (N + 1) → X) i => z (Equiv.swap 0 k i) := fun k => by fun_prop
  have h1 : ∀ k, ∫⁻ z, A z * move (normalizeW (lw z)) 0 (fun i => f (z i)) ∂(Measure.pi fun _ => lam) =
      ∫⁻ z, A (fun i => z (Equiv.swap 0 k i)) * move (normalizeW (lw z)) k (fun i => f (z i))
        ∂(Measure.pi fun _ => lam) := by
    intro k
    refine (lintegral_pi_perm lam (Equiv.swap 0 k) (fun z => A z * move (normalizeW (lw z)) 0 (fun i => f (z i)))
      (hAm.mul (hM 0))).symm.trans (lintegral_congr fun z => ?_)
    show A (fun i => z (Equiv.swap 0 k i)) * move (normalizeW (lw fun i => z (Equiv.swap 0 k i))) 0
      (fun i => f (z (Equiv.swap 0 k i))) = _
    have e1 : lw (fun i => z (Equiv.swap 0 k i)) = fun i => lw z (Equiv.swap 0 k i) := funext fun i => hlw z k i
    rw [e1, normalizeW_perm]
    have := he (Equiv.swap 0 k) (normalizeW (lw z)) 0 (fun i => f (z i))
    rw [Equiv.swap_apply_left] at this
    rw [this]
  have h2 : ∀ k, ∫⁻ z, A z * f (z 0) ∂(Measure.pi fun _ => lam) =
      ∫⁻ z, A (fun i => z (Equiv.swap 0 k i)) * f (z k) ∂(Measure.pi fun _ => lam) := by
    intro k
    refine (lintegral_pi_perm lam (Equiv.swap 0 k) (fun z => A z * f (z 0))
      (hAm.mul (hf.comp (measurable_pi_apply 0)))).symm.trans (lintegral_congr fun z => ?_)
    simp only [Equiv.swap_apply_left]
  have h3 : ∑ k : Fin (N + 1), ∫⁻ z, A (fun i => z (Equiv.swap 0 k i)) * move (normalizeW (lw z)) k (fun i => f (z i))
        ∂(Measure.pi fun _ => lam) =
      ∑ k : Fin (N + 1), ∫⁻ z, A (fun i => z (Equiv.swap 0 k i)) * f (z k) ∂(Measure.pi fun _ => lam) := by
    refine (lintegral_finsetSum _ fun k _ => (hAm.comp (hperm k)).mul (hM k)).symm.trans (Eq.trans ?_
      (lintegral_finsetSum _ fun k _ => (hAm.comp (hperm k)).mul (hf.comp (measurable_pi_apply k))))
    refine lintegral_congr fun z => ?_
    show ∑ k, A (fun i => z (Equiv.swap 0 k i)) * move (normalizeW (lw z)) k (fun i => f (z i)) =
      ∑ k, A (fun i => z (Equiv.swap 0 k i)) * f (z k)
    have hw : ∀ k, ENNReal.ofReal (Real.exp (lw z k)) =
        ENNReal.ofReal (∑ l, Real.exp (lw z l)) * ENNReal.ofReal (normalizeW (lw z) k) := by
      intro k
      rw [← ENNReal.ofReal_mul (sum_exp_pos _).le, normalize_eq, mul_div_cancel₀ _ (sum_exp_pos _).ne']
    have hi := hm.inv (normalizeW (lw z)) (normalize_isProb _) (normalize_pos _) (fun i => f (z i))
    simp only [hA, hw]
    have : ∀ (g : Fin (N + 1) → ℝ≥0∞), ∑ k, ENNReal.ofReal (∑ l, Real.exp (lw z l)) *
        ENNReal.ofReal (normalizeW (lw z) k) * C z * g k =
        ENNReal.ofReal (∑ l, Real.exp (lw z l)) * C z * ∑ k, ENNReal.ofReal (normalizeW (lw z) k) * g k := by
      intro g
      rw [mul_sum]
      exact sum_congr rfl fun k _ => by ring
    rw [this, this, hi]
  rw [← sum_congr rfl fun k _ => h1 k, ← sum_congr rfl fun k _ => h2 k] at h3
  simp only [sum_const, card_univ, Fintype.card_fin, nsmul_eq_mul] at h3
  have hne : ((N + 1 : ℕ) : ℝ≥0∞) ≠ 0 := by simp
  have hnt : ((N + 1 : ℕ) : ℝ≥0∞) ≠ ⊤ := ENNReal.natCast_ne_top _
  exact (ENNReal.mul_right_inj hne hnt).mp h3

/-- Splitting off the reference. -/
theorem lintegral_pi_insert0 {X : Type} [MeasurableSpace X] (lam : Measure X) [SigmaFinite lam]
    (F : (Fin (N + 1) → X) → ℝ≥0∞) (hF : Measurable F) :
    ∫⁻ z, F z ∂(Measure.pi fun _ => lam) = ∫⁻ x, ∫⁻ y, F (insert0 x y) ∂(Measure.pi fun _ => lam) ∂lam := by
  have hins : ∀ (x0 : X) (x : Fin N → X), (Fin.insertNth (α := fun _ => X) 0 x0 x : Fin (N + 1) → X) = insert0 x0 x :=
    fun x0 x => by rw [Fin.insertNth_zero']; rfl
  rw [lintegral_pi_insertNth _ 0 _ hF]
  simp only [hins]
  refine lintegral_lintegral_swap (Measurable.aemeasurable ?_)
  exact hF.comp (measurable_insert0 measurable_snd measurable_fst)

section aux
variable {X Θ : Type} [MeasurableSpace X] [MeasurableSpace Θ] {lam : Measure X} [SigmaFinite lam] {μ : Measure Θ}
  [SFinite μ] {logpi : X → ℝ} {r : X → Θ → ℝ} {q : Θ → X → ℝ}

/-- Joint log-density of the reference, the auxiliary variable and the proposals. -/
def mtLog (logpi : X → ℝ) (r : X → Θ → ℝ) (q : Θ → X → ℝ) (u : Θ) (z : Fin (N + 1) → X) : ℝ :=
  logpi (z 0) + r (z 0) u + ∑ i : Fin N, q u (z i.succ)

theorem measurable_mtLog (hp : Measurable logpi) (hr : Measurable fun p : X × Θ => r p.1 p.2)
    (hq : Measurable fun p : Θ × X => q p.1 p.2) :
    Measurable fun p : Θ × (Fin (N + 1) → X) => mtLog logpi r q p.1 p.2 := by
  unfold mtLog
  refine ((hp.comp (by fun_prop)).add (hr.comp (by fun_prop : Measurable fun p : Θ × (Fin (N + 1) → X) =>
    (p.2 0, p.1)))).add (Finset.measurable_fun_sum _ fun i _ => ?_)
  exact hq.comp (by fun_prop : Measurable fun p : Θ × (Fin (N + 1) → X) => (p.1, p.2 i.succ))

/-- The kernel integrated against the target, with the auxiliary variable outside. -/
theorem mt_joint (hp : Measurable logpi) (hr : Measurable fun p : X × Θ => r p.1 p.2)
    (hq : Measurable fun p : Θ × X => q p.1 p.2) {M : Θ → (Fin (N + 1) → X) → ℝ≥0∞}
    (hM : Measurable fun p : Θ × (Fin (N + 1) → X) => M p.1 p.2) :
    ∫⁻ x, ENNReal.ofReal (Real.exp (logpi x)) * ∫⁻ u, ENNReal.ofReal (Real.exp (r x u)) *
      ∫⁻ y, ENNReal.ofReal (Real.exp (∑ i, q u (y i))) * M u (insert0 x y) ∂(Measure.pi fun _ : Fin N => lam) ∂μ ∂lam =
    ∫⁻ u, ∫⁻ z, ENNReal.ofReal (Real.exp (mtLog logpi r q u z)) * M u z ∂(Measure.pi fun _ => lam) ∂μ := by
  have hmt := measurable_mtLog (N := N) hp hr hq
  obtain ⟨B, hB⟩ : ∃ B : Θ → (Fin (N + 1) → X) → ℝ≥0∞, ∀ u z, ENNReal.ofReal (Real.exp (mtLog logpi r q u z)) * M u z =
    B u z := ⟨_, fun _ _ => rfl⟩
  have hA : Measurable fun p : Θ × (Fin (N + 1) → X) => B p.1 p.2 := by
    simp only [← hB]
    exact measurable_expR_mul hmt hM
  have hsq : Measurable fun p : Θ × (Fin N → X) => ∑ i, q p.1 (p.2 i) :=
    Finset.measurable_fun_sum _ fun i _ => hq.comp (by fun_prop : Measurable fun p : Θ × (Fin N → X) => (p.1, p.2 i))
  have h1 : ∀ x, ENNReal.ofReal (Real.exp (logpi x)) * ∫⁻ u, ENNReal.ofReal (Real.exp (r x u)) *
      ∫⁻ y, ENNReal.ofReal (Real.exp (∑ i, q u (y i))) * M u (insert0 x y) ∂(Measure.pi fun _ : Fin N => lam) ∂μ =
      ∫⁻ u, ∫⁻ y, B u (insert0 x y) ∂(Measure.pi fun _ : Fin N => lam) ∂μ := by
    intro x
    have hMx : Measurable fun p : Θ × (Fin N → X) => M p.1 (insert0 x p.2) :=
      hM.comp (by fun_prop : Measurable fun p : Θ × (Fin N → X) => (p.1, (insert0 x p.2 : Fin (N + 1) → X)))
    have hin : Measurable fun p : Θ × (Fin N → X) => ENNReal.ofReal (Real.exp (∑ i, q p.1 (p.2 i))) * M p.1 (insert0 x p.2) :=
      measurable_expR_mul hsq hMx
    have hru : Measurable fun u => r x u := hr.comp (by fun_prop : Measurable fun u : Θ => (x, u))
    rw [← lintegral_const_mul _ (measurable_expR_mul hru hin.lintegral_prod_right')]
    refine lintegral_congr fun u => ?_
    have hinu : Measurable fun y : Fin N → X => ENNReal.ofReal (Real.exp (∑ i, q u (y i))) * M u (insert0 x y) :=
      hin.comp (by fun_prop : Measurable fun y : Fin N → X => (u, y))
    rw [← lintegral_const_mul _ hinu, ← lintegral_const_mul _ (hinu.const_mul _)]
    refine lintegral_congr fun y => ?_
    rw [← hB]
    simp only [mtLog, insert0_zero, insert0_succ, ofReal_exp_add]
    ring
  simp only [h1, hB]
  have hsw : Measurable fun p : X × Θ => ∫⁻ y, B p.2 (insert0 p.1 y) ∂(Measure.pi fun _ : Fin N => lam) := by
    have : Measurable fun p : (X × Θ) × (Fin N → X) => B p.1.2 (insert0 p.1.1 p.2) :=
      hA.comp (by fun_prop : Measurable fun p : (X × Θ) × (Fin N → X) => (p.1.2, (insert0 p.1.1 p.2 : Fin (N + 1) → X)))
    exact this.lintegral_prod_right'
  rw [lintegral_lintegral_swap hsw.aemeasurable]
  refine lintegral_congr fun u => ?_
  exact (lintegral_pi_insert0 lam _ (hA.comp (by fun_prop : Measurable fun z : Fin (N + 1) → X => (u, z)))).symm

theorem sum_swap_eq (g : Fin (N + 1) → ℝ) (k : Fin (N + 1)) :
    ∑ i : Fin N, g (Equiv.swap 0 k i.succ) = ∑ i, g i - g k := by
  have h := Equiv.sum_comp (Equiv.swap 0 k) g
  rw [Fin.sum_univ_succ, Equiv.swap_apply_left] at h
  linarith

omit [MeasurableSpace X] [MeasurableSpace Θ] in
/-- Joint log-density after exchanging the reference with candidate `k`. -/
theorem mtLog_swap (u : Θ) (z : Fin (N + 1) → X) (k : Fin (N + 1)) :
    mtLog logpi r q u (fun i => z (Equiv.swap 0 k i)) =
      (logpi (z k) + r (z k) u - q u (z k)) + ∑ i, q u (z i) := by
  rw [mtLog]
  simp only [Equiv.swap_apply_left]
  rw [sum_swap_eq (fun i => q u (z i)) k]
  ring

/-- **Multi-try kernels with an auxiliary variable**: the weights are the ratios of the target given the auxiliary
variable to the proposal density. -/
theorem mt_aux_invariant (hp : Measurable logpi) (hr : Measurable fun p : X × Θ => r p.1 p.2)
    (hq : Measurable fun p : Θ × X => q p.1 p.2)
    (hmass : ∀ x, ∫⁻ u, ENNReal.ofReal (Real.exp (r x u)) *
      ∫⁻ y, ENNReal.ofReal (Real.exp (∑ i, q u (y i))) ∂(Measure.pi fun _ : Fin N => lam) ∂μ = 1)
    {move : (Fin (N + 1) → ℝ) → Fin (N + 1) → Ex (Fin (N + 1))} (hm : MoveInvariant move) (he : Equivariant move)
    {f : X → ℝ≥0∞} (hf : Measurable f) :
    ∫⁻ x, ENNReal.ofReal (Real.exp (logpi x)) * ∫⁻ u, ENNReal.ofReal (Real.exp (r x u)) *
      ∫⁻ y, ENNReal.ofReal (Real.exp (∑ i, q u (y i))) *
        move (normalizeW fun k => logpi ((insert0 x y : Fin (N + 1) → X) k) + r ((insert0 x y : Fin (N + 1) → X) k) u -
          q u ((insert0 x y : Fin (N + 1) → X) k)) 0 (fun k => f ((insert0 x y : Fin (N + 1) → X) k))
        ∂(Measure.pi fun _ : Fin N => lam) ∂μ ∂lam =
    ∫⁻ x, ENNReal.ofReal (Real.exp (logpi x)) * f x ∂lam := by
  have hlw : Measurable fun p : Θ × (Fin (N + 1) → X) => fun k => logpi (p.2 k) + r (p.2 k) p.1 - q p.1 (p.2 k) := by
    refine measurable_pi_lambda _ fun k => ?_
    exact ((hp.comp (by fun_prop)).add (hr.comp (by fun_prop : Measurable fun p : Θ × (Fin (N + 1) → X) => (p.2 k, p.1)))).sub
      (hq.comp (by fun_prop : Measurable fun p : Θ × (Fin (N + 1) → X) => (p.1, p.2 k)))
  have hfz : Measurable fun (p : Θ × (Fin (N + 1) → X)) k => f (p.2 k) :=
    measurable_pi_lambda _ fun i => hf.comp (by fun_prop)
  have hM := measurable_move hm.ker (measurable_normalizeW hlw) 0 hfz
  refine (mt_joint (N := N) hp hr hq (M := fun u z => move (normalizeW fun k => logpi (z k) + r (z k) u - q u (z k)) 0
    (fun k => f (z k))) hM).trans ?_
  have hM2 : Measurable fun p : Θ × (Fin (N + 1) → X) => f (p.2 0) := hf.comp (by fun_prop)
  have h2 := mt_joint (N := N) (lam := lam) (μ := μ) hp hr hq (M := fun _ z => f (z 0)) hM2
  have h3 : ∀ u, ∫⁻ z, ENNReal.ofReal (Real.exp (mtLog logpi r q u z)) * move (normalizeW fun k => logpi (z k) +
      r (z k) u - q u (z k)) 0 (fun k => f (z k)) ∂(Measure.pi fun _ : Fin (N + 1) => lam) =
      ∫⁻ z, ENNReal.ofReal (Real.exp (mtLog logpi r q u z)) * f (z 0) ∂(Measure.pi fun _ : Fin (N + 1) => lam) := by
    intro u
    refine multitry_core (C := fun z => ENNReal.ofReal (Real.exp (∑ i, q u (z i))))
      (lw := fun z k => logpi (z k) + r (z k) u - q u (z k)) ?_ ?_ ?_ ?_ hm he hf
    · exact measurable_expR ((measurable_mtLog hp hr hq).comp (by fun_prop : Measurable fun z : Fin (N + 1) → X => (u, z)))
    · exact hlw.comp (by fun_prop : Measurable fun z : Fin (N + 1) → X => (u, z))
    · intro z k
      rw [mtLog_swap, ofReal_exp_add]
    · intro z k i
      rfl
  rw [lintegral_congr h3, ← h2]
  refine lintegral_congr fun x => ?_
  simp only [insert0_zero]
  have e : ∀ u, ENNReal.ofReal (Real.exp (r x u)) * ∫⁻ y, ENNReal.ofReal (Real.exp (∑ i, q u (y i))) * f x
      ∂(Measure.pi fun _ : Fin N => lam) = (ENNReal.ofReal (Real.exp (r x u)) * ∫⁻ y, ENNReal.ofReal (Real.exp (∑ i, q u (y i)))
      ∂(Measure.pi fun _ : Fin N => lam)) * f x := by
    intro u
    rw [lintegral_mul_const, mul_assoc]
    exact measurable_expR (Finset.measurable_fun_sum _ fun i _ => hq.comp (by fun_prop : Measurable fun y : Fin N → X => (u, y i)))
  simp only [e]
  rw [lintegral_mul_const, hmass, one_mul]
  have hsq : Measurable fun p : Θ × (Fin N → X) => ∑ i, q p.1 (p.2 i) :=
    Finset.measurable_fun_sum _ fun i _ => hq.comp (by fun_prop : Measurable fun p : Θ × (Fin N → X) => (p.1, p.2 i))
  exact measurable_expR_mul (hr.comp (by fun_prop : Measurable fun u : Θ => (x, u)))
    (measurable_expR hsq).lintegral_prod_right'

/-- **Multi-try kernels with a marginalised auxiliary variable**: the weights are the joint densities of all candidates
when each one plays the reference. -/
theorem mt_marg_invariant (hp : Measurable logpi) (hr : Measurable fun p : X × Θ => r p.1 p.2)
    (hq : Measurable fun p : Θ × X => q p.1 p.2)
    (hmass : ∀ x, ∫⁻ u, ENNReal.ofReal (Real.exp (r x u)) *
      ∫⁻ y, ENNReal.ofReal (Real.exp (∑ i, q u (y i))) ∂(Measure.pi fun _ : Fin N => lam) ∂μ = 1)
    {lw : (Fin (N + 1) → X) → Fin (N + 1) → ℝ} (hlwm : Measurable lw) {C : (Fin (N + 1) → X) → ℝ≥0∞}
    (hC : ∀ z k, ∫⁻ u, ENNReal.ofReal (Real.exp (mtLog logpi r q u (fun i => z (Equiv.swap 0 k i)))) ∂μ =
      ENNReal.ofReal (Real.exp (lw z k)) * C z)
    (hlw : ∀ z k i, lw (fun i => z (Equiv.swap 0 k i)) i = lw z (Equiv.swap 0 k i))
    {move : (Fin (N + 1) → ℝ) → Fin (N + 1) → Ex (Fin (N + 1))} (hm : MoveInvariant move) (he : Equivariant move)
    {f : X → ℝ≥0∞} (hf : Measurable f) :
    ∫⁻ x, ENNReal.ofReal (Real.exp (logpi x)) * ∫⁻ u, ENNReal.ofReal (Real.exp (r x u)) *
      ∫⁻ y, ENNReal.ofReal (Real.exp (∑ i, q u (y i))) *
        move (normalizeW (lw (insert0 x y))) 0 (fun k => f ((insert0 x y : Fin (N + 1) → X) k))
        ∂(Measure.pi fun _ : Fin N => lam) ∂μ ∂lam =
    ∫⁻ x, ENNReal.ofReal (Real.exp (logpi x)) * f x ∂lam := by
  have hfz : Measurable fun (z : Fin (N + 1) → X) k => f (z k) :=
    measurable_pi_lambda _ fun i => hf.comp (measurable_pi_apply i)
  have hM0 := measurable_move hm.ker (measurable_normalizeW hlwm) 0 hfz
  have hE : Measurable fun p : Θ × (Fin (N + 1) → X) => ENNReal.ofReal (Real.exp (mtLog logpi r q p.1 p.2)) :=
    measurable_expR (measurable_mtLog hp hr hq)
  have hsw : ∀ M : (Fin (N + 1) → X) → ℝ≥0∞, Measurable M →
      ∫⁻ x, ENNReal.ofReal (Real.exp (logpi x)) * ∫⁻ u, ENNReal.ofReal (Real.exp (r x u)) *
      ∫⁻ y, ENNReal.ofReal (Real.exp (∑ i, q u (y i))) * M (insert0 x y) ∂(Measure.pi fun _ : Fin N => lam) ∂μ ∂lam =
      ∫⁻ z, (∫⁻ u, ENNReal.ofReal (Real.exp (mtLog logpi r q u z)) ∂μ) * M z ∂(Measure.pi fun _ => lam) := by
    intro M hM
    rw [mt_joint (N := N) (lam := lam) (μ := μ) hp hr hq (M := fun _ z => M z) (hM.comp measurable_snd)]
    rw [lintegral_lintegral_swap (hE.mul (hM.comp measurable_snd)).aemeasurable]
    refine lintegral_congr fun z => ?_
    rw [lintegral_mul_const]
    exact hE.comp (by fun_prop : Measurable fun u : Θ => (u, z))
  rw [hsw _ hM0]
  rw [multitry_core (C := C) hE.lintegral_prod_left' hlwm hC hlw hm he hf]
  rw [← hsw (fun z => f (z 0)) (hf.comp (measurable_pi_apply 0))]
  refine lintegral_congr fun x => ?_
  simp only [insert0_zero]
  have e : ∀ u, ENNReal.ofReal (Real.exp (r x u)) * ∫⁻ y, ENNReal.ofReal (Real.exp (∑ i, q u (y i))) * f x
      ∂(Measure.pi fun _ : Fin N => lam) = (ENNReal.ofReal (Real.exp (r x u)) * ∫⁻ y, ENNReal.ofReal (Real.exp (∑ i, q u (y i)))
      ∂(Measure.pi fun _ : Fin N => lam)) * f x := by
    intro u
    rw [lintegral_mul_const, mul_assoc]
    exact measurable_expR (Finset.measurable_fun_sum _ fun i _ => hq.comp (by fun_prop : Measurable fun y : Fin N → X => (u, y i)))
  simp only [e]
  rw [lintegral_mul_const, hmass, one_mul]
  have hsq : Measurable fun p : Θ × (Fin N → X) => ∑ i, q p.1 (p.2 i) :=
    Finset.measurable_fun_sum _ fun i _ => hq.comp (by fun_prop : Measurable fun p : Θ × (Fin N → X) => (p.1, p.2 i))
  exact measurable_expR_mul (hr.comp (by fun_prop : Measurable fun u : Θ => (x, u)))
    (measurable_expR hsq).lintegral_prod_right'

end aux

end Verif
