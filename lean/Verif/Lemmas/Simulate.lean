import Verif.Lemmas.Replicates

/-!
# Simulating a state-space model
-/

open scoped ENNReal
open MeasureTheory Finset

namespace Verif
open Verif.Model Verif.Spec

variable {X Y : Type} [MeasurableSpace X] [MeasurableSpace Y] {n : ℕ}

/-- Density of the states after the first one, and of the observations. -/
noncomputable def simW (k : X → X → ℝ≥0∞) (g : X → Y → ℝ≥0∞) (xs : Fin (n + 1) → X) (ys : Fin (n + 1) → Y) : ℝ≥0∞ :=
  (∏ t : Fin n, k (xs t.castSucc) (xs t.succ)) * ∏ t, g (xs t) (ys t)

theorem measurable_simW {k : X → X → ℝ≥0∞} {g : X → Y → ℝ≥0∞} (hk : Measurable (Function.uncurry k)) (hg : Measurable (Function.uncurry g))
    {β : Type} [MeasurableSpace β] {xs : β → Fin (n + 1) → X} {ys : β → Fin (n + 1) → Y} (hx : Measurable xs) (hy : Measurable ys) :
    Measurable fun b => simW k g (xs b) (ys b) := by
  refine Measurable.mul (Finset.measurable_prod _ fun t _ => ?_) (Finset.measurable_prod _ fun t _ => ?_)
  · exact hk.comp (f := fun b => (xs b t.castSucc, xs b t.succ)) (by fun_prop)
  · exact hg.comp (f := fun b => (xs b t, ys b t)) (by fun_prop)

omit [MeasurableSpace X] [MeasurableSpace Y] in
theorem simW_cons (k : X → X → ℝ≥0∞) (g : X → Y → ℝ≥0∞) (x0 : X) (xs : Fin (n + 1) → X) (y0 : Y) (ys : Fin (n + 1) → Y) :
    simW k g (insert0 x0 xs) (insert0 y0 ys) = g x0 y0 * (k x0 (xs 0) * simW k g xs ys) := by
  have e : ∀ t : Fin n, (insert0 x0 xs : Fin (n + 1 + 1) → X) t.succ.castSucc = xs t.castSucc := fun t => rfl
  rw [simW, Fin.prod_univ_succ, Fin.prod_univ_succ (n := n + 1), simW]
  simp only [insert0_zero, insert0_succ, Fin.castSucc_zero, e]
  ring

/-- The simulator: `x_k` is recorded, `y_k` has density `g x_k`, `x_{k+1}` has density `k x_k`. -/
theorem simulate {lam : Measure X} [SigmaFinite lam] {mu : Measure Y} [SigmaFinite mu] {k : X → X → ℝ≥0∞} {g : X → Y → ℝ≥0∞}
    (hk : Measurable (Function.uncurry k)) (hg : Measurable (Function.uncurry g)) (hk1 : ∀ x, ∫⁻ x', k x x' ∂lam = 1)
    {I : Type} {body : X → I → Ex (X × (X × Y))}
    (hbody : ∀ x i f, Measurable f → body x i f = ∫⁻ y, g x y * ∫⁻ x', k x x' * f (x', (x, y)) ∂lam ∂mu)
    (x0 : X) (keys : Fin (n + 1) → I) {f : (Fin (n + 1) → X) → (Fin (n + 1) → Y) → ℝ≥0∞} (hf : Measurable (Function.uncurry f)) :
    scanM body x0 keys (fun r => f (fun t => (r.2 t).1) fun t => (r.2 t).2) =
      ∫⁻ xs, ∫⁻ ys, simW k g (insert0 x0 xs) ys * f (insert0 x0 xs) ys ∂(Measure.pi fun _ => mu) ∂(Measure.pi fun _ : Fin n => lam) := by
  have hf2 : ∀ {β : Type} [MeasurableSpace β] {m : ℕ} {f : (Fin m → X) → (Fin m → Y) → ℝ≥0∞}, Measurable (Function.uncurry f) →
      ∀ {a : β → Fin m → X} {b : β → Fin m → Y}, Measurable a → Measurable b → Measurable fun c => f (a c) (b c) :=
    fun hf _ _ ha hb => hf.comp (ha.prodMk hb)
  have e1 : ∀ {m : ℕ} (o : X × Y) (rs : Fin m → X × Y), (fun t => (insert0 o rs t).1) = insert0 o.1 fun t => (rs t).1 :=
    fun o rs => funext fun t => Fin.cases rfl (fun _ => rfl) t
  have e2 : ∀ {m : ℕ} (o : X × Y) (rs : Fin m → X × Y), (fun t => (insert0 o rs t).2) = insert0 o.2 fun t => (rs t).2 :=
    fun o rs => funext fun t => Fin.cases rfl (fun _ => rfl) t
  induction n generalizing x0 with
  | zero =>
    have h1 : scanM body x0 keys (fun r => f (fun t => (r.2 t).1) fun t => (r.2 t).2) =
        body x0 (keys 0) fun r => f (fun _ => r.2.1) fun _ => r.2.2 := by
      refine Ex.congr_fun' (body x0 (keys 0)) fun r => ?_
      show f (fun t => (insert0 r.2 (Fin.elim0 : Fin 0 → X × Y) t).1) (fun t => (insert0 r.2 (Fin.elim0 : Fin 0 → X × Y) t).2) = _
      congr 1 <;> · funext t; rw [Fin.fin_one_eq_zero t]; rfl
    rw [h1, hbody _ _ _ (hf2 hf (by fun_prop) (by fun_prop)), Measure.pi_of_empty _ Fin.elim0, lintegral_dirac]
    refine Eq.trans ?_ (lintegral_pi_cons _ (fun ys => simW k g (insert0 x0 Fin.elim0) ys * f (insert0 x0 Fin.elim0) ys)
      ((measurable_simW hk hg measurable_const measurable_id).mul (hf2 hf measurable_const measurable_id))).symm
    refine lintegral_congr fun y => ?_
    have hkm : Measurable fun x' => k x0 x' := hk.comp measurable_prodMk_left
    show g x0 y * ∫⁻ x', k x0 x' * f (fun _ => x0) (fun _ => y) ∂lam = _
    rw [lintegral_mul_const _ hkm, hk1, one_mul, Measure.pi_of_empty _ Fin.elim0, lintegral_dirac]
    have a1 : (insert0 x0 Fin.elim0 : Fin 1 → X) = fun _ => x0 := by funext t; rw [Fin.fin_one_eq_zero t]; rfl
    have a2 : (insert0 y Fin.elim0 : Fin 1 → Y) = fun _ => y := by funext t; rw [Fin.fin_one_eq_zero t]; rfl
    rw [a1, a2]
    simp [simW]
  | succ n ih =>
    have h1 : scanM body x0 keys (fun r => f (fun t => (r.2 t).1) fun t => (r.2 t).2) =
        body x0 (keys 0) fun r => ∫⁻ xs, ∫⁻ ys, simW k g (insert0 r.1 xs) ys * f (insert0 r.2.1 (insert0 r.1 xs)) (insert0 r.2.2 ys)
          ∂(Measure.pi fun _ => mu) ∂(Measure.pi fun _ : Fin n => lam) := by
      refine Ex.congr_fun' (body x0 (keys 0)) fun r => ?_
      rw [← ih r.1 (tailA keys) (f := fun xs ys => f (insert0 r.2.1 xs) (insert0 r.2.2 ys)) (hf2 hf (by fun_prop) (by fun_prop))]
      refine Ex.congr_fun' (scanM body r.1 (tailA keys)) fun rs => ?_
      show f (fun t => (insert0 r.2 rs.2 t).1) (fun t => (insert0 r.2 rs.2 t).2) = _
      rw [e1, e2]
    have hm : Measurable fun r : X × (X × Y) => ∫⁻ xs, ∫⁻ ys, simW k g (insert0 r.1 xs) ys * f (insert0 r.2.1 (insert0 r.1 xs)) (insert0 r.2.2 ys)
          ∂(Measure.pi fun _ => mu) ∂(Measure.pi fun _ : Fin n => lam) := by
      refine Measurable.lintegral_prod_right' (f := fun p : (X × (X × Y)) × (Fin n → X) => ∫⁻ ys, simW k g (insert0 p.1.1 p.2) ys *
        f (insert0 p.1.2.1 (insert0 p.1.1 p.2)) (insert0 p.1.2.2 ys) ∂(Measure.pi fun _ => mu)) ?_
      refine Measurable.lintegral_prod_right' (f := fun q : ((X × (X × Y)) × (Fin n → X)) × (Fin (n + 1) → Y) =>
        simW k g (insert0 q.1.1.1 q.1.2) q.2 * f (insert0 q.1.1.2.1 (insert0 q.1.1.1 q.1.2)) (insert0 q.1.1.2.2 q.2)) ?_
      exact (measurable_simW hk hg (by fun_prop) (by fun_prop)).mul (hf2 hf (by fun_prop) (by fun_prop))
    rw [h1, hbody _ _ _ hm]
    obtain ⟨Φ, hΦ⟩ : ∃ Φ : Y → X → (Fin n → X) → (Fin (n + 1) → Y) → ℝ≥0∞, Φ = fun y x1 xs ys =>
      simW k g (insert0 x0 (insert0 x1 xs)) (insert0 y ys) * f (insert0 x0 (insert0 x1 xs)) (insert0 y ys) := ⟨_, rfl⟩
    have hΦm : Measurable fun p : (Y × X) × ((Fin n → X) × (Fin (n + 1) → Y)) => Φ p.1.1 p.1.2 p.2.1 p.2.2 := by
      rw [hΦ]
      exact (measurable_simW hk hg (by fun_prop) (by fun_prop)).mul (hf2 hf (by fun_prop) (by fun_prop))
    have hΦ3 : Measurable fun p : (Y × X) × (Fin n → X) => ∫⁻ ys, Φ p.1.1 p.1.2 p.2 ys ∂(Measure.pi fun _ => mu) :=
      Measurable.lintegral_prod_right' (f := fun q : ((Y × X) × (Fin n → X)) × (Fin (n + 1) → Y) => Φ q.1.1.1 q.1.1.2 q.1.2 q.2)
        (hΦm.comp (g := fun p : (Y × X) × ((Fin n → X) × (Fin (n + 1) → Y)) => Φ p.1.1 p.1.2 p.2.1 p.2.2)
          (f := fun q : ((Y × X) × (Fin n → X)) × (Fin (n + 1) → Y) => (q.1.1, (q.1.2, q.2))) (by fun_prop))
    have hΦ2 : Measurable fun p : Y × X => ∫⁻ xs, ∫⁻ ys, Φ p.1 p.2 xs ys ∂(Measure.pi fun _ => mu) ∂(Measure.pi fun _ : Fin n => lam) :=
      hΦ3.lintegral_prod_right'
    have hL : ∀ y, g x0 y * ∫⁻ x1, k x0 x1 * ∫⁻ xs, ∫⁻ ys, simW k g (insert0 x1 xs) ys * f (insert0 x0 (insert0 x1 xs)) (insert0 y ys)
          ∂(Measure.pi fun _ => mu) ∂(Measure.pi fun _ : Fin n => lam) ∂lam =
        ∫⁻ x1, ∫⁻ xs, ∫⁻ ys, Φ y x1 xs ys ∂(Measure.pi fun _ => mu) ∂(Measure.pi fun _ : Fin n => lam) ∂lam := fun y => by
      have hF : Measurable fun p : (X × (Fin n → X)) × (Fin (n + 1) → Y) => simW k g (insert0 p.1.1 p.1.2) p.2 *
          f (insert0 x0 (insert0 p.1.1 p.1.2)) (insert0 y p.2) :=
        (measurable_simW hk hg (by fun_prop) (by fun_prop)).mul (hf2 hf (by fun_prop) (by fun_prop))
      have hkm : Measurable fun x1 => k x0 x1 := hk.comp measurable_prodMk_left
      refine (lintegral_const_mul _ (hkm.mul hF.lintegral_prod_right'.lintegral_prod_right')).symm.trans ?_
      refine lintegral_congr fun x1 => ?_
      refine (mul_assoc _ _ _).symm.trans ((lintegral_const_mul _ (hF.lintegral_prod_right'.comp measurable_prodMk_left)).symm.trans ?_)
      refine lintegral_congr fun xs => ?_
      rw [hΦ]
      refine (lintegral_const_mul _ (hF.comp measurable_prodMk_left)).symm.trans ?_
      refine lintegral_congr fun ys => ?_
      show g x0 y * k x0 x1 * (simW k g (insert0 x1 xs) ys * f (insert0 x0 (insert0 x1 xs)) (insert0 y ys)) =
        simW k g (insert0 x0 (insert0 x1 xs)) (insert0 y ys) * f (insert0 x0 (insert0 x1 xs)) (insert0 y ys)
      rw [simW_cons, insert0_zero]
      ring
    refine (lintegral_congr hL).trans ?_
    refine (lintegral_lintegral_swap (f := fun y x1 => ∫⁻ xs, ∫⁻ ys, Φ y x1 xs ys ∂(Measure.pi fun _ => mu) ∂(Measure.pi fun _ : Fin n => lam))
      hΦ2.aemeasurable).trans ?_
    have hRm : Measurable fun p : (Fin (n + 1) → X) × (Fin (n + 1 + 1) → Y) => simW k g (insert0 x0 p.1) p.2 * f (insert0 x0 p.1) p.2 :=
      (measurable_simW hk hg (by fun_prop) (by fun_prop)).mul (hf2 hf (by fun_prop) (by fun_prop))
    refine Eq.trans ?_ (lintegral_pi_cons _ _ hRm.lintegral_prod_right').symm
    refine lintegral_congr fun x1 => ?_
    refine (lintegral_lintegral_swap (f := fun y xs => ∫⁻ ys, Φ y x1 xs ys ∂(Measure.pi fun _ => mu)) ?_).trans ?_
    · exact (hΦ3.comp (g := fun p : (Y × X) × (Fin n → X) => ∫⁻ ys, Φ p.1.1 p.1.2 p.2 ys ∂(Measure.pi fun _ => mu))
        (f := fun q : Y × (Fin n → X) => ((q.1, x1), q.2)) (by fun_prop)).aemeasurable
    refine lintegral_congr fun xs => ?_
    refine Eq.trans ?_ (lintegral_pi_cons _ _ (hRm.comp measurable_prodMk_left)).symm
    rw [hΦ]
    rfl

end Verif
