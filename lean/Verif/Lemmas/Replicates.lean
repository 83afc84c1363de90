import Verif.Spec.Replicates
import Verif.Spec.Indices
import Verif.Model.ExpRuns
import Verif.Lemmas.PiMeasure
import Verif.Lemmas.Rotation

/-!
# Independent replicates
-/

open scoped ENNReal
open MeasureTheory Finset

namespace Verif
open Verif.Spec Verif.Model

section vmap
variable {M : ℕ}

theorem vmapM_zero {m : Type → Type} [RandM m] [LawfulMonad m] {I O : Type} (f : I → m O) (xs : Fin 0 → I) :
    vmapM f xs = pure Fin.elim0 := by
  unfold vmapM scanM
  simp

theorem vmapM_succ {m : Type → Type} [RandM m] [LawfulMonad m] {I O : Type} (f : I → m O) (xs : Fin (M + 1) → I) :
    vmapM f xs = f (xs 0) >>= fun o => vmapM f (tailA xs) >>= fun os => pure (insert0 o os) := by
  conv_lhs => unfold vmapM
  rw [scanM_succ]
  simp [vmapM]

theorem vmapM_congr {m : Type → Type} [RandM m] [LawfulMonad m] {I I' O : Type} {f : I → m O} {g : I' → m O} {xs : Fin M → I}
    {ys : Fin M → I'} (h : ∀ i, f (xs i) = g (ys i)) : vmapM f xs = vmapM g ys := by
  induction M with
  | zero => rw [vmapM_zero, vmapM_zero]
  | succ M ih =>
    rw [vmapM_succ, vmapM_succ, h 0, ih (xs := tailA xs) (ys := tailA ys) fun i => h i.succ]

/-- A function of the result of every call can be taken after the calls. -/
theorem vmapM_map {m : Type → Type} [RandM m] [LawfulMonad m] {I O O' : Type} (f : I → m O) (φ : I → O → O') (xs : Fin M → I) :
    vmapM (fun x => f x >>= fun o => pure (φ x o)) xs = vmapM f xs >>= fun os => pure fun i => φ (xs i) (os i) := by
  induction M with
  | zero =>
    rw [vmapM_zero, vmapM_zero, pure_bind]
    exact congrArg pure (funext fun i => i.elim0)
  | succ M ih =>
    rw [vmapM_succ, vmapM_succ]
    simp only [ih, bind_assoc, pure_bind]
    refine congrArg _ (funext fun o => congrArg _ (funext fun os => congrArg pure (funext fun i => ?_)))
    refine Fin.cases ?_ (fun i => ?_) i <;> rfl

variable {X I O : Type} [MeasurableSpace X] [MeasurableSpace O]

theorem vmapM_ker {g : I → Ex O} {inp : Fin M → X → I} (hg : ∀ i, IsKer fun x => g (inp i x)) :
    IsKer fun x : Fin M → X => (vmapM g (fun i => inp i (x i)) : Ex _) := by
  induction M with
  | zero =>
    exact (IsKer.pure (g := fun _ : Fin 0 → X => (Fin.elim0 : Fin 0 → O)) measurable_const).congr fun x f _ =>
      congrFun (vmapM_zero g _).symm f
  | succ M ih =>
    refine (IsKer.bind (P := fun x : Fin (M + 1) → X => g (inp 0 (x 0)))
      (F := fun x o => vmapM g (tailA fun i => inp i (x i)) >>= fun os => pure (insert0 o os))
      ((hg 0).comp (measurable_pi_apply 0)) ?_).congr fun x f _ =>
        congrFun (vmapM_succ g fun i => inp i (x i)).symm f
    refine IsKer.bind (P := fun p : (Fin (M + 1) → X) × O => vmapM g (tailA fun i => inp i (p.1 i)))
      (F := fun p os => pure (insert0 p.2 os)) ?_ (IsKer.pure (by fun_prop))
    exact (ih (inp := fun i => inp i.succ) fun i => hg i.succ).comp (g := fun p : (Fin (M + 1) → X) × O => tailA p.1)
      (by fun_prop)

theorem lintegral_pi_cons (μ : Fin (M + 1) → Measure X) [∀ i, SigmaFinite (μ i)] (F : (Fin (M + 1) → X) → ℝ≥0∞)
    (hF : Measurable F) : ∫⁻ x, F x ∂Measure.pi μ = ∫⁻ x0, ∫⁻ x', F (insert0 x0 x') ∂Measure.pi (tailA μ) ∂μ 0 := by
  have h := (measurePreserving_piFinSuccAbove μ 0).symm
  have hm : Measurable fun p : X × (Fin M → X) => insert0 p.1 p.2 := by fun_prop
  rw [lintegral_pi_insertNth μ 0 F hF]
  simp only [Fin.insertNth_zero']
  exact lintegral_lintegral_swap (f := fun (x' : Fin M → X) (x0 : X) => F (insert0 x0 x'))
    (hF.comp (hm.comp measurable_swap)).aemeasurable

/-- Independent draws, each followed by its own call: independent pairs. -/
theorem vmapM_pairs {π : Measure X} [SigmaFinite π] {g : I → Ex O} {inp : Fin M → X → I}
    (hg : ∀ i, IsKer fun x => g (inp i x)) {μ : Fin M → Measure (X × O)} [∀ i, SigmaFinite (μ i)]
    (hμ : ∀ i f, Measurable f → ∫⁻ p, f p ∂μ i = ∫⁻ x, g (inp i x) (fun o => f (x, o)) ∂π)
    {F : (Fin M → X × O) → ℝ≥0∞} (hF : Measurable F) :
    ∫⁻ x, vmapM g (fun i => inp i (x i)) (fun o => F fun i => (x i, o i)) ∂(Measure.pi fun _ => π) = ∫⁻ p, F p ∂Measure.pi μ := by
  induction M with
  | zero =>
    have e : ∀ x : Fin 0 → X, vmapM g (fun i => inp i (x i)) (fun o => F fun i => (x i, o i)) = F Fin.elim0 := fun x =>
      (congrFun (vmapM_zero g _) _).trans (congrArg F (funext fun i => i.elim0))
    simp only [e]
    rw [Measure.pi_of_empty (fun _ : Fin 0 => π) Fin.elim0, Measure.pi_of_empty μ Fin.elim0, lintegral_dirac, lintegral_dirac]
  | succ M ih =>
    have hk := vmapM_ker (X := X) (inp := fun i => inp i.succ) fun i : Fin M => hg i.succ
    have e : ∀ x : Fin (M + 1) → X, vmapM g (fun i => inp i (x i)) (fun o => F fun i => (x i, o i)) =
        g (inp 0 (x 0)) (fun o0 => vmapM g (fun i => inp i.succ (tailA x i)) fun os =>
          F (insert0 (x 0, o0) fun i => (tailA x i, os i))) := fun x => by
      refine (congrFun (vmapM_succ g _) _).trans ?_
      refine Ex.congr_fun' (g (inp 0 (x 0))) fun o0 => Ex.congr_fun' (vmapM g _) fun os => congrArg F (funext fun i => ?_)
      refine Fin.cases ?_ (fun i => ?_) i <;> rfl
    have : ∀ i, SigmaFinite (tailA μ i) := fun i => inferInstanceAs (SigmaFinite (μ i.succ))
    have hins : Measurable fun q : (X × O) × (Fin M → X × O) => insert0 q.1 q.2 := by fun_prop
    have hm1 : Measurable fun q : ((X × (Fin M → X)) × O) => vmapM g (fun i => inp i.succ (q.1.2 i)) fun os =>
        F (insert0 (q.1.1, q.2) fun i => (q.1.2 i, os i)) :=
      (hk.comp (g := fun q : (X × (Fin M → X)) × O => q.1.2) (by fun_prop)).measurable
        (f := fun q os => F (insert0 (q.1.1, q.2) fun i => (q.1.2 i, os i)))
        (hF.comp (hins.comp (f := fun q : ((X × (Fin M → X)) × O) × (Fin M → O) =>
          ((q.1.1.1, q.1.2), fun i => (q.1.1.2 i, q.2 i))) (by fun_prop)))
    have hm2 : Measurable fun q : X × (Fin M → X) => g (inp 0 q.1) (fun o0 => vmapM g (fun i => inp i.succ (q.2 i)) fun os =>
        F (insert0 (q.1, o0) fun i => (q.2 i, os i))) :=
      ((hg 0).comp (g := fun q : X × (Fin M → X) => q.1) measurable_fst).measurable (f := fun q o0 =>
        vmapM g (fun i => inp i.succ (q.2 i)) fun os => F (insert0 (q.1, o0) fun i => (q.2 i, os i))) hm1
    simp only [e]
    refine (lintegral_pi_cons (fun _ => π) (fun x => g (inp 0 (x 0)) (fun o0 => vmapM g (fun i => inp i.succ (tailA x i)) fun os =>
      F (insert0 (x 0, o0) fun i => (tailA x i, os i)))) (hm2.comp (f := fun x : Fin (M + 1) → X => (x 0, tailA x))
      (by fun_prop))).trans ?_
    rw [lintegral_pi_cons μ F hF]
    rw [hμ 0 (fun q => ∫⁻ p, F (insert0 q p) ∂Measure.pi (tailA μ)) (hF.comp hins).lintegral_prod_right']
    refine lintegral_congr fun x0 => ?_
    have h1 := (hg 0).lintegral_swap x0 (Measure.pi fun _ : Fin M => π) (f := fun o0 xs =>
      vmapM g (fun i => inp i.succ (xs i)) fun os => F (insert0 (x0, o0) fun i => (xs i, os i)))
      (hm1.comp (f := fun q : O × (Fin M → X) => ((x0, q.2), q.1)) (by fun_prop))
    refine Eq.trans ?_ (h1.symm.trans ?_)
    · rfl
    · refine Ex.congr_fun' (g (inp 0 x0)) fun o0 => ?_
      exact ih (inp := fun i => inp i.succ) (fun i => hg i.succ) (μ := tailA μ) (fun i f hf => hμ i.succ f hf)
        (F := fun p => F (insert0 (x0, o0) p)) (hF.comp (hins.comp measurable_prodMk_left))

/-- The law of a draw followed by a step. -/
theorem exists_isJump {π : Measure X} [IsProbabilityMeasure π] {J : X → Ex O} (hJ : IsKer J)
    (hm : ∀ x, J x (fun _ => 1) = 1) :
    ∃ μ : Measure (X × O), IsProbabilityMeasure μ ∧ ∀ f, Measurable f → ∫⁻ p, f p ∂μ = ∫⁻ x, J x (fun o => f (x, o)) ∂π := by
  have hk : IsKer fun _ : Unit => (show Ex (X × O) from fun f => ∫⁻ x, J x (fun o => f (x, o)) ∂π) := by
    refine (IsKer.bind (P := fun (_ : Unit) (f : X → ℝ≥0∞) => ∫⁻ x, f x ∂π) (F := fun _ x => J x >>= fun o => pure (x, o))
      (IsKer.const π fun _ _ => rfl) ?_).congr fun _ _ _ => rfl
    exact IsKer.bind (P := fun q : Unit × X => J q.2) (F := fun q o => pure (q.2, o)) (hJ.comp measurable_snd)
      (IsKer.pure (by fun_prop))
  obtain ⟨κ, _, h⟩ := hk
  refine ⟨κ (), ⟨?_⟩, fun f hf => (h () f hf).symm⟩
  have h1 := h () (fun _ => 1) measurable_const
  rw [lintegral_one] at h1
  rw [← h1]
  show ∫⁻ x, J x (fun _ => 1) ∂π = 1
  simp [hm]

end vmap

section laws
variable {X : Type} [MeasurableSpace X] {lam : Measure X} {l : X → ℝ}

theorem lintegral_lawOf (hl : Measurable l) {f : X → ℝ≥0∞} (hf : Measurable f) :
    ∫⁻ x, f x ∂lawOf lam l =
      (∫⁻ x, ENNReal.ofReal (Real.exp (l x)) ∂lam)⁻¹ * ∫⁻ x, ENNReal.ofReal (Real.exp (l x)) * f x ∂lam := by
  have hm : Measurable fun x => ENNReal.ofReal (Real.exp (l x)) := by fun_prop
  rw [lawOf, lintegral_smul_measure, lintegral_withDensity_eq_lintegral_mul _ hm hf]
  rfl

theorem lintegral_exp_sub (c : ℝ) : ∫⁻ x, ENNReal.ofReal (Real.exp (l x - c)) ∂lam =
    ENNReal.ofReal (Real.exp (-c)) * ∫⁻ x, ENNReal.ofReal (Real.exp (l x)) ∂lam := by
  rw [← lintegral_const_mul' _ _ ENNReal.ofReal_ne_top]
  refine lintegral_congr fun x => ?_
  rw [← ENNReal.ofReal_mul (Real.exp_pos _).le, ← Real.exp_add]
  congr 2
  ring

/-- A density with a known normalising constant. -/
theorem lawOf_eq {c : ℝ} (h : ∫⁻ x, ENNReal.ofReal (Real.exp (l x - c)) ∂lam = 1) (hl : Measurable l) :
    (∫⁻ x, ENNReal.ofReal (Real.exp (l x)) ∂lam ≠ 0 ∧ ∫⁻ x, ENNReal.ofReal (Real.exp (l x)) ∂lam ≠ ∞) ∧
    lawOf lam l = lam.withDensity fun x => ENNReal.ofReal (Real.exp (l x - c)) := by
  have hc0 : ENNReal.ofReal (Real.exp (-c)) ≠ 0 := by simp [Real.exp_pos]
  have h' := lintegral_exp_sub (lam := lam) (l := l) c
  rw [h] at h'
  have hZ0 : ∫⁻ x, ENNReal.ofReal (Real.exp (l x)) ∂lam ≠ 0 := fun h0 => by
    rw [h0, mul_zero] at h'
    exact one_ne_zero h'
  have hZ : ∫⁻ x, ENNReal.ofReal (Real.exp (l x)) ∂lam ≠ ∞ := fun h0 => by
    rw [h0, ENNReal.mul_top hc0] at h'
    exact ENNReal.one_ne_top h'
  refine ⟨⟨hZ0, hZ⟩, ?_⟩
  have hi : (∫⁻ x, ENNReal.ofReal (Real.exp (l x)) ∂lam)⁻¹ = ENNReal.ofReal (Real.exp (-c)) :=
    (ENNReal.eq_inv_of_mul_eq_one_left h'.symm).symm
  rw [lawOf, hi, ← withDensity_smul _ (by fun_prop)]
  congr 1
  funext x
  rw [Pi.smul_apply, smul_eq_mul, ← ENNReal.ofReal_mul (Real.exp_pos _).le, ← Real.exp_add]
  congr 2
  ring

theorem lawOf_isProb (hZ : ∫⁻ x, ENNReal.ofReal (Real.exp (l x)) ∂lam ≠ 0 ∧ ∫⁻ x, ENNReal.ofReal (Real.exp (l x)) ∂lam ≠ ∞)
    (hl : Measurable l) : IsProbabilityMeasure (lawOf lam l) := by
  constructor
  rw [← lintegral_one, lintegral_lawOf hl measurable_const]
  simp only [mul_one]
  exact ENNReal.inv_mul_cancel hZ.1 hZ.2

theorem nearStationary_lawOf {ε : ℝ≥0∞} {J : X → Ex X} (hJ : IsKer J) (hl : Measurable l)
    (hZ : ∫⁻ x, ENNReal.ofReal (Real.exp (l x)) ∂lam ≠ 0 ∧ ∫⁻ x, ENNReal.ofReal (Real.exp (l x)) ∂lam ≠ ∞)
    (h : TVLe (ε * ∫⁻ x, ENNReal.ofReal (Real.exp (l x)) ∂lam)
      (fun f => ∫⁻ x, ENNReal.ofReal (Real.exp (l x)) * J x f ∂lam)
      (fun f => ∫⁻ x, ENNReal.ofReal (Real.exp (l x)) * f x ∂lam)) : NearStationary ε (lawOf lam l) J := by
  intro f hf hf1
  have hJf : Measurable fun x => J x f := hJ.measurable (f := fun _ y => f y) (by fun_prop)
  have hm : ∀ a b : ℝ≥0∞, a ≤ b + ε * ∫⁻ x, ENNReal.ofReal (Real.exp (l x)) ∂lam →
      (∫⁻ x, ENNReal.ofReal (Real.exp (l x)) ∂lam)⁻¹ * a ≤ (∫⁻ x, ENNReal.ofReal (Real.exp (l x)) ∂lam)⁻¹ * b + ε := by
    intro a b hab
    refine (mul_le_mul_right hab _).trans (le_of_eq ?_)
    rw [mul_add, mul_left_comm, ENNReal.inv_mul_cancel hZ.1 hZ.2, mul_one]
  obtain ⟨h1, h2⟩ := h f hf hf1
  simp only [lintegral_lawOf hl hf, lintegral_lawOf hl hJf]
  exact ⟨hm _ _ h1, hm _ _ h2⟩

variable {N n : ℕ} {lam' : Measure X} {l' : (Fin (n + 1) → X) → ℝ}
  {K : (Fin (n + 1) → X) → (Fin (n + 1) → Fin (N + 1)) → Ex ((Fin (n + 1) → X) × (Fin (n + 1) → Fin (N + 1)))}

theorem Spec.LeavesInvariant.near_zero (h : LeavesInvariant lam' l' K) : LeavesNearInvariant 0 lam' l' K := by
  intro f hf _
  have := h f hf
  simp only [zero_mul, add_zero]
  exact ⟨this.le, this.ge⟩

/-- Invariance up to an error for random indices, and labels that do not matter: the same from any fixed indices. -/
theorem Spec.Relabels.nearInvariant {ε : ℝ≥0∞} (h : Relabels K) (hi : LeavesNearInvariant ε lam' l' K)
    (b : Fin (n + 1) → Fin (N + 1)) :
    TVLe (ε * ∫⁻ x, ENNReal.ofReal (Real.exp (l' x)) ∂(Measure.pi fun _ => lam'))
      (fun f => ∫⁻ x, ENNReal.ofReal (Real.exp (l' x)) * K x b (fun r => f r.1) ∂(Measure.pi fun _ => lam'))
      (fun f => ∫⁻ x, ENNReal.ofReal (Real.exp (l' x)) * f x ∂(Measure.pi fun _ => lam')) := by
  intro f hf hf1
  have e : ∀ b' x, K x b' (fun r => f r.1) = K x b (fun r => f r.1) := fun b' x =>
    h.indexFree x b' b (fun x _ => f x) fun _ => hf
  have h1 := hi (fun r => f r.1) (by fun_prop) fun r => hf1 r.1
  simp only [e, Finset.sum_const, nsmul_eq_mul] at h1
  obtain ⟨C, hC⟩ : ∃ C : ℝ≥0∞, C = ((univ : Finset (Fin (n + 1) → Fin (N + 1))).card : ℝ≥0∞) := ⟨_, rfl⟩
  rw [← hC] at h1
  have hC0 : C ≠ 0 := by rw [hC]; simp
  have hCt : C ≠ ∞ := by rw [hC]; exact ENNReal.natCast_ne_top _
  have hm : ∀ a b m : ℝ≥0∞, C * a ≤ C * b + ε * (C * m) → a ≤ b + ε * m := by
    intro a b m hab
    have : C * a ≤ C * (b + ε * m) := hab.trans (le_of_eq (by ring))
    exact (ENNReal.mul_le_mul_iff_right hC0 hCt).1 this
  exact ⟨hm _ _ _ h1.1, hm _ _ _ h1.2⟩

end laws

section moments
variable {X : Type} [MeasurableSpace X] {M : ℕ} (μ : Measure X) [IsProbabilityMeasure μ]

theorem lintegral_pi_eval {g : X → ℝ≥0∞} (hg : Measurable g) (i : Fin M) :
    ∫⁻ p, g (p i) ∂(Measure.pi fun _ : Fin M => μ) = ∫⁻ x, g x ∂μ :=
  (measurePreserving_eval (fun _ : Fin M => μ) i).lintegral_comp hg

theorem lintegral_pi_sum {g : X → ℝ≥0∞} (hg : Measurable g) :
    ∫⁻ p, ∑ i, g (p i) ∂(Measure.pi fun _ : Fin M => μ) = M * ∫⁻ x, g x ∂μ := by
  rw [lintegral_finsetSum (f := fun (i : Fin M) (p : Fin M → X) => g (p i)) _ fun i _ => hg.comp (measurable_pi_apply i)]
  simp [lintegral_pi_eval μ hg]

theorem lintegral_pi_sum_sq {g : X → ℝ≥0∞} (hg : Measurable g) :
    ∫⁻ p, (∑ i, g (p i)) ^ 2 ∂(Measure.pi fun _ : Fin M => μ) =
      M * ∫⁻ x, g x ^ 2 ∂μ + (M * (M - 1) : ℕ) * (∫⁻ x, g x ∂μ) ^ 2 := by
  induction M with
  | zero => simp
  | succ M ih =>
    have hs : Measurable fun x' : Fin M → X => ∑ i, g (x' i) := by fun_prop
    refine (lintegral_pi_cons (fun _ : Fin (M + 1) => μ) (fun p => (∑ i, g (p i)) ^ 2) (by fun_prop)).trans ?_
    have e : ∀ (x0 : X) (x' : Fin M → X), (∑ i, g ((insert0 x0 x' : Fin (M + 1) → X) i)) ^ 2 =
        g x0 ^ 2 + 2 * g x0 * ∑ i, g (x' i) + (∑ i, g (x' i)) ^ 2 := fun x0 x' => by
      rw [Fin.sum_univ_succ]
      show (g x0 + ∑ i, g (x' i)) ^ 2 = _
      ring
    have e2 : ∀ x0, ∫⁻ x', (∑ i, g ((insert0 x0 x' : Fin (M + 1) → X) i)) ^ 2 ∂(Measure.pi (tailA fun _ : Fin (M + 1) => μ)) =
        g x0 ^ 2 + 2 * g x0 * (M * ∫⁻ x, g x ∂μ) + (M * ∫⁻ x, g x ^ 2 ∂μ + (M * (M - 1) : ℕ) * (∫⁻ x, g x ∂μ) ^ 2) := fun x0 => by
      simp only [e]
      show ∫⁻ x', (g x0 ^ 2 + 2 * g x0 * ∑ i, g (x' i) + (∑ i, g (x' i)) ^ 2) ∂(Measure.pi fun _ : Fin M => μ) = _
      rw [lintegral_add_right _ (by fun_prop), lintegral_add_right _ (by fun_prop), lintegral_const,
        lintegral_const_mul _ hs, ih, lintegral_pi_sum μ hg]
      simp
    simp only [e2]
    rw [lintegral_add_right _ measurable_const, lintegral_add_right _ (by fun_prop), lintegral_const,
      lintegral_mul_const _ (by fun_prop), lintegral_const_mul _ hg]
    have hn : (((M + 1) * (M + 1 - 1) : ℕ) : ℝ≥0∞) = 2 * M + (M * (M - 1) : ℕ) := by
      rw [← Nat.cast_two, ← Nat.cast_mul, ← Nat.cast_add]
      congr 1
      cases M with
      | zero => rfl
      | succ k => simp only [Nat.add_sub_cancel]; ring
    rw [hn]
    push_cast
    simp only [measure_univ, mul_one]
    ring

end moments

end Verif
