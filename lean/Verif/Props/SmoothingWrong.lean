import Verif.Lemmas.WrongParentFinal
import Verif.Lemmas.ChainInv
import Verif.Model.ExpLgssm

/-!
# C27: where Particle-aMALA+ with backward sampling does not leave its target invariant
-/

open scoped ENNReal Topology
open MeasureTheory ProbabilityTheory Finset

namespace Verif.Props
open Verif Verif.Spec Verif.Model

variable {N : ℕ} {resampling : Resampling Ex N} {mv : AncestorMove Ex N}

/-- C27: `al_csmc_s.kernel` with `backward=True` does not leave its target invariant.  For all numbers of particles, PRNG
keys, ancestor moves and resampling schemes that can leave a pinned particle without other children: for every large
constant, on the model of `Verif.Spec.WrongParent`, with three times, the kernel changes the law of the state at time one
of a trajectory drawn from the target. -/
theorem C27_not_invariant (hN : 1 ≤ N) (key : Key) (hR : ∀ key, CondResampling (fun w i j => resampling key w i j true))
    (hS : ∀ key, CanLeaveAlone (fun w i j => resampling key w i j true))
    (hmv : ∀ key, MoveInvariant (fun w k => do
      let r ← mv key w k
      pure r.1))
    (hm : ∀ key, MoveMass (fun w k => do
      let r ← mv key w k
      pure r.1)) :
    ∃ C₀ : ℝ, ∀ C, C₀ ≤ C →
      ¬ LeavesInvariant volume (pathLogDensity wall (fun t y x => parentGamma C y x t)) (fun x b => do
        let r ← als_kernel key x b wall (fun _ => 0) (parentGamma C) parentGrad0 parentGrad1 (fun t => t) (fun _ => 2)
          (fun _ => 2) resampling mv true
        pure (r.xs, r.Bs)) ∧
      ¬ InvariantFromAnyIndex volume (pathLogDensity wall (fun t y x => parentGamma C y x t)) (fun x b => do
        let r ← als_kernel key x b wall (fun _ => 0) (parentGamma C) parentGrad0 parentGrad1 (fun t => t) (fun _ => 2)
          (fun _ => 2) resampling mv true
        pure (r.xs, r.Bs)) := by
  obtain ⟨C₀, hC₀⟩ := wp_ne (mv := mv) hN key hR hS hmv hm
  refine ⟨C₀, fun C hC => ⟨fun h => hC₀ C hC ?_, fun h => hC₀ C hC (sum_congr rfl fun b _ => ?_)⟩⟩
  · simp only [als_kernel_eq_F] at h
    exact h (fun q => offNeg (q.1 1)) (measurable_offNeg.comp ((measurable_pi_apply 1).comp measurable_fst))
  · simp only [als_kernel_eq_F] at h
    exact h b (fun x => offNeg (x 1)) (measurable_offNeg.comp (measurable_pi_apply 1))

/-! ### The gradients of the model are the true ones -/

/-- Where the potentials are differentiable in all arguments. -/
def OffJumps (x : Vec 1) : Prop := ∀ k : ℤ, x 0 ^ 2 ≠ k

theorem offJumps_ae : ∀ᵐ x : Vec 1, OffJumps x := by
  have h : ∀ᵐ z : ℝ, ∀ k : ℤ, z ^ 2 ≠ k := by
    rw [ae_all_iff]
    intro k
    have hf : {z : ℝ | ¬ z ^ 2 ≠ k}.Finite := by
      refine Set.Finite.subset ((Set.finite_singleton √(k : ℝ)).union (Set.finite_singleton (-√(k : ℝ)))) fun z hz => ?_
      have hz' : z ^ 2 = k := not_not.mp hz
      have : |z| = √(k : ℝ) := by rw [← hz', Real.sqrt_sq_eq_abs]
      rcases abs_cases z with ⟨h, _⟩ | ⟨h, _⟩
      · left; rw [Set.mem_singleton_iff]; linarith
      · right; rw [Set.mem_singleton_iff]; linarith
    exact hf.measure_zero _
  exact (volume_preserving_funUnique (Fin 1) ℝ).quasiMeasurePreserving.ae h

theorem wall_locally {x : Vec 1} (h : OffJumps x) : ∀ᶠ z in 𝓝 x, wall z = wall x := by
  have hc : Continuous fun z : Vec 1 => z 0 ^ 2 := by fun_prop
  have h1 : (⌊x 0 ^ 2⌋ : ℝ) < x 0 ^ 2 := lt_of_le_of_ne (Int.floor_le _) fun e => h _ e.symm
  have h2 := Int.lt_floor_add_one (x 0 ^ 2)
  filter_upwards [hc.continuousAt.eventually (lt_mem_nhds h1), hc.continuousAt.eventually (gt_mem_nhds h2)] with z hz1 hz2
  rw [wall, wall, Int.floor_eq_iff.mpr ⟨hz1.le, hz2⟩]

theorem OffJumps.ne_zero {x : Vec 1} (h : OffJumps x) : x 0 ≠ 0 := fun e => h 0 (by rw [e]; simp)

theorem OffJumps.ne_one {x : Vec 1} (h : OffJumps x) : x 0 ≠ 1 := fun e => h 1 (by rw [e]; simp)

theorem inUnit_locally {x : Vec 1} (h : OffJumps x) : ∀ᶠ z in 𝓝 x, (InUnit z ↔ InUnit x) := by
  have hc : Continuous fun z : Vec 1 => z 0 := by fun_prop
  by_cases hx : InUnit x
  · have h1 : 0 < x 0 := lt_of_le_of_ne hx.1 h.ne_zero.symm
    filter_upwards [hc.continuousAt.eventually (lt_mem_nhds h1), hc.continuousAt.eventually (gt_mem_nhds hx.2)] with z hz1 hz2
    exact iff_of_true ⟨hz1.le, hz2⟩ hx
  · rcases lt_or_gt_of_ne h.ne_zero with h1 | h1
    · filter_upwards [hc.continuousAt.eventually (gt_mem_nhds h1)] with z hz
      exact iff_of_false (fun h' => absurd h'.1 (not_le.mpr hz)) hx
    · have h2 : 1 < x 0 := lt_of_le_of_ne (not_lt.mp fun h' => hx ⟨h1.le, h'⟩) h.ne_one.symm
      filter_upwards [hc.continuousAt.eventually (lt_mem_nhds h2)] with z hz
      exact iff_of_false (fun h' => absurd h'.2 (not_lt.mpr hz.le)) hx

theorem posStep_locally {x : Vec 1} (h : OffJumps x) : ∀ᶠ z in 𝓝 x, posStep z = posStep x := by
  have hc : Continuous fun z : Vec 1 => z 0 := by fun_prop
  rcases lt_or_gt_of_ne h.ne_zero with h1 | h1
  · filter_upwards [hc.continuousAt.eventually (gt_mem_nhds h1)] with z hz
    rw [posStep, posStep, if_neg (not_lt.mpr hz.le), if_neg (not_lt.mpr h1.le)]
  · filter_upwards [hc.continuousAt.eventually (lt_mem_nhds h1)] with z hz
    rw [posStep, posStep, if_pos hz, if_pos h1]

/-- A function that is locally `a + c * z`. -/
theorem grad_of_locally {f : Vec 1 → ℝ} {x : Vec 1} {a c : ℝ} (h : ∀ᶠ z in 𝓝 x, f z = a + c * z 0) :
    DifferentiableAt ℝ f x ∧ jaxGrad f x = fun _ => c := by
  have hd : HasFDerivAt (fun z : Vec 1 => a + c * z 0) (c • ContinuousLinearMap.proj (R := ℝ) (φ := fun _ : Fin 1 => ℝ) 0) x :=
    ((ContinuousLinearMap.proj (R := ℝ) (φ := fun _ : Fin 1 => ℝ) 0).hasFDerivAt.const_mul c).const_add a
  have hf : HasFDerivAt f _ x := hd.congr_of_eventuallyEq h
  refine ⟨hf.differentiableAt, ?_⟩
  funext j
  rw [jaxGrad, hf.fderiv, Subsingleton.elim j 0]
  simp

/-- The gradients given to the code are those of the potentials, for almost every state. -/
theorem C27_witness_gradients (C : ℝ) (g : Fin 2) : ∀ᵐ p : Vec 1 × Vec 1,
    (DifferentiableAt ℝ wall p.1 ∧ jaxGrad wall p.1 = 0) ∧
    (DifferentiableAt ℝ (fun y => parentGamma C y p.2 g) p.1 ∧ jaxGrad (fun y => parentGamma C y p.2 g) p.1 = parentGrad0 p.1 p.2 g) ∧
    (DifferentiableAt ℝ (fun x => parentGamma C p.1 x g) p.2 ∧ jaxGrad (fun x => parentGamma C p.1 x g) p.2 = parentGrad1 p.1 p.2 g) := by
  filter_upwards [Measure.quasiMeasurePreserving_fst.ae offJumps_ae, Measure.quasiMeasurePreserving_snd.ae offJumps_ae] with p h1 h2
  refine ⟨?_, ?_, ?_⟩
  · exact grad_of_locally (a := wall p.1) (c := 0) ((wall_locally h1).mono fun z hz => by rw [hz]; ring)
  · by_cases hg : g = 0
    · have := grad_of_locally (f := fun y => parentGamma C y p.2 g) (x := p.1) (c := 0)
        (a := wall p.2 + (if InUnit p.2 then posStep p.1 * (C + p.2 0) else 0)) ((posStep_locally h1).mono fun z hz => by
          rw [parentGamma, if_pos hg, hz]; ring)
      refine ⟨this.1, this.2.trans ?_⟩
      funext j; rw [parentGrad0, if_pos hg]
    · have := grad_of_locally (f := fun y => parentGamma C y p.2 g) (x := p.1) (c := if InUnit p.1 then 1 else 0)
        (a := wall p.2) ((inUnit_locally h1).mono fun z hz => by
          simp only [parentGamma, if_neg hg, hz]; split_ifs <;> ring)
      refine ⟨this.1, this.2.trans ?_⟩
      funext j; rw [parentGrad0, if_neg hg]
  · by_cases hg : g = 0
    · have := grad_of_locally (f := fun x => parentGamma C p.1 x g) (x := p.2) (c := if InUnit p.2 then posStep p.1 else 0)
        (a := wall p.2 + (if InUnit p.2 then posStep p.1 * C else 0)) (((wall_locally h2).and (inUnit_locally h2)).mono fun z hz => by
          simp only [parentGamma, if_pos hg, hz.1, hz.2]; split_ifs <;> ring)
      refine ⟨this.1, this.2.trans ?_⟩
      funext j; rw [parentGrad1, if_pos hg]
    · have := grad_of_locally (f := fun x => parentGamma C p.1 x g) (x := p.2) (c := 0)
        (a := wall p.2 + (if InUnit p.1 then p.1 0 else 0)) ((wall_locally h2).mono fun z hz => by
          rw [parentGamma, if_neg hg, hz]; ring)
      refine ⟨this.1, this.2.trans ?_⟩
      funext j; rw [parentGrad1, if_neg hg]

/-- The target of the witness is a probability law after division by its mass. -/
theorem C27_witness_mass (C : ℝ) :
    ∫⁻ x, ENNReal.ofReal (Real.exp (pathLogDensity (n := 2) wall (fun t y z => parentGamma C y z t) x))
      ∂(Measure.pi fun _ : Fin 3 => volume) ≠ 0 ∧
    ∫⁻ x, ENNReal.ofReal (Real.exp (pathLogDensity (n := 2) wall (fun t y z => parentGamma C y z t) x))
      ∂(Measure.pi fun _ : Fin 3 => volume) ≠ ∞ := by
  refine ⟨fun h => ?_, wpPi_fin C⟩
  have h1 : (Measure.pi fun _ : Fin 3 => (volume : Measure (Vec 1))) wpBoxX ≤ 0 := by
    rw [← h, ← lintegral_indicator_one isOpen_wpBoxX.measurableSet]
    refine lintegral_mono fun x => ?_
    by_cases hx : x ∈ wpBoxX
    · rw [Set.indicator_of_mem hx]; exact (wpPi_box C hx).ge
    · rw [Set.indicator_of_notMem hx]; exact zero_le
  exact wpBoxX_pos (le_antisymm h1 zero_le)

/-! ### The two resampling schemes -/

theorem unif_isProb : IsProb fun _ : Fin (N + 1) => 1 / (N + 1 : ℝ) := by
  rw [← normalizeW_zero]; exact normalize_isProb _

theorem multinomial_canLeaveAlone (hN : 1 ≤ N) (key : Key) :
    CanLeaveAlone (fun w i j => (multinomial (n := N) key w i j true : Ex _)) := by
  have hp : ∀ i : Fin (N + 1), catP (fun _ : Fin (N + 1) => 1 / (N + 1 : ℝ)) i ≠ 0 := fun i => by
    rw [catP_of_isProb unif_isProb]
    exact (ENNReal.ofReal_pos.mpr (by positivity)).ne'
  have hl : Fin.last N ≠ 0 := fun h => by
    have := congrArg Fin.val h
    simp at this
    omega
  show ∑ a : Fin (N + 1) → Fin (N + 1), (∏ t, catP (fun _ : Fin (N + 1) => 1 / (N + 1 : ℝ)) (a t)) *
    ({A : Fin (N + 1) → Fin (N + 1) | ∀ k, k ≠ 0 → A k ≠ 0}.indicator 1 (atSet a 0 0) : ℝ≥0∞) ≠ 0
  intro h
  have h0 := (sum_eq_zero_iff.mp h) (fun _ => Fin.last N) (mem_univ _)
  rw [Set.indicator_of_mem, Pi.one_apply, mul_one] at h0
  · exact prod_ne_zero_iff.mpr (fun t _ => hp _) h0
  · intro k hk
    rw [atSet_ne _ _ hk]; exact hl

theorem killing_canLeaveAlone (key : Key) :
    CanLeaveAlone (fun w i j => (killing (n := N) key w i j true : Ex _)) := by
  obtain ⟨U, hU⟩ : ∃ U : (Fin (N + 1) → Fin (N + 1)) → ℝ≥0∞, (U fun t => t) ≠ 0 ∧ ∀ i j f,
      ENNReal.ofReal (1 / (N + 1 : ℝ)) * (killing (n := N) key (fun _ => 1 / (N + 1 : ℝ)) i j true : Ex _) f =
        ∑ a, U a * (if a j = i then f a else 0) := by
    refine ⟨fun a => ENNReal.ofReal (1 / (N + 1)) *
      ∑ s, ∏ t, ENNReal.ofReal (killK (fun _ : Fin (N + 1) => 1 / (N + 1 : ℝ)) (t - s) (a t)), ?_, fun i j f => ?_⟩
    · refine mul_ne_zero (ENNReal.ofReal_pos.mpr (by positivity)).ne' fun h => ?_
      have h0 := (sum_eq_zero_iff.mp h) 0 (mem_univ _)
      refine prod_ne_zero_iff.mpr (fun t _ => ?_) h0
      have hpos := maxA_pos (unif_isProb (N := N))
      have hr := ratio_mem (unif_isProb (N := N)) t
      refine (ENNReal.ofReal_pos.mpr ?_).ne'
      rw [killK, if_pos (sub_zero t)]
      have h1 : 0 < 1 / (N + 1 : ℝ) / maxA (fun _ : Fin (N + 1) => 1 / (N + 1 : ℝ)) := by positivity
      have h2 : 0 ≤ (1 - 1 / (N + 1 : ℝ) / maxA (fun _ : Fin (N + 1) => 1 / (N + 1 : ℝ))) * (1 / (N + 1 : ℝ)) :=
        mul_nonneg (by linarith [hr.2]) (by positivity)
      linarith
    · rw [C03_killing_conditional (unif_isProb (N := N)) key key key i j f, rotatedKilling_law (unif_isProb (N := N)), sum_comm, mul_sum]
      refine sum_congr rfl fun a _ => ?_
      rw [← sum_mul, mul_assoc]
  intro h
  have h1 := hU.2 0 0 ({A : Fin (N + 1) → Fin (N + 1) | ∀ k, k ≠ 0 → A k ≠ 0}.indicator 1)
  beta_reduce at h
  rw [h, mul_zero] at h1
  have h0 := (sum_eq_zero_iff.mp h1.symm) (fun t => t) (mem_univ _)
  rw [if_pos rfl, Set.indicator_of_mem, Pi.one_apply, mul_one] at h0
  · exact hU.1 h0
  · exact fun k hk => hk

/-- C27 fails with the resampling scheme and the move of the experiments. -/
theorem C27_not_invariant_killing (hN : 1 ≤ N) (key : Key) : ∃ C₀ : ℝ, ∀ C, C₀ ≤ C →
    ¬ LeavesInvariant (N := N) volume (pathLogDensity wall (fun t y x => parentGamma C y x t)) (fun x b => do
      let r ← als_kernel key x b wall (fun _ => 0) (parentGamma C) parentGrad0 parentGrad1 (fun t => t) (fun _ => 2)
        (fun _ => 2) (fun key w i j c => killing key w i j c) (fun key w k => barker_move key w k) true
      pure (r.xs, r.Bs)) := by
  obtain ⟨C₀, h⟩ := C27_not_invariant (resampling := fun key w i j c => killing key w i j c)
    (mv := fun key w k => barker_move key w k) hN key (fun key => killing_condResampling key) (fun key => killing_canLeaveAlone key)
    (fun key => barker_moveInvariant key) (fun key w hw k => barker_mass key hw k)
  exact ⟨C₀, fun C hC => (h C hC).1⟩

/-- The same with multinomial resampling. -/
theorem C27_not_invariant_multinomial (hN : 1 ≤ N) (key : Key) : ∃ C₀ : ℝ, ∀ C, C₀ ≤ C →
    ¬ LeavesInvariant (N := N) volume (pathLogDensity wall (fun t y x => parentGamma C y x t)) (fun x b => do
      let r ← als_kernel key x b wall (fun _ => 0) (parentGamma C) parentGrad0 parentGrad1 (fun t => t) (fun _ => 2)
        (fun _ => 2) (fun key w i j c => multinomial key w i j c) (fun key w k => barker_move key w k) true
      pure (r.xs, r.Bs)) := by
  obtain ⟨C₀, h⟩ := C27_not_invariant (resampling := fun key w i j c => multinomial key w i j c)
    (mv := fun key w k => barker_move key w k) hN key (fun key => multinomial_condResampling key)
    (fun key => multinomial_canLeaveAlone hN key)
    (fun key => barker_moveInvariant key) (fun key w hw k => barker_mass key hw k)
  exact ⟨C₀, fun C hC => (h C hC).1⟩

/-- The hypotheses are met, with 25 particles next to the reference. -/
example := C27_not_invariant_killing (N := 25) (by norm_num) []

end Verif.Props
