import Verif.Lemmas.FlaggedChain
import Verif.Spec.LagLaws

/-!
# Averages over acceptance flags and over pairs of samples along a run of a conditional SMC kernel
-/

open scoped ENNReal
open MeasureTheory ProbabilityTheory

namespace Verif
open Verif.Model Verif.Spec Verif.Props

section means

variable {Y : Type} [MeasurableSpace Y] {κ : Kernel Y Y} [IsMarkovKernel κ] {step : Key → Y → Ex Y}

theorem stepMean_affine {Φ : Y → Y → ℝ} (hΦ : Measurable fun p : Y × Y => Φ p.1 p.2) {C : ℝ} (hC : ∀ y z, |Φ y z| ≤ C) (a b : ℝ) (j : ℕ) (y z : Y) :
    stepMean κ (fun y z => a * Φ y z - b) j y z = a * stepMean κ Φ j y z - b := by
  induction j generalizing z with
  | zero => rfl
  | succ j ih =>
    show ∫ w, stepMean κ (fun y z => a * Φ y z - b) j y w ∂κ z = a * ∫ w, stepMean κ Φ j y w ∂κ z - b
    simp only [ih]
    have hm : Measurable fun w => stepMean κ Φ j y w := (measurable_stepMean hΦ j).comp (measurable_const.prodMk measurable_id)
    have hi : Integrable (fun w => stepMean κ Φ j y w) (κ z) :=
      Integrable.of_bound hm.aestronglyMeasurable C (Filter.Eventually.of_forall fun w => abs_stepMean_le hC j y w)
    rw [integral_sub (hi.const_mul a) (integrable_const b), integral_const_mul]
    simp

omit [IsMarkovKernel κ] in
theorem stepMean_nonneg {Φ : Y → Y → ℝ} (h0 : ∀ y z, 0 ≤ Φ y z) (j : ℕ) (y z : Y) : 0 ≤ stepMean κ Φ j y z := by
  induction j generalizing z with
  | zero => exact h0 y z
  | succ j ih => exact integral_nonneg fun w => ih w

/-- The mean after `j` steps, along the chain. -/
theorem stepMean_chain (h : StepOf κ step) {Φ : Y → Y → ℝ} (hΦ : Measurable fun p : Y × Y => Φ p.1 p.2) {C : ℝ} (h0 : ∀ y z, 0 ≤ Φ y z)
    (hC : ∀ y z, |Φ y z| ≤ C) {j : ℕ} (keys : Fin j → Key) (y z : Y) :
    chain step z keys (fun tr => ENNReal.ofReal (Φ y (tr (Fin.last j)))) = ENNReal.ofReal (stepMean κ Φ j y z) := by
  induction j generalizing z with
  | zero => rfl
  | succ j ih =>
    have hF : Measurable fun tr : Fin (j + 1) → Y => ENNReal.ofReal (Φ y (tr (Fin.last j))) :=
      (hΦ.comp (measurable_const.prodMk (measurable_pi_apply _))).ennreal_ofReal
    refine (h.chain_tail keys (F := fun tr => ENNReal.ofReal (Φ y (tr (Fin.last j)))) hF z).trans ?_
    simp only [ih]
    have hm : Measurable fun w => stepMean κ Φ j y w := (measurable_stepMean hΦ j).comp (measurable_const.prodMk measurable_id)
    have hi : Integrable (fun w => stepMean κ Φ j y w) (κ z) :=
      Integrable.of_bound hm.aestronglyMeasurable C (Filter.Eventually.of_forall fun w => abs_stepMean_le hC j y w)
    exact (ofReal_integral_eq_lintegral_ofReal hi (Filter.Eventually.of_forall fun w => stepMean_nonneg h0 j y w)).symm

end means

variable {N n d : ℕ}

theorem stepMean_flag {X : Type} [MeasurableSpace X] {κ : Kernel X (X × (Fin (n + 1) → Bool))}
    (f : X × X → ℝ) (j : ℕ) (y y' z z' : X × (Fin (n + 1) → Bool)) (h1 : y.1 = y'.1) (h2 : z.1 = z'.1) :
    stepMean (κ.comap Prod.fst measurable_fst) (fun y z => f (y.1, z.1)) j y z =
      stepMean (κ.comap Prod.fst measurable_fst) (fun y z => f (y.1, z.1)) j y' z' := by
  induction j generalizing z z' with
  | zero =>
    show f _ = f _
    rw [h1, h2]
  | succ j ih =>
    show ∫ w, _ ∂_ = ∫ w, _ ∂_
    rw [Kernel.comap_apply, Kernel.comap_apply, h2]
    exact integral_congr_ae (Filter.Eventually.of_forall fun w => ih w w rfl)

/-- The run that belongs to a sequence of trajectories and flags. -/
noncomputable def flagRun {L : ℕ} (q : Fin L → Traj (n + 1) d × (Fin (n + 1) → Bool)) : Run (strideLen L 1) (n + 1) d :=
  (fun k => (q ⟨k, by have := k.2; simp only [strideLen] at this; omega⟩).1, fun k t => boolF ((q ⟨k, by have := k.2; simp only [strideLen] at this; omega⟩).2 t))

theorem measurable_boolF : Measurable boolF := measurable_from_top

theorem measurable_flagRun {L : ℕ} : Measurable fun q : Fin L → Traj (n + 1) d × (Fin (n + 1) → Bool) => flagRun q := by
  unfold flagRun
  refine Measurable.prodMk (by fun_prop) (measurable_pi_lambda _ fun k => measurable_pi_lambda _ fun t => ?_)
  exact measurable_boolF.comp ((measurable_pi_apply t).comp (measurable_snd.comp (measurable_pi_apply _)))

variable {adapt : Key → (Fin (n + 1) → Vec d) → (Fin (n + 1) → Fin (N + 1)) →
      (Key → (Fin (n + 1) → Vec d) × (Fin (n + 1) → Fin (N + 1)) → (Fin (n + 1) → ℝ) →
        Ex ((Fin (n + 1) → Vec d) × (Fin (n + 1) → Fin (N + 1)))) → AdaptCfg → ℕ → (Fin (n + 1) → ℝ) → ℕ →
      Ex (((Fin (n + 1) → Vec d) × (Fin (n + 1) → Fin (N + 1))) × (Fin (n + 1) → ℝ))}
  {kernel : Key → (Fin (n + 1) → Vec d) → (Fin (n + 1) → Fin (N + 1)) → (Fin (n + 1) → ℝ) →
      Ex ((Fin (n + 1) → Vec d) × (Fin (n + 1) → Fin (N + 1)))}
  {delta : StepSize (n + 1)} {κ : Kernel (Traj (n + 1) d) (Traj (n + 1) d × (Fin (n + 1) → Bool))} [IsMarkovKernel κ]

/-- A run of the kernel is a run of the chain of trajectories and flags. -/
theorem csmcSv_flag_run (hκ : FlagStep (fun key x b => kernel key x b delta.at) κ) (key : Key) (L : ℕ) (x : Traj (n + 1) d) (fl : Fin (n + 1) → Bool)
    {F : Run (strideLen L 1) (n + 1) d → ℝ≥0∞} (hF : Measurable F) :
    (csmcSv adapt kernel).experiment_all key ((csmcSv adapt kernel).init x) (fun k s => (csmcSv adapt kernel).kernel k s delta) L
      (fun r => F (runOf _ r)) = chain (flagStep κ) (x, fl) (splitKey key L) (fun tr => F (flagRun fun i => tr i.succ)) := by
  rw [← flag_chain (K := fun key x b => kernel key x b delta.at) hκ (splitKey key L) x (fun _ => 0) fl
    (F := fun q => F (flagRun q)) (hF.comp measurable_flagRun)]
  refine (congrFun (C49_sampling (m := Ex) key x (fun _ => 0) (fun key s => kernel key s.1 s.2 delta.at) L 1) (fun r => F (runOf (csmcSv adapt kernel) r))).trans ?_
  refine Ex.congr_fun' (chain (fun key (s : (Fin (n + 1) → Vec d) × (Fin (n + 1) → Fin (N + 1))) => kernel key s.1 s.2 delta.at) (x, fun _ => 0)
    (splitKey key L)) fun tr => congrArg F ?_
  refine Prod.ext (funext fun k => ?_) (funext fun k => funext fun t => ?_)
  · show (tr ⟨k * 1 + 1, _⟩).1 = (tr _).1
    exact congrArg (fun i => (tr i).1) (Fin.ext (by simp))
  · show boolF (decide ((tr ⟨k * 1 + 1, _⟩).2 t ≠ (tr ⟨k * 1, _⟩).2 t)) = boolF (decide ((tr _).2 t ≠ (tr _).2 t))
    have e1 : (⟨k * 1 + 1, Nat.succ_lt_succ (strideLen_lt k)⟩ : Fin (L + 1)) = Fin.succ ⟨k, by have := k.2; simp only [strideLen] at this; omega⟩ := Fin.ext (by simp)
    have e2 : (⟨k * 1, Nat.lt_succ_of_lt (strideLen_lt k)⟩ : Fin (L + 1)) = Fin.castSucc ⟨k, by have := k.2; simp only [strideLen] at this; omega⟩ := Fin.ext (by simp)
    rw [e1, e2]

/-- A trajectory and flags. -/
abbrev FState (n d : ℕ) : Type := Traj (n + 1) d × (Fin (n + 1) → Bool)

/-- One step of the chain of trajectories and flags. -/
noncomputable abbrev flagKer (κ : Kernel (Traj (n + 1) d) (FState n d)) : Kernel (FState n d) (FState n d) := κ.comap Prod.fst measurable_fst

/-- The trajectories keep their law. -/
def FlagInv (κ : Kernel (Traj (n + 1) d) (FState n d)) (π : Measure (Traj (n + 1) d)) : Prop :=
  (π.bind κ).map Prod.fst = π

theorem csmcSv_flagInv {π : Measure (Traj (n + 1) d)} (hκ : FlagStep (fun key x b => kernel key x b delta.at) κ)
    (hkeep : KeepsLaw 0 π (csmcSv adapt kernel) delta) : FlagInv κ π := by
  refine Measure.ext fun A hA => ?_
  have hf : Measurable (A.indicator (1 : Traj (n + 1) d → ℝ≥0∞)) := measurable_one.indicator hA
  have h2 := hkeep [] 1 ⟨0, by simp [strideLen]⟩ (A.indicator 1) hf fun x => Set.indicator_le_self' (fun _ _ => zero_le_one) x
  simp only [mul_zero, add_zero] at h2
  have h3 := le_antisymm h2.1 h2.2
  have e : ∀ x, (csmcSv adapt kernel).experiment_all [] ((csmcSv adapt kernel).init x) (fun k s => (csmcSv adapt kernel).kernel k s delta) 1
      (fun r => A.indicator 1 (r.1 ⟨0, by simp [strideLen]⟩)) = ∫⁻ y, A.indicator 1 y.1 ∂κ x := fun x => by
    refine (csmcSv_flag_run (adapt := adapt) hκ [] 1 x (fun _ => false)
      (F := fun r => A.indicator 1 (r.1 ⟨0, by simp [strideLen]⟩)) (hf.comp (by fun_prop : Measurable fun r : Run (strideLen 1 1) (n + 1) d =>
        r.1 _))).trans ?_
    rfl
  simp only [e] at h3
  rw [← lintegral_indicator_one hA, lintegral_map hf measurable_fst,
    Measure.lintegral_bind (f := fun y : FState n d => A.indicator 1 y.1) κ.measurable.aemeasurable
      (hf.comp measurable_fst).aemeasurable, h3, lintegral_indicator_one hA]

variable {π : Measure (Traj (n + 1) d)} [IsProbabilityMeasure π]

omit [IsMarkovKernel κ] [IsProbabilityMeasure π] in
/-- The stationary law of trajectories and flags. -/
theorem FlagInv.bind (h : FlagInv κ π) : (π.bind κ).bind (flagKer κ) = π.bind κ := by
  refine Measure.ext fun A hA => ?_
  have hm : Measurable (A.indicator (1 : FState n d → ℝ≥0∞)) := measurable_one.indicator hA
  rw [← lintegral_indicator_one hA, ← lintegral_indicator_one hA, lintegral_bindK _ _ hm]
  simp only [flagKer, Kernel.comap_apply]
  have e := lintegral_map (μ := π.bind κ) (f := fun x => ∫⁻ y, A.indicator 1 y ∂κ x) (g := Prod.fst) hm.lintegral_kernel measurable_fst
  rw [← e, h, Measure.lintegral_bind κ.measurable.aemeasurable hm.aemeasurable]

/-- The law of two states of the stationary chain of trajectories and flags. -/
theorem FlagInv.pair (h : FlagInv κ π) (l : ℕ) :
    ∃ Γ : Measure (FState n d × FState n d), IsProbabilityMeasure Γ ∧
      (∀ {L : ℕ} (keys : Fin L → Key) (i j : Fin (L + 1)), (j : ℕ) = i + l → ∀ u : _ → ℝ≥0∞, Measurable u →
        ∫⁻ y, chain (flagStep κ) y keys (fun tr => u (tr i, tr j)) ∂(π.bind κ) = ∫⁻ p, u p ∂Γ) ∧
      ∀ {Φ : FState n d → FState n d → ℝ} {g : Traj (n + 1) d → ℝ},
        (Measurable fun p : FState n d × FState n d => Φ p.1 p.2) →
        (∃ C, ∀ y z, |Φ y z| ≤ C) → Measurable g → (∀ y, stepMean (flagKer κ) Φ l y y = g y.1) →
        ∫ p, Φ p.1 p.2 ∂Γ = ∫ x, g x ∂π := by
  have hst : StepOf (flagKer κ) (flagStep κ) := flagStep_stepOf
  obtain ⟨P, _, hP⟩ := hst.path (fun _ : Fin l => ([] : Key))
  have hev : ∀ {L : ℕ} (i j : Fin (L + 1)), Measurable fun tr : Fin (L + 1) → FState n d => (tr i, tr j) := fun i j => by fun_prop
  obtain ⟨Γ, hΓd⟩ : ∃ Γ, Γ = ((π.bind κ).bind P).map fun tr => (tr 0, tr (Fin.last l)) := ⟨_, rfl⟩
  have hΓ1 : IsProbabilityMeasure Γ := by
    rw [hΓd]
    exact Measure.isProbabilityMeasure_map (hev _ _).aemeasurable
  have hΓ : ∀ u : _ → ℝ≥0∞, Measurable u → ∫⁻ p, u p ∂Γ =
      ∫⁻ y, chain (flagStep κ) y (fun _ : Fin l => ([] : Key)) (fun tr => u (tr 0, tr (Fin.last l))) ∂(π.bind κ) := fun u hu => by
    rw [hΓd, lintegral_map hu (hev _ _), Measure.lintegral_bind (f := fun tr : Fin (l + 1) → _ => u (tr 0, tr (Fin.last l))) P.measurable.aemeasurable
      (hu.comp (hev _ _)).aemeasurable]
    exact lintegral_congr fun y => (hP y _ (hu.comp (hev _ _))).symm
  refine ⟨Γ, hΓ1, fun {L} keys i j hij u hu => ?_, fun {Φ g} hΦ hC hg he => ?_⟩
  · obtain ⟨Q, _, hQ⟩ := hst.path keys
    have h1 : ∀ u : _ → ℝ≥0∞, Measurable u → ∫⁻ y, chain (flagStep κ) y keys (fun tr => u (tr i, tr j)) ∂(π.bind κ) =
        ∫⁻ p, u p ∂((π.bind κ).bind Q).map fun tr => (tr i, tr j) := fun u hu => by
      rw [lintegral_map hu (hev _ _), Measure.lintegral_bind (f := fun tr : Fin (L + 1) → _ => u (tr i, tr j)) Q.measurable.aemeasurable
        (hu.comp (hev _ _)).aemeasurable]
      exact lintegral_congr fun y => hQ y _ (hu.comp (hev _ _))
    have : IsProbabilityMeasure (((π.bind κ).bind Q).map fun tr => (tr i, tr j)) := Measure.isProbabilityMeasure_map (hev _ _).aemeasurable
    have e : ((π.bind κ).bind Q).map (fun tr => (tr i, tr j)) = Γ := by
      refine Measure.ext_prod fun {A B} hA hB => ?_
      have hAm : Measurable (A.indicator (1 : FState n d → ℝ≥0∞)) := measurable_one.indicator hA
      have hBm : Measurable (B.indicator (1 : FState n d → ℝ≥0∞)) := measurable_one.indicator hB
      have hp : ∀ p : FState n d × FState n d,
          (A ×ˢ B).indicator (1 : FState n d × FState n d → ℝ≥0∞) p = A.indicator 1 p.1 * B.indicator 1 p.2 := fun p => by
        by_cases h1 : p.1 ∈ A <;> by_cases h2 : p.2 ∈ B <;> simp [Set.indicator, h1, h2]
      have hpm : Measurable fun p : FState n d × FState n d =>
          A.indicator (1 : FState n d → ℝ≥0∞) p.1 * B.indicator (1 : FState n d → ℝ≥0∞) p.2 := (hAm.comp measurable_fst).mul (hBm.comp measurable_snd)
      rw [← lintegral_indicator_one (hA.prod hB), ← lintegral_indicator_one (hA.prod hB)]
      simp only [hp]
      rw [← h1 _ hpm, hΓ _ hpm]
      dsimp only
      rw [hst.chain_law₂ h.bind keys i j (by rw [Fin.le_def]; omega) hAm hBm, hst.chain_law₂ h.bind (fun _ : Fin l => ([] : Key)) 0 (Fin.last l) (Fin.zero_le _) hAm hBm]
      congr 2
      simp only [Fin.val_last, Fin.val_zero]
      omega
    rw [h1 u hu, e]
  · obtain ⟨C, hC⟩ := hC
    have hΦ' : Measurable fun p : FState n d × FState n d => Φ p.1 p.2 + C := hΦ.add_const C
    have h0 : ∀ y z, 0 ≤ Φ y z + C := fun y z => by linarith [(abs_le.mp (hC y z)).1]
    have hC' : ∀ y z, |Φ y z + C| ≤ C + C := fun y z => by
      rw [abs_of_nonneg (h0 y z)]
      linarith [(abs_le.mp (hC y z)).2]
    have hC0 : 0 ≤ C := (abs_nonneg _).trans (hC ((fun _ _ => 0), fun _ => false) ((fun _ _ => 0), fun _ => false))
    have hs : ∀ y, stepMean (flagKer κ) (fun y z => Φ y z + C) l y y = g y.1 + C := fun y => by
      have := stepMean_affine (κ := flagKer κ) hΦ hC 1 (-C) l y y
      simp only [one_mul, sub_neg_eq_add] at this
      rw [this, he]
    have hgC : ∀ x, |g x| ≤ C := fun x => by
      rw [← he (x, fun _ => false)]
      exact abs_stepMean_le hC l _ _
    have hl : ∫⁻ p, ENNReal.ofReal (Φ p.1 p.2 + C) ∂Γ = ∫⁻ x, ENNReal.ofReal (g x + C) ∂π := by
      rw [hΓ _ hΦ'.ennreal_ofReal]
      have e1 : ∀ y, chain (flagStep κ) y (fun _ : Fin l => ([] : Key)) (fun tr => ENNReal.ofReal (Φ (tr 0) (tr (Fin.last l)) + C)) =
          ENNReal.ofReal (g y.1 + C) := fun y => by
        refine (chain_head (fun _ : Fin l => ([] : Key)) y fun y tr => ENNReal.ofReal (Φ y (tr (Fin.last l)) + C)).trans ?_
        rw [← hs y]
        exact stepMean_chain hst hΦ' h0 hC' (fun _ : Fin l => ([] : Key)) y y
      simp only [e1]
      have e2 := lintegral_map (μ := π.bind κ) (f := fun x => ENNReal.ofReal (g x + C)) (g := Prod.fst) (by fun_prop) measurable_fst
      rw [← e2, h]
    have i1 : Integrable (fun p : FState n d × FState n d => Φ p.1 p.2) Γ :=
      Integrable.of_bound hΦ.aestronglyMeasurable C (Filter.Eventually.of_forall fun p => hC _ _)
    have i2 : Integrable g π := Integrable.of_bound hg.aestronglyMeasurable C (Filter.Eventually.of_forall fun p => hgC _)
    have e3 : ∫ p, (Φ p.1 p.2 + C) ∂Γ = ∫ x, (g x + C) ∂π := by
      rw [integral_eq_lintegral_of_nonneg_ae (Filter.Eventually.of_forall fun p => h0 _ _) hΦ'.aestronglyMeasurable,
        integral_eq_lintegral_of_nonneg_ae (Filter.Eventually.of_forall fun x => by
          show 0 ≤ g x + C
          linarith [(abs_le.mp (hgC x)).1]) (hg.add_const C).aestronglyMeasurable, hl]
    rw [integral_add i1 (integrable_const _), integral_add i2 (integrable_const _)] at e3
    simpa using e3

/-- Averages along stationary runs of the kernel. -/
def RunAvg (K : SvKernel Ex (n + 1) d) (delta : StepSize (n + 1)) (π : Measure (Traj (n + 1) d)) : Prop :=
  ∀ f : Traj (n + 1) d → ℝ, Measurable f → (∃ C, ∀ x, |f x| ≤ C) → ∀ δ : ℝ≥0∞, δ ≠ 0 →
    ∃ M0 : ℕ, ∀ (key : Key) (n_steps : ℕ), M0 ≤ n_steps →
      ∫⁻ x, K.experiment_all key (K.init x) (fun k s => K.kernel k s delta) n_steps
        (fun r => ENNReal.ofReal ((sampleMean f r.1 - ∫ x, f x ∂π) ^ 2)) ∂π ≤ δ

theorem sum_stride {L : ℕ} (u : ℕ → ℝ) : ∑ k : Fin (strideLen L 1), u k = ∑ i ∈ Finset.range L, u i := by
  have e : strideLen L 1 = L := by simp [strideLen]
  rw [Finset.sum_range]
  exact Fintype.sum_equiv (finCongr e) _ _ fun _ => rfl

omit [IsProbabilityMeasure π] in
theorem csmcSv_hx (hκ : FlagStep (fun key x b => kernel key x b delta.at) κ) (hav : RunAvg (csmcSv adapt kernel) delta π) (fl : Fin (n + 1) → Bool)
    (h : Traj (n + 1) d → ℝ) (hh : Measurable h) (hC : ∃ C, ∀ x, |h x| ≤ C) (δ : ℝ≥0∞) (hδ : δ ≠ 0) : ∃ M0 : ℕ, ∀ (key : Key) (L : ℕ), M0 ≤ L →
      ∫⁻ x, chain (flagStep κ) (x, fl) (splitKey key L) (fun tr => ENNReal.ofReal (((∑ i : Fin L, h (tr i.succ).1) / L - ∫ x, h x ∂π) ^ 2)) ∂π ≤ δ := by
  obtain ⟨M0, hM0⟩ := hav h hh hC δ hδ
  refine ⟨M0, fun key L hL => le_trans (le_of_eq (lintegral_congr fun x => ?_)) (hM0 key L hL)⟩
  refine Eq.trans ?_ (csmcSv_flag_run (adapt := adapt) hκ key L x fl (F := fun r => ENNReal.ofReal ((sampleMean h r.1 - ∫ x, h x ∂π) ^ 2)) ?_).symm
  · refine Ex.congr_fun' _ fun tr => ?_
    have e : strideLen L 1 = L := by simp [strideLen]
    have e1 : ∑ i : Fin L, h (tr i.succ).1 = ∑ k : Fin (strideLen L 1), h ((flagRun fun i => tr i.succ).1 k) :=
      (Fintype.sum_equiv (finCongr e) _ _ fun _ => rfl).symm
    have e2 : ((strideLen L 1 : ℕ) : ℝ) = L := congrArg Nat.cast e
    rw [sampleMean, e1, e2]
  · unfold sampleMean
    fun_prop

omit [IsProbabilityMeasure π] in
/-- A functional of a stationary run. -/
theorem csmcSv_stat_run (hκ : FlagStep (fun key x b => kernel key x b delta.at) κ) (key : Key) (L : ℕ)
    {F : Run (strideLen (L + 1) 1) (n + 1) d → ℝ≥0∞} (hF : Measurable F) :
    ∫⁻ x, (csmcSv adapt kernel).experiment_all key ((csmcSv adapt kernel).init x) (fun k s => (csmcSv adapt kernel).kernel k s delta) (L + 1)
      (fun r => F (runOf _ r)) ∂π = ∫⁻ y, chain (flagStep κ) y (tailA (splitKey key (L + 1))) (fun tr => F (flagRun tr)) ∂(π.bind κ) := by
  have hst : StepOf (flagKer κ) (flagStep κ) := flagStep_stepOf
  have hF' : Measurable fun tr : Fin (L + 1) → FState n d => F (flagRun tr) := hF.comp measurable_flagRun
  rw [Measure.lintegral_bind κ.measurable.aemeasurable ((hst.chain_ker _).measurable' hF').aemeasurable]
  refine lintegral_congr fun x => ?_
  rw [csmcSv_flag_run hκ key (L + 1) x (fun _ => false) hF]
  exact hst.chain_tail (splitKey key (L + 1)) hF' (x, fun _ => false)

/-- The law of a sample and its flags, and the averages over them, along stationary runs. -/
theorem csmcSv_flag_reads (hκ : FlagStep (fun key x b => kernel key x b delta.at) κ) (hinv : FlagInv κ π) (hav : RunAvg (csmcSv adapt kernel) delta π) :
    ∃ σ : Measure (Fin (n + 1) → ℝ), IsProbabilityMeasure σ ∧ (∀ᵐ z ∂σ, ∀ t, 0 ≤ z t ∧ z t ≤ 1) ∧
      (∀ key n_samples (k : Fin (strideLen n_samples 1)) (u : (Fin (n + 1) → ℝ) → ℝ≥0∞), Measurable u →
        ∫⁻ x, (csmcSv adapt kernel).experiment_all key ((csmcSv adapt kernel).init x) (fun k s => (csmcSv adapt kernel).kernel k s delta) n_samples
          (fun r => u ((runOf (csmcSv adapt kernel) r).2 k)) ∂π = ∫⁻ z, u z ∂σ) ∧
      ∀ f : (Fin (n + 1) → ℝ) → ℝ, Measurable f → (∃ C, ∀ x, |f x| ≤ C) → ∀ δ : ℝ≥0∞, δ ≠ 0 →
        ∃ M0 : ℕ, ∀ (key : Key) (n_steps : ℕ), M0 ≤ n_steps →
          ∫⁻ x, (csmcSv adapt kernel).experiment_all key ((csmcSv adapt kernel).init x) (fun k s => (csmcSv adapt kernel).kernel k s delta) n_steps
            (fun r => ENNReal.ofReal ((sampleMean f (runOf (csmcSv adapt kernel) r).2 - ∫ x, f x ∂σ) ^ 2)) ∂π ≤ δ := by
  have hst : StepOf (flagKer κ) (flagStep κ) := flagStep_stepOf
  have hb : Measurable fun y : FState n d => fun t => boolF (y.2 t) :=
    measurable_pi_lambda _ fun t => measurable_boolF.comp ((measurable_pi_apply t).comp measurable_snd)
  have hS : MeasurableSet {z : Fin (n + 1) → ℝ | ∀ t, 0 ≤ z t ∧ z t ≤ 1} := by
    rw [Set.ofPred_forall]
    refine MeasurableSet.iInter fun t => ?_
    exact (measurableSet_le measurable_const (measurable_pi_apply t)).inter (measurableSet_le (measurable_pi_apply t) measurable_const)
  refine ⟨(π.bind κ).map fun y t => boolF (y.2 t), Measure.isProbabilityMeasure_map hb.aemeasurable, ?_, fun key n_samples k u hu => ?_, fun f hf hC δ hδ => ?_⟩
  · rw [ae_map_iff hb.aemeasurable hS]
    refine Filter.Eventually.of_forall fun y t => ?_
    unfold boolF
    beta_reduce
    split_ifs <;> norm_num
  · obtain ⟨L, rfl⟩ : ∃ L, n_samples = L + 1 := by
      have := k.2
      simp only [strideLen] at this
      exact ⟨n_samples - 1, by omega⟩
    refine (csmcSv_stat_run (adapt := adapt) hκ key L (F := fun r => u (r.2 k)) (by fun_prop)).trans ?_
    rw [lintegral_map hu hb]
    have h1 := hst.chain_law (tailA (splitKey key (L + 1))) ⟨k, by have := k.2; simp only [strideLen] at this; omega⟩ (π.bind κ)
      (f := fun y => u fun t => boolF (y.2 t)) (hu.comp hb)
    rw [pushN_inv hinv.bind] at h1
    exact h1
  · obtain ⟨g, hg⟩ : ∃ g : Traj (n + 1) d → ℝ, g = fun x => ∫ y, f (fun t => boolF (y.2 t)) ∂κ x := ⟨_, rfl⟩
    have hfb : Measurable fun y : FState n d => f fun t => boolF (y.2 t) := hf.comp hb
    have hgm : Measurable g := hg ▸ (StronglyMeasurable.integral_kernel (κ := κ) hfb.stronglyMeasurable).measurable
    have hΦ : Measurable fun p : FState n d × FState n d => f fun t => boolF (p.2.2 t) := hfb.comp measurable_snd
    have he : ∀ y, stepMean (flagKer κ) (fun _ z => f fun t => boolF (z.2 t)) 1 y y = g y.1 := fun y => by
      rw [hg]
      show ∫ w, f (fun t => boolF (w.2 t)) ∂flagKer κ y = _
      rw [flagKer, Kernel.comap_apply]
    obtain ⟨C, hC⟩ := hC
    obtain ⟨Γ, hΓ1, hΓ2, hΓ3⟩ := hinv.pair 1
    have hmean : ∫ z, f z ∂((π.bind κ).map fun y t => boolF (y.2 t)) = ∫ x, g x ∂π := by
      rw [← hΓ3 (Φ := fun _ z => f fun t => boolF (z.2 t)) hΦ ⟨C, fun _ _ => hC _⟩ hgm he]
      rw [integral_map hb.aemeasurable hf.aestronglyMeasurable]
      have e : Γ.map Prod.snd = π.bind κ := by
        refine Measure.ext fun A hA => ?_
        have hm : Measurable (A.indicator (1 : FState n d → ℝ≥0∞)) := measurable_one.indicator hA
        rw [← lintegral_indicator_one hA, ← lintegral_indicator_one hA, lintegral_map hm measurable_snd]
        rw [← hΓ2 (L := 1) (fun _ => []) 0 1 rfl (fun p => A.indicator 1 p.2) (hm.comp measurable_snd)]
        have h1 := hst.chain_law (fun _ : Fin 1 => ([] : Key)) 1 (π.bind κ) hm
        rw [pushN_inv hinv.bind] at h1
        exact h1
      rw [← e, integral_map measurable_snd.aemeasurable hfb.aestronglyMeasurable]
    obtain ⟨M0, hM0⟩ := lag_average (fl := fun _ => false) (csmcSv_hx hκ hav _) (Φ := fun _ z => f fun t => boolF (z.2 t)) hΦ ⟨C, fun _ _ => hC _⟩ 1 hgm he
      (a := 1) (.inr rfl) hδ
    refine ⟨M0, fun key L hL => le_trans (le_of_eq (lintegral_congr fun x => ?_)) (hM0 key L hL)⟩
    refine (csmcSv_flag_run (adapt := adapt) hκ key L x (fun _ => false) (F := fun r => ENNReal.ofReal ((sampleMean f r.2 -
      ∫ z, f z ∂((π.bind κ).map fun y t => boolF (y.2 t))) ^ 2)) (by unfold sampleMean; fun_prop)).trans ?_
    refine Ex.congr_fun' _ fun tr => ?_
    rw [hmean, sampleMean]
    congr 3
    have e0 : strideLen L 1 = L := by simp [strideLen]
    have e2 : ((strideLen L 1 : ℕ) : ℝ) = L := congrArg Nat.cast e0
    rw [Nat.add_sub_cancel, e2]
    congr 1
    · rw [Finset.sum_range]
      refine Fintype.sum_equiv (finCongr e0) _ _ fun k => ?_
      rw [ite_self, one_mul]
      show f (fun t => boolF ((tr _).2 t)) = _
      have hk := (finCongr e0 k).2
      rw [atN_of_le tr (by omega)]
      rfl
    · push_cast
      ring

/-- The samples of a run, `lag` steps apart. -/
def lagPairs (lag : ℕ) {n_samples : ℕ} (r : Run (strideLen n_samples 1) (n + 1) d) (k : Fin (n_samples - lag)) : Traj (n + 1) d × Traj (n + 1) d :=
  (r.1 ⟨k, by have := k.2; simp only [strideLen]; omega⟩, r.1 ⟨k + lag, by have := k.2; simp only [strideLen]; omega⟩)

/-- The law of a pair of samples, and the averages over the pairs, along stationary runs. -/
theorem csmcSv_lag_reads (hκ : FlagStep (fun key x b => kernel key x b delta.at) κ) (hinv : FlagInv κ π) (hav : RunAvg (csmcSv adapt kernel) delta π) (lag : ℕ) :
    ∃ Γ, IsLagLaw (csmcSv adapt kernel) delta π lag Γ ∧
      ∀ f : Traj (n + 1) d × Traj (n + 1) d → ℝ, Measurable f → (∃ C, ∀ x, |f x| ≤ C) → ∀ δ : ℝ≥0∞, δ ≠ 0 →
        ∃ M0 : ℕ, ∀ (key : Key) (n_steps : ℕ), M0 ≤ n_steps →
          ∫⁻ x, (csmcSv adapt kernel).experiment_all key ((csmcSv adapt kernel).init x) (fun k s => (csmcSv adapt kernel).kernel k s delta) n_steps
            (fun r => ENNReal.ofReal ((sampleMean f (lagPairs lag (runOf (csmcSv adapt kernel) r)) - ∫ x, f x ∂Γ) ^ 2)) ∂π ≤ δ := by
  obtain ⟨Γ, hΓ1, hΓ2, hΓ3⟩ := hinv.pair lag
  have hq : Measurable fun p : FState n d × FState n d => (p.1.1, p.2.1) := by fun_prop
  refine ⟨Γ.map fun p => (p.1.1, p.2.1), ⟨Measure.isProbabilityMeasure_map hq.aemeasurable, fun key n_steps k k' hkk u hu => ?_⟩, fun f hf hC δ hδ => ?_⟩
  · obtain ⟨L, rfl⟩ : ∃ L, n_steps = L + 1 := by
      have := k.2
      simp only [strideLen] at this
      exact ⟨n_steps - 1, by omega⟩
    refine (csmcSv_stat_run (adapt := adapt) hκ key L (F := fun r => u (r.1 k, r.1 k')) (by fun_prop)).trans ?_
    rw [lintegral_map hu hq, ← hΓ2 (tailA (splitKey key (L + 1))) ⟨k, by have := k.2; simp only [strideLen] at this; omega⟩
      ⟨k', by have := k'.2; simp only [strideLen] at this; omega⟩ hkk (fun p => u (p.1.1, p.2.1)) (hu.comp hq)]
    rfl
  · obtain ⟨fl, hfl⟩ : ∃ fl : Fin (n + 1) → Bool, fl = fun _ => false := ⟨_, rfl⟩
    have hΦ : Measurable fun p : FState n d × FState n d => f (p.1.1, p.2.1) := hf.comp hq
    obtain ⟨g, hg⟩ : ∃ g : Traj (n + 1) d → ℝ, g = fun x => stepMean (flagKer κ) (fun y z => f (y.1, z.1)) lag (x, fl) (x, fl) := ⟨_, rfl⟩
    have hgm : Measurable g := by
      rw [hg]
      exact (measurable_stepMean hΦ lag).comp (f := fun x : Traj (n + 1) d => (((x, fl), (x, fl)) : FState n d × FState n d)) (by fun_prop)
    have he : ∀ y, stepMean (flagKer κ) (fun y z => f (y.1, z.1)) lag y y = g y.1 := fun y => by
      rw [hg]
      exact stepMean_flag f lag y _ y _ rfl rfl
    obtain ⟨C, hC⟩ := hC
    have hmean : ∫ z, f z ∂(Γ.map fun p => (p.1.1, p.2.1)) = ∫ x, g x ∂π := by
      rw [← hΓ3 (Φ := fun y z => f (y.1, z.1)) hΦ ⟨C, fun _ _ => hC _⟩ hgm he, integral_map hq.aemeasurable hf.aestronglyMeasurable]
    obtain ⟨M0, hM0⟩ := lag_average (fl := fl) (csmcSv_hx hκ hav _) (Φ := fun y z => f (y.1, z.1)) hΦ ⟨C, fun _ _ => hC _⟩ lag hgm he
      (a := 0) (.inl rfl) hδ
    refine ⟨max M0 (lag + 1), fun key L hL => le_trans (le_of_eq (lintegral_congr fun x => ?_)) (hM0 key L ((le_max_left _ _).trans hL))⟩
    have hL' : lag + 1 ≤ L := (le_max_right _ _).trans hL
    refine (csmcSv_flag_run (adapt := adapt) hκ key L x fl (F := fun r => ENNReal.ofReal ((sampleMean f (lagPairs lag r) -
      ∫ z, f z ∂(Γ.map fun p => (p.1.1, p.2.1))) ^ 2)) (by unfold sampleMean lagPairs; fun_prop)).trans ?_
    refine Ex.congr_fun' _ fun tr => ?_
    rw [hmean, sampleMean]
    congr 3
    rw [show L + 1 - lag = (L - lag) + 1 by omega, Finset.sum_range_succ']
    congr 1
    · simp only [Nat.add_eq_zero_iff, one_ne_zero, and_false, if_false, if_true, one_mul, zero_mul, add_zero]
      rw [Finset.sum_range]
      refine Finset.sum_congr rfl fun k _ => ?_
      have hk := k.2
      rw [atN_of_le tr (by omega), atN_of_le tr (by omega)]
      show f ((tr _).1, (tr _).1) = _
      congr 3
      refine congrArg tr (Fin.ext ?_)
      simp only [Fin.val_succ]
      omega
    · rw [Nat.cast_sub (by omega)]
      ring

end Verif
