import Verif.Lemmas.LagRuns
import Verif.Lemmas.LongAverages
import Verif.Model.Diagnostics

/-!
# Statistics of a run that converge in probability, whatever is dropped at the start
-/

open scoped ENNReal
open MeasureTheory ProbabilityTheory

namespace Verif
open Verif.Model Verif.Spec Verif.Props

variable {T d n N : ℕ} {K : SvKernel Ex T d} {delta : StepSize T} {π : Measure (Traj T d)}

/-- The statistic `X` of the run converges to `x` in probability, from every start with a density with respect to `π`. -/
def RunConv (K : SvKernel Ex T d) (delta : StepSize T) (π : Measure (Traj T d)) (X : ∀ n_samples, Run (strideLen n_samples 1) T d → ℝ) (x : ℝ) : Prop :=
  ∀ ν : Measure (Traj T d), IsProbabilityMeasure ν → ν ≪ π → ∀ η : ℝ, 0 < η → ∀ ε : ℝ≥0∞, ε ≠ 0 →
    ∃ n0 : ℕ, ∀ (key : Key) (b n_samples : ℕ), n0 ≤ n_samples →
      ∫⁻ x', K.experiment_all key (K.init x') (fun k s => K.kernel k s delta) (n_samples + b)
        (fun r => Set.indicator {r : Run (strideLen n_samples 1) T d | η < |X n_samples r - x|} 1 ((runOf K r).drop b)) ∂ν ≤ ε

theorem measurable_far {k : ℕ} {X : Run k T d → ℝ} (hX : Measurable X) (η x : ℝ) :
    Measurable (Set.indicator {r : Run k T d | η < |X r - x|} (1 : Run k T d → ℝ≥0∞)) :=
  measurable_one.indicator (measurableSet_lt measurable_const (by fun_prop))

/-- Finitely many statistics at once. -/
theorem RunConv.all (hC : ChainsOK K delta fun _ => True) {ι : Type} [Fintype ι] {X : ι → ∀ n_samples, Run (strideLen n_samples 1) T d → ℝ} {x : ι → ℝ}
    (hX : ∀ c n, Measurable (X c n)) (h : ∀ c, RunConv K delta π (X c) (x c)) (ν : Measure (Traj T d)) (hν : IsProbabilityMeasure ν) (hν' : ν ≪ π)
    {η : ℝ} (hη : 0 < η) {ε : ℝ≥0∞} (hε : ε ≠ 0) :
    ∃ n0 : ℕ, ∀ (key : Key) (b n_samples : ℕ), n0 ≤ n_samples →
      ∫⁻ x', K.experiment_all key (K.init x') (fun k s => K.kernel k s delta) (n_samples + b)
        (fun r => Set.indicator {r : Run (strideLen n_samples 1) T d | ∃ c, η < |X c n_samples r - x c|} 1 ((runOf K r).drop b)) ∂ν ≤ ε := by
  have hcard : ε / (Fintype.card ι + 1 : ℕ) ≠ 0 := (ENNReal.div_pos hε (ENNReal.natCast_ne_top _)).ne'
  choose n0 h0 using fun c => h c ν hν hν' η hη _ hcard
  refine ⟨Finset.univ.sup n0, fun key b n_samples hn => ?_⟩
  refine (run_union hC ν key b n_samples (fun c => Set.indicator {r : Run (strideLen n_samples 1) T d | η < |X c n_samples r - x c|} 1) ?_
    (fun c => measurable_far (hX c _) _ _) fun r => ?_).trans ?_
  · refine measurable_one.indicator ?_
    rw [Set.ofPred_exists]
    refine MeasurableSet.iUnion fun c => ?_
    have := hX c n_samples
    exact measurableSet_lt measurable_const (by fun_prop)
  · by_cases hr : r ∈ {r : Run (strideLen n_samples 1) T d | ∃ c, η < |X c n_samples r - x c|}
    · obtain ⟨c, hc⟩ := hr
      rw [Set.indicator_of_mem (show r ∈ {r : Run (strideLen n_samples 1) T d | ∃ c, η < |X c n_samples r - x c|} from ⟨c, hc⟩)]
      refine le_trans (le_of_eq ?_) (Finset.single_le_sum (f := fun c => Set.indicator {r : Run (strideLen n_samples 1) T d | η < |X c n_samples r - x c|} 1 r)
        (fun _ _ => zero_le) (Finset.mem_univ c))
      exact (Set.indicator_of_mem (show r ∈ {r : Run (strideLen n_samples 1) T d | η < |X c n_samples r - x c|} from hc) 1).symm
    · rw [Set.indicator_of_notMem hr]
      exact zero_le
  · refine (Finset.sum_le_sum fun c _ => h0 c key b n_samples ((Finset.le_sup (Finset.mem_univ c)).trans hn)).trans ?_
    rw [Finset.sum_const, nsmul_eq_mul, Finset.card_univ]
    calc _ ≤ ((Fintype.card ι + 1 : ℕ) : ℝ≥0∞) * (ε / (Fintype.card ι + 1 : ℕ)) :=
          mul_le_mul_left ((Nat.cast_le (α := ℝ≥0∞)).mpr (Nat.le_succ _)) _
      _ = ε := ENNReal.mul_div_cancel (by exact_mod_cast Nat.succ_ne_zero (Fintype.card ι)) (ENNReal.natCast_ne_top _)

/-- Larger events. -/
theorem run_mono (hC : ChainsOK K delta fun _ => True) (ν : Measure (Traj T d)) (key : Key) (b n_samples : ℕ)
    {E E' : Run (strideLen n_samples 1) T d → ℝ≥0∞} (hE : Measurable E) (hE' : Measurable E') (hle : ∀ r, E r ≤ E' r) :
    ∫⁻ x, K.experiment_all key (K.init x) (fun k s => K.kernel k s delta) (n_samples + b) (fun r => E ((runOf K r).drop b)) ∂ν ≤
      ∫⁻ x, K.experiment_all key (K.init x) (fun k s => K.kernel k s delta) (n_samples + b) (fun r => E' ((runOf K r).drop b)) ∂ν := by
  refine (run_union hC ν key b n_samples (ι := Unit) (fun _ => E') hE (fun _ => hE') fun r => ?_).trans (le_of_eq ?_)
  · simpa using hle r
  · simp

theorem RunConv.congr {X Y : ∀ n_samples, Run (strideLen n_samples 1) T d → ℝ} {x : ℝ} (h : RunConv K delta π X x) {n1 : ℕ}
    (he : ∀ n_samples, n1 ≤ n_samples → ∀ r, Y n_samples r = X n_samples r) : RunConv K delta π Y x := by
  intro ν hν hν' η hη ε hε
  obtain ⟨n0, h0⟩ := h ν hν hν' η hη ε hε
  refine ⟨max n0 n1, fun key b n_samples hn => ?_⟩
  have := h0 key b n_samples ((le_max_left _ _).trans hn)
  simp only [he n_samples ((le_max_right _ _).trans hn)]
  exact this

/-- A continuous function of statistics. -/
theorem RunConv.comp (hC : ChainsOK K delta fun _ => True) {ι : Type} [Fintype ι] {X : ι → ∀ n_samples, Run (strideLen n_samples 1) T d → ℝ} {x : ι → ℝ}
    (hX : ∀ c n, Measurable (X c n)) (h : ∀ c, RunConv K delta π (X c) (x c)) {g : (ι → ℝ) → ℝ} (hg : Measurable g) (hgc : ContinuousAt g x) :
    RunConv K delta π (fun n r => g fun c => X c n r) (g x) := by
  intro ν hν hν' η hη ε hε
  obtain ⟨θ, hθ, hg'⟩ := Metric.continuousAt_iff.mp hgc η hη
  obtain ⟨n0, h0⟩ := RunConv.all hC hX h ν hν hν' (half_pos hθ) hε
  refine ⟨n0, fun key b n_samples hn => le_trans ?_ (h0 key b n_samples hn)⟩
  have hXm : Measurable fun r : Run (strideLen n_samples 1) T d => fun c => X c n_samples r := measurable_pi_lambda _ fun c => hX c n_samples
  refine run_mono hC ν key b n_samples (measurable_far (hg.comp hXm) _ _) ?_ fun r => ?_
  · refine measurable_one.indicator ?_
    rw [Set.ofPred_exists]
    refine MeasurableSet.iUnion fun c => ?_
    have := hX c n_samples
    exact measurableSet_lt measurable_const (by fun_prop)
  · refine Set.indicator_le_indicator_of_subset (fun r hr => ?_) (fun _ => zero_le) r
    by_contra hc
    simp only [Set.mem_ofPred_eq, not_exists, not_lt] at hc
    have h1 : dist (fun c => X c n_samples r) x < θ := by
      refine lt_of_le_of_lt ((dist_pi_le_iff (half_pos hθ).le).mpr fun c => ?_) (half_lt_self hθ)
      rw [Real.dist_eq]
      exact hc c
    have h2 := hg' h1
    rw [Real.dist_eq] at h2
    exact absurd h2 (not_lt.mpr (le_of_lt hr))

end Verif
