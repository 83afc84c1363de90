import Verif.Lemmas.LgWrongFinal
import Verif.Lemmas.LgWrongLongFinal
import Verif.Spec.Dominated
import Verif.Spec.Indices
import Verif.Model.ExpRuns
import Verif.Model.SvRuns
import Verif.Props.ExpInvariance
import Verif.Props.Smoothing

/-!
# C93: Particle-aMALA+ in the experiments
-/

open scoped ENNReal
open MeasureTheory

namespace Verif.Props
open Verif Verif.Model Verif.Spec

variable {N n d : ℕ}

/-! ## With backward sampling: the law after one step is not bounded by any multiple of the posterior -/

section wrong

variable {sigma δ : ℝ} {xv uv zv : Fin 3 → ℝ} (ys : Fin 3 → Vec d) {resampling : Resampling Ex N} {mv : AncestorMove Ex N}

/-- **C93**, for all noise levels and step sizes that have a witness: with backward sampling, the law of the trajectory
after one step from the posterior is not bounded by any multiple of the posterior. -/
theorem C93_lgssm_not_dominated (hN : 1 ≤ N) (hd : 0 < d) (hs : 0 < sigma) (hδ : 0 < δ)
    (hw : LgWitness (1 / sigma ^ 2) δ xv uv zv) (key : Key) (hR : GoodResampling resampling)
    (hG : ∀ key, GivesToHeavy fun w i j => resampling key w i j true)
    (hm : ∀ key, MoveKer (moveIndex mv key)) (hH : ∀ key, KeepsHeavy (moveIndex mv key)) :
    ∃ K : (Fin 3 → Vec d) → Key → (Fin 3 → Vec d) → (Fin 3 → Fin (N + 1)) → (Fin 3 → ℝ) →
        Ex ((Fin 3 → Vec d) × (Fin 3 → Fin (N + 1))),
      lg_mala_csmc_smoothing sigma resampling mv true (n := 2) = .ok (fun ys => csmcPair (K ys)) ∧
      ∀ C : ℝ≥0∞, C ≠ ∞ →
        ¬ StepDominated C volume (lgTarget sigma ys) (fun _ => 0) (fun x b => K ys key x b fun _ => δ) := by
  refine ⟨_, rfl, fun C hC h => ?_⟩
  obtain ⟨m, rfl⟩ : ∃ m, N = m + 1 := ⟨N - 1, by omega⟩
  obtain ⟨f, hf, h1, h2⟩ := lg_unbounded (k := (1 : Fin (m + 2))) ys hd hs hδ hw (by simp) key hR hG hm hH C hC
  have h3 := h f hf
  simp only [outOf, als_kernel_eq_F] at h3
  rw [h1, mul_one] at h3
  exact absurd h2 (not_lt.mpr h3)

/-- **C93**: hence the kernel does not leave the posterior invariant. -/
theorem C93_lgssm_not_invariant (hN : 1 ≤ N) (hd : 0 < d) (hs : 0 < sigma) (hδ : 0 < δ)
    (hw : LgWitness (1 / sigma ^ 2) δ xv uv zv) (key : Key) (hR : GoodResampling resampling)
    (hG : ∀ key, GivesToHeavy fun w i j => resampling key w i j true)
    (hm : ∀ key, MoveKer (moveIndex mv key)) (hH : ∀ key, KeepsHeavy (moveIndex mv key)) :
    ∃ K : (Fin 3 → Vec d) → Key → (Fin 3 → Vec d) → (Fin 3 → Fin (N + 1)) → (Fin 3 → ℝ) →
        Ex ((Fin 3 → Vec d) × (Fin 3 → Fin (N + 1))),
      lg_mala_csmc_smoothing sigma resampling mv true (n := 2) = .ok (fun ys => csmcPair (K ys)) ∧
      ¬ InvariantFromAnyIndex volume (lgTarget sigma ys) (fun x b => K ys key x b fun _ => δ) ∧
      ¬ LeavesInvariant volume (lgTarget sigma ys) (fun x b => K ys key x b fun _ => δ) := by
  obtain ⟨K, hK, h⟩ := C93_lgssm_not_dominated (N := N) (mv := mv) ys hN hd hs hδ hw key hR hG hm hH
  refine ⟨K, hK, fun hi => h 1 ENNReal.one_ne_top fun f hf => ?_, fun hi => ?_⟩
  · rw [one_mul]
    exact (hi (fun _ => 0) f hf).le
  · refine h (Fintype.card (Fin 3 → Fin (N + 1))) (ENNReal.natCast_ne_top _) fun f hf => ?_
    have h1 := hi (fun r => f r.1) (hf.comp measurable_fst)
    refine le_trans (Finset.single_le_sum (f := fun b => ∫⁻ x, ENNReal.ofReal (Real.exp (lgTarget sigma ys x)) *
      K ys key x b (fun _ => δ) (fun r => f r.1) ∂(Measure.pi fun _ => volume)) (fun _ _ => zero_le)
      (Finset.mem_univ (fun _ => 0))) (h1.le.trans ?_)
    simp

/-- The schemes of the experiments. -/
theorem heavy_schemes :
    (∀ key, GivesToHeavy fun w i j => (killing (n := N) key w i j true : Ex _)) ∧
    (∀ key, GivesToHeavy fun w i j => (multinomial (n := N) key w i j true : Ex _)) ∧
    (∀ key, KeepsHeavy (moveIndex (N := N) (fun key w k => force_move key w k) key)) ∧
    ∀ key, KeepsHeavy (moveIndex (N := N) (fun key w k => barker_move key w k) key) :=
  ⟨killing_givesToHeavy, multinomial_givesToHeavy, force_keepsHeavy, barker_keepsHeavy⟩

/-- **C93** (settings of the experiment, with three observations): the default standard deviation of the dynamics and
the default step size, both equal to one, killing resampling, forced last step and backward sampling, any number of
particles and dimension.  Whatever the observations, one step from the posterior leads to a law that is not bounded by
any multiple of the posterior. -/
theorem C93_lgssm_default (hN : 1 ≤ N) (hd : 0 < d) (key : Key) :
    ∃ K : (Fin 3 → Vec d) → Key → (Fin 3 → Vec d) → (Fin 3 → Fin (N + 1)) → (Fin 3 → ℝ) →
        Ex ((Fin 3 → Vec d) × (Fin 3 → Fin (N + 1))),
      lg_mala_csmc_smoothing (N := N) 1 (fun key w i j c => killing key w i j c) (fun key w k => force_move key w k) true (n := 2) =
        .ok (fun ys => csmcPair (K ys)) ∧
      ∀ C : ℝ≥0∞, C ≠ ∞ →
        ¬ StepDominated C volume (lgTarget 1 ys) (fun _ => 0) (fun x b => K ys key x b fun _ => 1) :=
  C93_lgssm_not_dominated ys hN hd one_pos one_pos (by simpa using lgWitness_one) key goodResampling.1
    heavy_schemes.1 (fun key => force_moveKer key) heavy_schemes.2.2.1

/-- **C93**: the same holds for all standard deviations and step sizes close to one, e.g. for those that the adaptation
may choose. -/
theorem C93_lgssm_near_default (hN : 1 ≤ N) (hd : 0 < d) (key : Key) :
    ∃ ε : ℝ, 0 < ε ∧ ∀ sigma δ : ℝ, |sigma - 1| < ε → |δ - 1| < ε →
    ∃ K : (Fin 3 → Vec d) → Key → (Fin 3 → Vec d) → (Fin 3 → Fin (N + 1)) → (Fin 3 → ℝ) →
        Ex ((Fin 3 → Vec d) × (Fin 3 → Fin (N + 1))),
      lg_mala_csmc_smoothing (N := N) sigma (fun key w i j c => killing key w i j c) (fun key w k => force_move key w k) true
        (n := 2) = .ok (fun ys => csmcPair (K ys)) ∧
      ∀ C : ℝ≥0∞, C ≠ ∞ →
        ¬ StepDominated C volume (lgTarget sigma ys) (fun _ => 0) (fun x b => K ys key x b fun _ => δ) := by
  have hc : ContinuousAt (fun q : ℝ × ℝ => (1 / q.1 ^ 2, q.2)) (1, 1) := by
    refine ContinuousAt.prodMk (ContinuousAt.div continuousAt_const (by fun_prop) (by norm_num)) (by fun_prop)
  have he := hc.eventually (f := fun q : ℝ × ℝ => (1 / q.1 ^ 2, q.2)) 
    (p := fun q => LgWitness q.1 q.2 ![3, 18, 55] ![-1, 29, 14] ![63, 31, 15])
    (by simpa using lgWitness_eventually one_ne_zero lgWitness_one)
  obtain ⟨ε, hε, h⟩ := Metric.eventually_nhds_iff.mp he
  refine ⟨min ε 1, lt_min hε one_pos, fun sigma δ hs hδ => ?_⟩
  have h1 := abs_lt.mp (lt_of_lt_of_le hs (min_le_right _ _))
  have h2 := abs_lt.mp (lt_of_lt_of_le hδ (min_le_right _ _))
  exact C93_lgssm_not_dominated ys hN hd (by linarith) (by linarith)
    (h (y := (sigma, δ)) (max_lt (lt_of_lt_of_le hs (min_le_left _ _)) (lt_of_lt_of_le hδ (min_le_left _ _)))) key
    goodResampling.1 heavy_schemes.1 (fun key => force_moveKer key) heavy_schemes.2.2.1

example (ys : Fin 3 → Vec 10) (key : Key) :
    ∃ K : (Fin 3 → Vec 10) → Key → (Fin 3 → Vec 10) → (Fin 3 → Fin 32) → (Fin 3 → ℝ) →
        Ex ((Fin 3 → Vec 10) × (Fin 3 → Fin 32)),
      lg_mala_csmc_smoothing (N := 31) 1 (fun key w i j c => multinomial key w i j c) (fun key w k => barker_move key w k) true (n := 2) =
        .ok (fun ys => csmcPair (K ys)) ∧
      ¬ InvariantFromAnyIndex volume (lgTarget 1 ys) (fun x b => K ys key x b fun _ => 1) ∧
      ¬ LeavesInvariant volume (lgTarget 1 ys) (fun x b => K ys key x b fun _ => 1) :=
  C93_lgssm_not_invariant ys (by norm_num) (by norm_num) one_pos one_pos (by simpa using lgWitness_one) key
    goodResampling.2 heavy_schemes.2.1 (fun key => (goodMove key).ker) heavy_schemes.2.2.2

end wrong

section wrongLong

variable {sigma δ z0 z1 : ℝ} {xv uv : Fin (n + 4) → ℝ} (ys : Fin (n + 4) → Vec d) {resampling : Resampling Ex N}
  {mv : AncestorMove Ex N}

/-- **C93**, four observations or more, for all noise levels and step sizes that have a witness: with backward sampling,
the law of the trajectory after one step from the posterior is not bounded by any multiple of the posterior. -/
theorem C93_lgssm_long_not_dominated (hN : 1 ≤ N) (hd : 0 < d) (hs : 0 < sigma) (hδ : 0 < δ)
    (hw : LgWitnessL (1 / sigma ^ 2) δ xv uv z0 z1) (key : Key) (hR : GoodResampling resampling)
    (hG : ∀ key, GivesToHeavy fun w i j => resampling key w i j true)
    (hm : ∀ key, MoveKer (moveIndex mv key)) (hH : ∀ key, KeepsHeavy (moveIndex mv key)) :
    ∃ K : (Fin (n + 4) → Vec d) → Key → (Fin (n + 4) → Vec d) → (Fin (n + 4) → Fin (N + 1)) → (Fin (n + 4) → ℝ) →
        Ex ((Fin (n + 4) → Vec d) × (Fin (n + 4) → Fin (N + 1))),
      lg_mala_csmc_smoothing sigma resampling mv true (n := n + 3) = .ok (fun ys => csmcPair (K ys)) ∧
      ∀ C : ℝ≥0∞, C ≠ ∞ →
        ¬ StepDominated C volume (lgTarget sigma ys) (fun _ => 0) (fun x b => K ys key x b fun _ => δ) := by
  refine ⟨_, rfl, fun C hC h => ?_⟩
  obtain ⟨m, rfl⟩ : ∃ m, N = m + 1 := ⟨N - 1, by omega⟩
  obtain ⟨f, hf, h1, h2⟩ := lg_unboundedL (k := (1 : Fin (m + 2))) ys hd hs hδ hw (by simp) key hR hG hm hH C hC
  have h3 := h f hf
  simp only [outOf, als_kernel_eq_F] at h3
  rw [h1, mul_one] at h3
  exact absurd h2 (not_lt.mpr h3)

/-- A law that is not bounded by any multiple of the target is not the target. -/
theorem not_invariant_of_not_dominated {T : ℕ} {E : Type} [MeasureSpace E] {lg : (Fin (T + 1) → E) → ℝ}
    {K : (Fin (T + 1) → E) → (Fin (T + 1) → Fin (N + 1)) → Ex ((Fin (T + 1) → E) × (Fin (T + 1) → Fin (N + 1)))} {b : Fin (T + 1) → Fin (N + 1)}
    (h : ∀ C : ℝ≥0∞, C ≠ ∞ → ¬ StepDominated C volume lg b K) :
    ¬ InvariantFromAnyIndex volume lg K ∧ ¬ LeavesInvariant volume lg K := by
  refine ⟨fun hi => h 1 ENNReal.one_ne_top fun f hf => ?_, fun hi => ?_⟩
  · rw [one_mul]
    exact (hi b f hf).le
  · refine h (Fintype.card (Fin (T + 1) → Fin (N + 1))) (ENNReal.natCast_ne_top _) fun f hf => ?_
    have h1 := hi (fun r => f r.1) (hf.comp measurable_fst)
    refine le_trans (Finset.single_le_sum (f := fun b => ∫⁻ x, ENNReal.ofReal (Real.exp (lg x)) *
      K x b (fun r => f r.1) ∂(Measure.pi fun _ => volume)) (fun _ _ => zero_le) (Finset.mem_univ b)) (h1.le.trans ?_)
    simp

/-- **C93** (settings of the experiment, any number of observations from three on): there is a neighbourhood of the default
standard deviation of the dynamics and of the default step size, both equal to one, such that for all values in it, with
killing resampling, forced last step and backward sampling, whatever the dimension, the number of particles and the
observations, one step from the posterior leads to a law that is not bounded by any multiple of the posterior. -/
theorem C93_lgssm_near_default_all (n : ℕ) : ∃ ε : ℝ, 0 < ε ∧ ∀ sigma δ : ℝ, |sigma - 1| < ε → |δ - 1| < ε →
    ∀ (N d : ℕ) (ys : Fin (n + 3) → Vec d) (key : Key), 1 ≤ N → 0 < d →
    ∃ K : (Fin (n + 3) → Vec d) → Key → (Fin (n + 3) → Vec d) → (Fin (n + 3) → Fin (N + 1)) → (Fin (n + 3) → ℝ) →
        Ex ((Fin (n + 3) → Vec d) × (Fin (n + 3) → Fin (N + 1))),
      lg_mala_csmc_smoothing (N := N) sigma (fun key w i j c => killing key w i j c) (fun key w k => force_move key w k) true
        (n := n + 2) = .ok (fun ys => csmcPair (K ys)) ∧
      (∀ C : ℝ≥0∞, C ≠ ∞ →
        ¬ StepDominated C volume (lgTarget sigma ys) (fun _ => 0) (fun x b => K ys key x b fun _ => δ)) ∧
      ¬ InvariantFromAnyIndex volume (lgTarget sigma ys) (fun x b => K ys key x b fun _ => δ) ∧
      ¬ LeavesInvariant volume (lgTarget sigma ys) (fun x b => K ys key x b fun _ => δ) := by
  have hc : ContinuousAt (fun q : ℝ × ℝ => (1 / q.1 ^ 2, q.2)) (1, 1) := by
    refine ContinuousAt.prodMk (ContinuousAt.div continuousAt_const (by fun_prop) (by norm_num)) (by fun_prop)
  cases n with
  | zero =>
    have he := hc.eventually (f := fun q : ℝ × ℝ => (1 / q.1 ^ 2, q.2))
      (p := fun q => LgWitness q.1 q.2 ![3, 18, 55] ![-1, 29, 14] ![63, 31, 15])
      (by simpa using lgWitness_eventually one_ne_zero lgWitness_one)
    obtain ⟨ε, hε, h⟩ := Metric.eventually_nhds_iff.mp he
    refine ⟨min ε 1, lt_min hε one_pos, fun sigma δ hs hδ N d ys key hN hd => ?_⟩
    have h1 := abs_lt.mp (lt_of_lt_of_le hs (min_le_right _ _))
    have h2 := abs_lt.mp (lt_of_lt_of_le hδ (min_le_right _ _))
    obtain ⟨K, hK, h3⟩ := C93_lgssm_not_dominated (N := N) (mv := fun key w k => force_move key w k) ys hN hd
      (by linarith) (by linarith)
      (h (y := (sigma, δ)) (max_lt (lt_of_lt_of_le hs (min_le_left _ _)) (lt_of_lt_of_le hδ (min_le_left _ _)))) key
      goodResampling.1 heavy_schemes.1 (fun key => force_moveKer key) heavy_schemes.2.2.1
    exact ⟨K, hK, h3, not_invariant_of_not_dominated h3⟩
  | succ n =>
    have he := hc.eventually (f := fun q : ℝ × ℝ => (1 / q.1 ^ 2, q.2))
      (p := fun q => LgWitnessL (n := n) q.1 q.2 (fun t => wX t) (fun t => wU t) 87 42)
      (by simpa using lgWitnessL_eventually one_ne_zero (lgWitnessL_one (n := n)))
    obtain ⟨ε, hε, h⟩ := Metric.eventually_nhds_iff.mp he
    refine ⟨min ε 1, lt_min hε one_pos, fun sigma δ hs hδ N d ys key hN hd => ?_⟩
    have h1 := abs_lt.mp (lt_of_lt_of_le hs (min_le_right _ _))
    have h2 := abs_lt.mp (lt_of_lt_of_le hδ (min_le_right _ _))
    obtain ⟨K, hK, h3⟩ := C93_lgssm_long_not_dominated (N := N) (mv := fun key w k => force_move key w k) ys hN hd
      (by linarith) (by linarith)
      (h (y := (sigma, δ)) (max_lt (lt_of_lt_of_le hs (min_le_left _ _)) (lt_of_lt_of_le hδ (min_le_left _ _)))) key
      goodResampling.1 heavy_schemes.1 (fun key => force_moveKer key) heavy_schemes.2.2.1
    exact ⟨K, hK, h3, not_invariant_of_not_dominated h3⟩

/-- **C93** (default settings of the experiment, any number of observations from three on). -/
theorem C93_lgssm_default_all (ys : Fin (n + 3) → Vec d) (hN : 1 ≤ N) (hd : 0 < d) (key : Key) :
    ∃ K : (Fin (n + 3) → Vec d) → Key → (Fin (n + 3) → Vec d) → (Fin (n + 3) → Fin (N + 1)) → (Fin (n + 3) → ℝ) →
        Ex ((Fin (n + 3) → Vec d) × (Fin (n + 3) → Fin (N + 1))),
      lg_mala_csmc_smoothing (N := N) 1 (fun key w i j c => killing key w i j c) (fun key w k => force_move key w k) true
        (n := n + 2) = .ok (fun ys => csmcPair (K ys)) ∧
      (∀ C : ℝ≥0∞, C ≠ ∞ →
        ¬ StepDominated C volume (lgTarget 1 ys) (fun _ => 0) (fun x b => K ys key x b fun _ => 1)) ∧
      ¬ InvariantFromAnyIndex volume (lgTarget 1 ys) (fun x b => K ys key x b fun _ => 1) ∧
      ¬ LeavesInvariant volume (lgTarget 1 ys) (fun x b => K ys key x b fun _ => 1) := by
  obtain ⟨ε, hε, h⟩ := C93_lgssm_near_default_all n
  exact h 1 1 (by simpa using hε) (by simpa using hε) N d ys key hN hd

/-- The numbers of observations, dimensions and particles of `experiments/lgssm_scaling/experiment.py`. -/
example (ys : Fin 1000 → Vec 10) (key : Key) :
    ∃ K : (Fin 1000 → Vec 10) → Key → (Fin 1000 → Vec 10) → (Fin 1000 → Fin 32) → (Fin 1000 → ℝ) →
        Ex ((Fin 1000 → Vec 10) × (Fin 1000 → Fin 32)),
      lg_mala_csmc_smoothing (N := 31) 1 (fun key w i j c => killing key w i j c) (fun key w k => force_move key w k) true
        (n := 999) = .ok (fun ys => csmcPair (K ys)) ∧
      (∀ C : ℝ≥0∞, C ≠ ∞ →
        ¬ StepDominated C volume (lgTarget 1 ys) (fun _ => 0) (fun x b => K ys key x b fun _ => 1)) ∧
      ¬ InvariantFromAnyIndex volume (lgTarget 1 ys) (fun x b => K ys key x b fun _ => 1) ∧
      ¬ LeavesInvariant volume (lgTarget 1 ys) (fun x b => K ys key x b fun _ => 1) :=
  C93_lgssm_default_all (n := 997) ys (by norm_num) (by norm_num) key

/-- The same with multinomial resampling and Barker moves, five observations. -/
example (ys : Fin 5 → Vec 2) (key : Key) :
    ∃ K : (Fin 5 → Vec 2) → Key → (Fin 5 → Vec 2) → (Fin 5 → Fin 2) → (Fin 5 → ℝ) →
        Ex ((Fin 5 → Vec 2) × (Fin 5 → Fin 2)),
      lg_mala_csmc_smoothing (N := 1) 1 (fun key w i j c => multinomial key w i j c) (fun key w k => barker_move key w k) true
        (n := 4) = .ok (fun ys => csmcPair (K ys)) ∧
      ∀ C : ℝ≥0∞, C ≠ ∞ →
        ¬ StepDominated C volume (lgTarget 1 ys) (fun _ => 0) (fun x b => K ys key x b fun _ => 1) :=
  C93_lgssm_long_not_dominated (n := 1) ys le_rfl (by norm_num) one_pos one_pos (by simpa using lgWitnessL_one (n := 1)) key
    goodResampling.2 heavy_schemes.2.1 (fun key => (goodMove key).ker) heavy_schemes.2.2.2

end wrongLong

/-! ## With backward scanning, and for the repaired code -/

section lgssm

variable {sigma : ℝ} (ys : Traj (n + 3) d)

theorem lgGamma_grads (hs : 0 < sigma) (y : Vec d) :
    (Measurable fun p : Vec d × Vec d => jaxGrad (fun x' => lgGamma_t sigma x' p.2 y) p.1) ∧
    Measurable fun p : Vec d × Vec d => jaxGrad (fun x => lgGamma_t sigma p.1 x y) p.2 := by
  have hw : Continuous (Prod.swap : Vec d × Vec d → Vec d × Vec d) := continuous_swap
  have h := Continuous.comp (Y := Vec d × Vec d) (Z := ℝ) (continuous_lgGamma_t hs y) hw
  unfold Function.comp at h
  have h1 := Measurable.comp (β := Vec d × Vec d) (measurable_jaxGrad_param (f := fun x x' => lgGamma_t sigma x' x y) h) hw.measurable
  unfold Function.comp at h1
  exact ⟨h1, measurable_jaxGrad_param (f := fun x' x => lgGamma_t sigma x' x y) (continuous_lgGamma_t hs y)⟩

/-- **C93** (`lgssm`, `MALA_CSMC` with style `smoothing`): with backward scanning the kernel leaves the posterior
invariant, for at least three observations. -/
theorem C93_lgssm_scanning (hs : 0 < sigma) {delta : Fin (n + 3) → ℝ} (hd : ∀ t, 0 < delta t) (key : Key)
    {resampling : Resampling Ex N} (hR : GoodResampling resampling) {mv : AncestorMove Ex N} (hmv : GoodMove mv) :
    ∃ K : (Fin (n + 3) → Vec d) → Key → (Fin (n + 3) → Vec d) → (Fin (n + 3) → Fin (N + 1)) → (Fin (n + 3) → ℝ) →
        Ex ((Fin (n + 3) → Vec d) × (Fin (n + 3) → Fin (N + 1))),
      lg_mala_csmc_smoothing sigma resampling mv false (n := n + 2) = .ok (fun ys => csmcPair (K ys)) ∧
      LeavesInvariant volume (lgTarget sigma ys) (fun x b => K ys key x b delta) := by
  refine ⟨_, rfl, ?_⟩
  rw [← lgTarget_gamma ys hs]
  exact C27_al_csmc_s_invariant_partial key (tailA ys) delta (continuous_lgGamma_0 ys hs).measurable
    (fun y => (continuous_lgGamma_t hs y).measurable) (measurable_jaxGrad _) (fun y => (lgGamma_grads hs y).1)
    (fun y => (lgGamma_grads hs y).2) hd hR hmv false (by simp)

/-- **C93** (`lgssm`, repaired kernel): with the parents of time one in their place, the kernel leaves the posterior
invariant in both modes. -/
theorem C93_lgssm_repaired (hs : 0 < sigma) {delta : Fin (n + 3) → ℝ} (hd : ∀ t, 0 < delta t) (key : Key)
    {resampling : Resampling Ex N} (hR : GoodResampling resampling) {mv : AncestorMove Ex N} (hmv : GoodMove mv)
    (backward : Bool) :
    LeavesInvariant volume (lgTarget sigma ys) (fun x b => als_kernelF alsFix key x b (lgGamma_0 ys sigma)
      (jaxGrad (lgGamma_0 ys sigma)) (lgGamma_t sigma) (fun x' x y => jaxGrad (fun x' => lgGamma_t sigma x' x y) x')
      (fun x' x y => jaxGrad (fun x => lgGamma_t sigma x' x y) x) (tailA ys) delta delta resampling mv backward) := by
  rw [← lgTarget_gamma ys hs]
  exact C27_repaired_invariant key (tailA ys) delta (continuous_lgGamma_0 ys hs).measurable
    (fun y => (continuous_lgGamma_t hs y).measurable) (measurable_jaxGrad _) (fun y => (lgGamma_grads hs y).1)
    (fun y => (lgGamma_grads hs y).2) hd hR hmv backward

example (ys : Traj 5 10) (key : Key) (backward : Bool) :
    LeavesInvariant volume (lgTarget 1 ys) (fun x (b : Fin 5 → Fin 32) => als_kernelF alsFix key x b (lgGamma_0 ys 1)
      (jaxGrad (lgGamma_0 ys 1)) (lgGamma_t 1) (fun x' x y => jaxGrad (fun x' => lgGamma_t 1 x' x y) x')
      (fun x' x y => jaxGrad (fun x => lgGamma_t 1 x' x y) x) (tailA ys) (fun _ => 1) (fun _ => 1)
      (fun key w i j c => killing key w i j c) (fun key w k => barker_move key w k) backward) :=
  C93_lgssm_repaired ys one_pos (fun _ => one_pos) key goodResampling.1 goodMove backward

end lgssm

section sv

variable {D : SvDyn d} (ys : Traj (n + 3) d)

theorem svGamma_grads (hQ : D.Q.PosDef) (y : Vec d) :
    (Measurable fun p : Vec d × Vec d => jaxGrad (fun x' => svGamma_t D x' p.2 y) p.1) ∧
    Measurable fun p : Vec d × Vec d => jaxGrad (fun x => svGamma_t D p.1 x y) p.2 := by
  have hw : Continuous (Prod.swap : Vec d × Vec d → Vec d × Vec d) := continuous_swap
  have h := Continuous.comp (Y := Vec d × Vec d) (Z := ℝ) (continuous_svGamma_t hQ y) hw
  unfold Function.comp at h
  have h1 := Measurable.comp (β := Vec d × Vec d) (measurable_jaxGrad_param (f := fun x x' => svGamma_t D x' x y) h) hw.measurable
  unfold Function.comp at h1
  exact ⟨h1, measurable_jaxGrad_param (f := fun x' x => svGamma_t D x' x y) (continuous_svGamma_t hQ y)⟩

/-- **C93** (stochastic volatility, `MALA_CSMC` with style `smoothing`, backward scanning). -/
theorem C93_sv_scanning (hP : D.P0.PosDef) (hQ : D.Q.PosDef) {delta : Fin (n + 3) → ℝ} (hd : ∀ t, 0 < delta t) (key : Key)
    {resampling : Resampling Ex N} (hR : GoodResampling resampling) {mv : AncestorMove Ex N} (hmv : GoodMove mv) :
    ∃ K : (Fin (n + 3) → Vec d) → Key → (Fin (n + 3) → Vec d) → (Fin (n + 3) → Fin (N + 1)) → (Fin (n + 3) → ℝ) →
        Ex ((Fin (n + 3) → Vec d) × (Fin (n + 3) → Fin (N + 1))),
      sv_mala_csmc_smoothing D resampling mv false (n := n + 2) = .ok (fun ys => csmcSvPlain (K ys)) ∧
      LeavesInvariant volume (svTarget D.m0 D.P0 D.F D.Q D.b ys) (fun x b => K ys key x b delta) := by
  refine ⟨_, rfl, svTarget_shift ys hP hQ ?_⟩
  exact C27_al_csmc_s_invariant_partial key (tailA ys) delta (continuous_svGamma_0 ys hP).measurable
    (fun y => (continuous_svGamma_t hQ y).measurable) (measurable_jaxGrad _) (fun y => (svGamma_grads hQ y).1)
    (fun y => (svGamma_grads hQ y).2) hd hR hmv false (by simp)

/-- **C93** (stochastic volatility, repaired kernel, both modes). -/
theorem C93_sv_repaired (hP : D.P0.PosDef) (hQ : D.Q.PosDef) {delta : Fin (n + 3) → ℝ} (hd : ∀ t, 0 < delta t) (key : Key)
    {resampling : Resampling Ex N} (hR : GoodResampling resampling) {mv : AncestorMove Ex N} (hmv : GoodMove mv)
    (backward : Bool) :
    LeavesInvariant volume (svTarget D.m0 D.P0 D.F D.Q D.b ys) (fun x b => als_kernelF alsFix key x b (svGamma_0 ys D)
      (jaxGrad (svGamma_0 ys D)) (svGamma_t D) (fun x' x y => jaxGrad (fun x' => svGamma_t D x' x y) x')
      (fun x' x y => jaxGrad (fun x => svGamma_t D x' x y) x) (tailA ys) delta delta resampling mv backward) :=
  svTarget_shift ys hP hQ (C27_repaired_invariant key (tailA ys) delta (continuous_svGamma_0 ys hP).measurable
    (fun y => (continuous_svGamma_t hQ y).measurable) (measurable_jaxGrad _) (fun y => (svGamma_grads hQ y).1)
    (fun y => (svGamma_grads hQ y).2) hd hR hmv backward)

end sv

end Verif.Props
