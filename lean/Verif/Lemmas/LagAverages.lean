import Verif.Lemmas.RunConv

/-!
# Acceptance rates and auto-covariances along a run of a conditional SMC kernel
-/

open scoped ENNReal
open MeasureTheory ProbabilityTheory

namespace Verif
open Verif.Model Verif.Spec Verif.Props

section laws

variable {T d : ℕ} {K : SvKernel Ex T d} {delta : StepSize T} {π : Measure (Traj T d)} {lag : ℕ} {Γ : Measure (Traj T d × Traj T d)}

/-- There is only one joint law. -/
theorem Spec.IsLagLaw.unique {Γ' : Measure (Traj T d × Traj T d)} (h : IsLagLaw K delta π lag Γ) (h' : IsLagLaw K delta π lag Γ') : Γ = Γ' :=
  Measure.ext_of_lintegral _ fun u hu => by
    have e : ∀ {i}, i < lag + 1 → i < strideLen (lag + 1) 1 := fun h => by simp only [strideLen]; omega
    rw [← h.law [] (lag + 1) ⟨0, e (by omega)⟩ ⟨lag, e (by omega)⟩ (by simp) u hu,
      h'.law [] (lag + 1) ⟨0, e (by omega)⟩ ⟨lag, e (by omega)⟩ (by simp) u hu]

theorem Spec.IsLagLaw.eq (h : IsLagLaw K delta π lag Γ) : lagLaw K delta π lag = Γ := by
  have : ∃ Γ, IsLagLaw K delta π lag Γ := ⟨Γ, h⟩
  unfold lagLaw
  rw [dif_pos this]
  exact Spec.IsLagLaw.unique this.choose_spec h

theorem keeps_law (hkeep : KeepsLaw 0 π K delta) (key : Key) (n_steps : ℕ) (k : Fin (strideLen n_steps 1)) {f : Traj T d → ℝ≥0∞} (hf : Measurable f)
    (hf1 : ∀ x, f x ≤ 1) :
    ∫⁻ x, K.experiment_all key (K.init x) (fun k s => K.kernel k s delta) n_steps (fun r => f (r.1 k)) ∂π = ∫⁻ x, f x ∂π := by
  have h := hkeep key n_steps k f hf hf1
  simp only [mul_zero, add_zero] at h
  exact le_antisymm h.1 h.2

/-- Both samples of a pair have the stationary law. -/
theorem Spec.IsLagLaw.fst (h : IsLagLaw K delta π lag Γ) (hkeep : KeepsLaw 0 π K delta) : Γ.map Prod.fst = π := by
  refine Measure.ext fun A hA => ?_
  have hf : Measurable (A.indicator (1 : Traj T d → ℝ≥0∞)) := measurable_one.indicator hA
  have e : ∀ {i}, i < lag + 1 → i < strideLen (lag + 1) 1 := fun h => by simp only [strideLen]; omega
  rw [← lintegral_indicator_one hA, lintegral_map hf measurable_fst, ← h.law [] (lag + 1) ⟨0, e (by omega)⟩ ⟨lag, e (by omega)⟩ (by simp)
    (fun p => A.indicator 1 p.1) (hf.comp measurable_fst)]
  rw [keeps_law hkeep [] (lag + 1) ⟨0, e (by omega)⟩ hf fun x => Set.indicator_le_self' (fun _ _ => zero_le_one) x, lintegral_indicator_one hA]

theorem Spec.IsLagLaw.snd (h : IsLagLaw K delta π lag Γ) (hkeep : KeepsLaw 0 π K delta) : Γ.map Prod.snd = π := by
  refine Measure.ext fun A hA => ?_
  have hf : Measurable (A.indicator (1 : Traj T d → ℝ≥0∞)) := measurable_one.indicator hA
  have e : ∀ {i}, i < lag + 1 → i < strideLen (lag + 1) 1 := fun h => by simp only [strideLen]; omega
  rw [← lintegral_indicator_one hA, lintegral_map hf measurable_snd, ← h.law [] (lag + 1) ⟨0, e (by omega)⟩ ⟨lag, e (by omega)⟩ (by simp)
    (fun p => A.indicator 1 p.2) (hf.comp measurable_snd)]
  rw [keeps_law hkeep [] (lag + 1) ⟨lag, e (by omega)⟩ hf fun x => Set.indicator_le_self' (fun _ _ => zero_le_one) x, lintegral_indicator_one hA]

/-- A pair of a sample and itself. -/
theorem Spec.IsLagLaw.diag {Γ : Measure (Traj T d × Traj T d)} (h : IsLagLaw K delta π 0 Γ) (hkeep : KeepsLaw 0 π K delta) : Γ = π.map fun x => (x, x) := by
  refine Measure.ext fun A hA => ?_
  have hf : Measurable (A.indicator (1 : Traj T d × Traj T d → ℝ≥0∞)) := measurable_one.indicator hA
  have hm : Measurable fun x : Traj T d => (x, x) := by fun_prop
  have e : 0 < strideLen 1 1 := by simp [strideLen]
  rw [← lintegral_indicator_one hA, ← lintegral_indicator_one hA, lintegral_map hf hm, ← h.law [] 1 ⟨0, e⟩ ⟨0, e⟩ (by simp) _ hf]
  exact keeps_law hkeep [] 1 ⟨0, e⟩ (hf.comp hm) fun x => Set.indicator_le_self' (fun _ _ => zero_le_one) _

/-- Integrals against the joint law of functions of one sample. -/
theorem Spec.IsLagLaw.integral (h : IsLagLaw K delta π lag Γ) (hkeep : KeepsLaw 0 π K delta) {f : Traj T d → ℝ} (hf : Measurable f) :
    ∫ p, f p.1 ∂Γ = ∫ x, f x ∂π ∧ ∫ p, f p.2 ∂Γ = ∫ x, f x ∂π := by
  constructor
  · rw [← integral_map (φ := Prod.fst) measurable_fst.aemeasurable hf.aestronglyMeasurable, h.fst hkeep]
  · rw [← integral_map (φ := Prod.snd) measurable_snd.aemeasurable hf.aestronglyMeasurable, h.snd hkeep]

theorem Spec.IsLagLaw.integrable (h : IsLagLaw K delta π lag Γ) (hkeep : KeepsLaw 0 π K delta) {f : Traj T d → ℝ} (hf : Measurable f) (hi : Integrable f π) :
    Integrable (fun p => f p.1) Γ ∧ Integrable (fun p => f p.2) Γ := by
  constructor
  · exact (integrable_map_measure (f := Prod.fst) hf.aestronglyMeasurable measurable_fst.aemeasurable).mp (by rwa [h.fst hkeep])
  · exact (integrable_map_measure (f := Prod.snd) hf.aestronglyMeasurable measurable_snd.aemeasurable).mp (by rwa [h.snd hkeep])

theorem Spec.IsLagLaw.mul_integrable (h : IsLagLaw K delta π lag Γ) (hkeep : KeepsLaw 0 π K delta) {f : Traj T d → ℝ} (hf : Measurable f)
    (hi : Integrable (fun x => f x ^ 2) π) : Integrable (fun p => f p.1 * f p.2) Γ := by
  obtain ⟨h1, h2⟩ := h.integrable hkeep (hf.pow_const 2) hi
  have hm : Measurable fun p : Traj T d × Traj T d => f p.1 * f p.2 := by fun_prop
  refine (h1.add h2).mono' hm.aestronglyMeasurable (Filter.Eventually.of_forall fun p => ?_)
  show |f p.1 * f p.2| ≤ f p.1 ^ 2 + f p.2 ^ 2
  rw [abs_le]
  constructor <;> nlinarith [sq_nonneg (f p.1 + f p.2), sq_nonneg (f p.1 - f p.2)]

/-- The auto-covariance in terms of moments. -/
theorem autoCov_eq (h : IsLagLaw K delta π lag Γ) (hkeep : KeepsLaw 0 π K delta) {t : Fin T} {i : Fin d}
    (hi : Integrable (fun x => x t i) π) (hi2 : Integrable (fun x => x t i ^ 2) π) :
    autoCov K delta π t i lag = ∫ p, p.1 t i * p.2 t i ∂Γ - (∫ x, x t i ∂π) ^ 2 := by
  have := h.prob
  have hm : Measurable fun x : Traj T d => x t i := by fun_prop
  unfold autoCov
  rw [h.eq]
  obtain ⟨μ, hμ⟩ : ∃ μ, μ = ∫ x, x t i ∂π := ⟨_, rfl⟩
  rw [← hμ]
  have e : ∀ p : Traj T d × Traj T d, (p.1 t i - μ) * (p.2 t i - μ) = p.1 t i * p.2 t i - (μ * p.1 t i + μ * p.2 t i - μ ^ 2) := fun p => by ring
  simp only [e]
  obtain ⟨i1, i2⟩ := h.integrable hkeep hm hi
  obtain ⟨e1, e2⟩ := h.integral hkeep hm
  have i3 : Integrable (fun p : Traj T d × Traj T d => μ * p.1 t i + μ * p.2 t i) Γ := (i1.const_mul μ).add (i2.const_mul μ)
  have i4 : Integrable (fun p : Traj T d × Traj T d => μ * p.1 t i + μ * p.2 t i - μ ^ 2) Γ := i3.sub (integrable_const _)
  rw [integral_sub (h.mul_integrable hkeep hm hi2) i4, integral_sub i3 (integrable_const _),
    integral_add (i1.const_mul μ) (i2.const_mul μ), integral_const_mul, integral_const_mul, e1, e2, ← hμ]
  simp
  ring

/-- The auto-covariance at lag zero is the variance. -/
theorem autoCov_zero {Γ : Measure (Traj T d × Traj T d)} (h : IsLagLaw K delta π 0 Γ) (hkeep : KeepsLaw 0 π K delta) (t : Fin T) (i : Fin d) :
    autoCov K delta π t i 0 = ∫ x, (x t i - ∫ x, x t i ∂π) ^ 2 ∂π := by
  unfold autoCov
  have hm : Measurable fun x : Traj T d => (x, x) := by fun_prop
  have hm' : Measurable fun p : Traj T d × Traj T d => (p.1 t i - ∫ x, x t i ∂π) * (p.2 t i - ∫ x, x t i ∂π) := by fun_prop
  rw [h.eq, h.diag hkeep, integral_map hm.aemeasurable hm'.aestronglyMeasurable]
  simp only [sq]

end laws

/-! ## Auto-covariances of a series -/

/-- The auto-covariance of a series in terms of averages. -/
theorem tfp_auto_cov_eq {L lag : ℕ} (x : Fin (L + 1) → ℝ) (hlag : lag < L + 1) :
    tfp_auto_cov x lag =
      (∑ k : Fin (L + 1 - lag), x ⟨k, by omega⟩ * x ⟨k + lag, by omega⟩) / (L + 1 - lag : ℕ) -
        meanA x * ((∑ k : Fin (L + 1 - lag), x ⟨k, by omega⟩) / (L + 1 - lag : ℕ) + (∑ k : Fin (L + 1 - lag), x ⟨k + lag, by omega⟩) / (L + 1 - lag : ℕ)) +
        meanA x ^ 2 := by
  have hN : ((L + 1 - lag : ℕ) : ℝ) ≠ 0 := by
    rw [Nat.cast_ne_zero]
    omega
  have e : ∑ k : Fin (L + 1), (if h : (k : ℕ) + lag < L + 1 then (x ⟨k + lag, h⟩ - meanA x) * (x k - meanA x) else 0) =
      ∑ k : Fin (L + 1 - lag), (x ⟨k + lag, by omega⟩ - meanA x) * (x ⟨k, by omega⟩ - meanA x) := by
    have e1 : ∑ k : Fin (L + 1), (if h : (k : ℕ) + lag < L + 1 then (x ⟨k + lag, h⟩ - meanA x) * (x k - meanA x) else 0) =
        ∑ k ∈ Finset.range (L + 1), (if h : k + lag < L + 1 then (x ⟨k + lag, h⟩ - meanA x) * (x ⟨k, by omega⟩ - meanA x) else 0) :=
      (Finset.sum_range fun k => if h : k + lag < L + 1 then (x ⟨k + lag, h⟩ - meanA x) * (x ⟨k, by omega⟩ - meanA x) else 0).symm
    have e2 : ∑ k : Fin (L + 1 - lag), (x ⟨k + lag, by omega⟩ - meanA x) * (x ⟨k, by omega⟩ - meanA x) =
        ∑ k ∈ Finset.range (L + 1 - lag), (if h : k + lag < L + 1 then (x ⟨k + lag, h⟩ - meanA x) * (x ⟨k, by omega⟩ - meanA x) else 0) := by
      rw [Finset.sum_range]
      refine Finset.sum_congr rfl fun k _ => ?_
      rw [dif_pos (by omega)]
    rw [e1, e2]
    refine (Finset.sum_subset (Finset.range_subset_range.mpr (Nat.sub_le _ _)) fun k _ hk' => ?_).symm
    rw [Finset.mem_range, not_lt] at hk'
    exact dif_neg (by omega)
  unfold tfp_auto_cov
  dsimp only
  rw [e]
  have e3 : ((L + 1 : ℕ) : ℝ) - lag = (L + 1 - lag : ℕ) := by rw [Nat.cast_sub hlag.le]
  rw [e3]
  simp only [sub_mul, mul_sub, Finset.sum_sub_distrib, ← Finset.mul_sum, ← Finset.sum_mul, Finset.sum_const, Finset.card_univ, Fintype.card_fin, nsmul_eq_mul]
  have e4 : ∑ k : Fin (L + 1 - lag), x ⟨k + lag, by omega⟩ * x ⟨k, by omega⟩ = ∑ k : Fin (L + 1 - lag), x ⟨k, by omega⟩ * x ⟨k + lag, by omega⟩ :=
    Finset.sum_congr rfl fun k _ => mul_comm _ _
  rw [e4]
  field_simp
  ring

/-- Component `i` of the state at time `t`, along a run. -/
def series {T d k : ℕ} (r : Run k T d) (t : Fin T) (i : Fin d) (L : ℕ) (l : Fin (L + 1)) : ℝ := if h : (l : ℕ) < k then r.1 ⟨l, h⟩ t i else 0

theorem measurable_series {T d k : ℕ} (t : Fin T) (i : Fin d) (L : ℕ) (l : Fin (L + 1)) : Measurable fun r : Run k T d => series r t i L l := by
  unfold series
  split_ifs <;> fun_prop

theorem measurable_tfp_auto_cov {L : ℕ} (lag : ℕ) : Measurable fun x : Fin (L + 1) → ℝ => tfp_auto_cov x lag := by
  unfold tfp_auto_cov meanA
  dsimp only
  refine Measurable.div_const (Finset.measurable_sum _ fun k _ => ?_) _
  split_ifs <;> fun_prop

section conv

variable {N n d : ℕ} {adapt : Key → (Fin (n + 1) → Vec d) → (Fin (n + 1) → Fin (N + 1)) →
      (Key → (Fin (n + 1) → Vec d) × (Fin (n + 1) → Fin (N + 1)) → (Fin (n + 1) → ℝ) →
        Ex ((Fin (n + 1) → Vec d) × (Fin (n + 1) → Fin (N + 1)))) → AdaptCfg → ℕ → (Fin (n + 1) → ℝ) → ℕ →
      Ex (((Fin (n + 1) → Vec d) × (Fin (n + 1) → Fin (N + 1))) × (Fin (n + 1) → ℝ))}
  {kernel : Key → (Fin (n + 1) → Vec d) → (Fin (n + 1) → Fin (N + 1)) → (Fin (n + 1) → ℝ) →
      Ex ((Fin (n + 1) → Vec d) × (Fin (n + 1) → Fin (N + 1)))} {delta : StepSize (n + 1)} {l : (Fin (n + 1) → Vec d) → ℝ}

/-- What is needed of a conditional SMC kernel and of its law. -/
structure ConvOK (adapt : Key → (Fin (n + 1) → Vec d) → (Fin (n + 1) → Fin (N + 1)) →
      (Key → (Fin (n + 1) → Vec d) × (Fin (n + 1) → Fin (N + 1)) → (Fin (n + 1) → ℝ) →
        Ex ((Fin (n + 1) → Vec d) × (Fin (n + 1) → Fin (N + 1)))) → AdaptCfg → ℕ → (Fin (n + 1) → ℝ) → ℕ →
      Ex (((Fin (n + 1) → Vec d) × (Fin (n + 1) → Fin (N + 1))) × (Fin (n + 1) → ℝ)))
    (kernel : Key → (Fin (n + 1) → Vec d) → (Fin (n + 1) → Fin (N + 1)) → (Fin (n + 1) → ℝ) →
      Ex ((Fin (n + 1) → Vec d) × (Fin (n + 1) → Fin (N + 1)))) (delta : StepSize (n + 1)) (l : (Fin (n + 1) → Vec d) → ℝ) : Prop where
  ok : CsmcOK 0 l fun key x b => kernel key x b delta.at
  meas : Measurable l
  mass : ∫⁻ x, ENNReal.ofReal (Real.exp (l x)) ∂trajVol (n + 1) d ≠ 0 ∧ ∫⁻ x, ENNReal.ofReal (Real.exp (l x)) ∂trajVol (n + 1) d ≠ ∞
  prob : IsProbabilityMeasure (lawOf (trajVol (n + 1) d) l)
  avg : RunAvg (csmcSv adapt kernel) delta (lawOf (trajVol (n + 1) d) l)

namespace ConvOK

variable (h : ConvOK adapt kernel delta l)
include h

theorem chains : ChainsOK (csmcSv adapt kernel) delta fun _ => True := csmcSv_chainsOK h.ok.markov h.ok.relabels h.ok.free

theorem keeps : KeepsLaw 0 (lawOf (trajVol (n + 1) d) l) (csmcSv adapt kernel) delta := csmcSv_keeps h.ok h.meas h.mass

/-- Averages over the samples. -/
theorem mean {f : Traj (n + 1) d → ℝ} (hf : Measurable f) (hi : Integrable f (lawOf (trajVol (n + 1) d) l)) :
    RunConv (csmcSv adapt kernel) delta (lawOf (trajVol (n + 1) d) l) (fun _ r => sampleMean f r.1) (∫ x, f x ∂lawOf (trajVol (n + 1) d) l) := by
  have := h.prob
  intro ν hν hν' η hη ε hε
  exact run_average h.chains h.keeps (fun key b f hf hf1 => csmcSv_last h.ok h.meas h.mass key b hf hf1) h.avg hf hi hν' hη hε

/-- Acceptance rates. -/
theorem flag (t : Fin (n + 1)) : RunConv (csmcSv adapt kernel) delta (lawOf (trajVol (n + 1) d) l) (fun _ r => meanA fun k => r.2 k t)
    (acceptProb (csmcSv adapt kernel) delta (lawOf (trajVol (n + 1) d) l) t) := by
  have := h.prob
  intro ν hν hν' η hη ε hε
  obtain ⟨κ, _, hκ⟩ := exists_flagStep (K := fun key x b => kernel key x b delta.at) h.ok.free (h.ok.markov []) (h.ok.relabels [])
  obtain ⟨σ, _, h01, hlaw, hav⟩ := csmcSv_flag_reads (adapt := adapt) hκ (csmcSv_flagInv hκ h.keeps) h.avg
  have hm : Measurable fun z : Fin (n + 1) → ℝ => z t := measurable_pi_apply t
  have hi : Integrable (fun z : Fin (n + 1) → ℝ => z t) σ := by
    refine Integrable.of_bound hm.aestronglyMeasurable 1 ?_
    filter_upwards [h01] with z hz
    rw [Real.norm_eq_abs, abs_of_nonneg (hz t).1]
    exact (hz t).2
  have e : acceptProb (csmcSv adapt kernel) delta (lawOf (trajVol (n + 1) d) l) t = ∫ z, z t ∂σ := by
    unfold acceptProb
    rw [hlaw [] 1 ⟨0, by simp [strideLen]⟩ (fun z => ENNReal.ofReal (z t)) hm.ennreal_ofReal, integral_eq_lintegral_of_nonneg_ae _ hm.aestronglyMeasurable]
    filter_upwards [h01] with z hz
    exact (hz t).1
  rw [e]
  have h1 : ∀ n_samples : ℕ, 1 ≤ n_samples → strideLen n_samples 1 ≠ 0 := fun n_samples h => by
    simp only [strideLen]
    omega
  exact read_average (π := lawOf (trajVol (n + 1) d) l) (m := fun n_samples => strideLen n_samples 1) h.chains
    (fun key b f hf hf1 => csmcSv_last h.ok h.meas h.mass key b hf hf1) h1 (fun _ r => r.2) (fun _ k => by fun_prop) hlaw hav hm hi hν' hη hε

/-- Averages over pairs of samples. -/
theorem lag (lag : ℕ) : ∃ Γ, IsLagLaw (csmcSv adapt kernel) delta (lawOf (trajVol (n + 1) d) l) lag Γ ∧
    ∀ f : Traj (n + 1) d × Traj (n + 1) d → ℝ, Measurable f → Integrable f Γ →
      RunConv (csmcSv adapt kernel) delta (lawOf (trajVol (n + 1) d) l) (fun _ r => sampleMean f (lagPairs lag r)) (∫ p, f p ∂Γ) := by
  have := h.prob
  obtain ⟨κ, _, hκ⟩ := exists_flagStep (K := fun key x b => kernel key x b delta.at) h.ok.free (h.ok.markov []) (h.ok.relabels [])
  obtain ⟨Γ, hΓ, hav⟩ := csmcSv_lag_reads (adapt := adapt) hκ (csmcSv_flagInv hκ h.keeps) h.avg lag
  have := hΓ.prob
  refine ⟨Γ, hΓ, fun f hf hi ν hν hν' η hη ε hε => ?_⟩
  exact read_average (π := lawOf (trajVol (n + 1) d) l) (m := fun n_samples => n_samples - lag) (n1 := lag + 1) h.chains
    (fun key b f hf hf1 => csmcSv_last h.ok h.meas h.mass key b hf hf1) (fun n_samples h => by omega) (fun _ r => lagPairs lag r)
    (fun _ k => by unfold lagPairs; fun_prop) (fun key n_samples k u hu => hΓ.law key n_samples _ _ rfl u hu) hav hf hi hν' hη hε

/-- Auto-covariances. -/
theorem cov (lag : ℕ) {t : Fin (n + 1)} {i : Fin d} (hi : Integrable (fun x => x t i) (lawOf (trajVol (n + 1) d) l))
    (hi2 : Integrable (fun x => x t i ^ 2) (lawOf (trajVol (n + 1) d) l)) :
    RunConv (csmcSv adapt kernel) delta (lawOf (trajVol (n + 1) d) l) (fun n_samples r => tfp_auto_cov (series r t i (n_samples - 1)) lag)
      (autoCov (csmcSv adapt kernel) delta (lawOf (trajVol (n + 1) d) l) t i lag) := by
  have hm : Measurable fun x : Traj (n + 1) d => x t i := by fun_prop
  obtain ⟨Γ, hΓ, hconv⟩ := h.lag lag
  obtain ⟨e1, e2⟩ := hΓ.integral h.keeps hm
  obtain ⟨i1, i2⟩ := hΓ.integrable h.keeps hm hi
  have c1 := hconv (fun p => p.1 t i * p.2 t i) (by fun_prop) (hΓ.mul_integrable h.keeps hm hi2)
  have c2 := hconv (fun p => p.1 t i) (by fun_prop) i1
  have c3 := hconv (fun p => p.2 t i) (by fun_prop) i2
  have c4 := h.mean hm hi
  rw [e1] at c2
  rw [e2] at c3
  rw [autoCov_eq hΓ h.keeps hi hi2]
  obtain ⟨X, hXd⟩ : ∃ X : Bool × Bool → ∀ n_samples, Run (strideLen n_samples 1) (n + 1) d → ℝ, X = fun c n_samples r => match c with
    | (true, true) => sampleMean (fun p => p.1 t i * p.2 t i) (lagPairs lag r)
    | (true, false) => sampleMean (fun p => p.1 t i) (lagPairs lag r)
    | (false, true) => sampleMean (fun p => p.2 t i) (lagPairs lag r)
    | (false, false) => sampleMean (fun x => x t i) r.1 := ⟨_, rfl⟩
  obtain ⟨x, hxd⟩ : ∃ x : Bool × Bool → ℝ, x = fun c => match c with
    | (true, true) => ∫ p, p.1 t i * p.2 t i ∂Γ
    | (true, false) => ∫ x, x t i ∂lawOf (trajVol (n + 1) d) l
    | (false, true) => ∫ x, x t i ∂lawOf (trajVol (n + 1) d) l
    | (false, false) => ∫ x, x t i ∂lawOf (trajVol (n + 1) d) l := ⟨_, rfl⟩
  have hX : ∀ c n_samples, Measurable (X c n_samples) := by
    rw [hXd]
    rintro ⟨_ | _, _ | _⟩ n_samples <;> dsimp only <;> unfold sampleMean <;> (try unfold lagPairs) <;> fun_prop
  have hconv' : ∀ c, RunConv (csmcSv adapt kernel) delta (lawOf (trajVol (n + 1) d) l) (X c) (x c) := by
    rw [hXd, hxd]
    rintro ⟨_ | _, _ | _⟩
    exacts [c4, c3, c2, c1]
  have hgc : Continuous fun v : Bool × Bool → ℝ => v (true, true) - v (false, false) * (v (true, false) + v (false, true)) + v (false, false) ^ 2 := by fun_prop
  have key := RunConv.comp h.chains hX hconv' hgc.measurable hgc.continuousAt
  have ex : x (true, true) - x (false, false) * (x (true, false) + x (false, true)) + x (false, false) ^ 2 =
      ∫ p, p.1 t i * p.2 t i ∂Γ - (∫ x, x t i ∂lawOf (trajVol (n + 1) d) l) ^ 2 := by
    rw [hxd]
    ring
  rw [ex] at key
  refine key.congr (n1 := lag + 1) fun n_samples hn r => ?_
  obtain ⟨L, rfl⟩ : ∃ L, n_samples = L + 1 := ⟨n_samples - 1, by omega⟩
  have hs : strideLen (L + 1) 1 = L + 1 := by simp [strideLen]
  have es : ∀ j (hj : j < L + 1), series r t i L ⟨j, hj⟩ = r.1 ⟨j, hj.trans_eq hs.symm⟩ t i := fun j hj => dif_pos (hj.trans_eq hs.symm)
  refine (tfp_auto_cov_eq (series r t i L) (by omega)).trans ?_
  rw [hXd]
  simp only [es]
  have em : meanA (series r t i L) = sampleMean (fun x => x t i) r.1 := by
    have e1 := sum_stride (L := L + 1) fun j => if h : j < strideLen (L + 1) 1 then r.1 ⟨j, h⟩ t i else 0
    have e2 : ∑ k : Fin (strideLen (L + 1) 1), (if h : (k : ℕ) < strideLen (L + 1) 1 then r.1 ⟨k, h⟩ t i else 0) = ∑ k, r.1 k t i :=
      Finset.sum_congr rfl fun k _ => dif_pos k.2
    rw [e2, Finset.sum_range] at e1
    have e3 : ((strideLen (L + 1) 1 : ℕ) : ℝ) = (L + 1 : ℕ) := congrArg Nat.cast hs
    unfold meanA sampleMean
    rw [e1, e3]
    rfl
  rw [em]
  rfl

/-- Auto-correlations. -/
theorem corr (lag : ℕ) {t : Fin (n + 1)} {i : Fin d} (hi : Integrable (fun x => x t i) (lawOf (trajVol (n + 1) d) l))
    (hi2 : Integrable (fun x => x t i ^ 2) (lawOf (trajVol (n + 1) d) l))
    (hv : ∫ x, (x t i - ∫ x, x t i ∂lawOf (trajVol (n + 1) d) l) ^ 2 ∂lawOf (trajVol (n + 1) d) l ≠ 0) :
    RunConv (csmcSv adapt kernel) delta (lawOf (trajVol (n + 1) d) l) (fun n_samples r => tfp_auto_corr (series r t i (n_samples - 1)) lag)
      (autoCorr (csmcSv adapt kernel) delta (lawOf (trajVol (n + 1) d) l) t i lag) := by
  obtain ⟨Γ, hΓ, _⟩ := h.lag 0
  have c0 := h.cov 0 hi hi2
  have c1 := h.cov lag hi hi2
  rw [autoCov_zero hΓ h.keeps] at c0
  have hm : ∀ n_samples lag', Measurable fun r : Run (strideLen n_samples 1) (n + 1) d => tfp_auto_cov (series r t i (n_samples - 1)) lag' :=
    fun n_samples lag' => (measurable_tfp_auto_cov lag').comp (measurable_pi_lambda _ fun j => measurable_series t i _ j)
  have hgc : ContinuousAt (fun v : Bool → ℝ => v true / v false) (fun c => bif c then autoCov (csmcSv adapt kernel) delta (lawOf (trajVol (n + 1) d) l) t i lag
      else ∫ x, (x t i - ∫ x, x t i ∂lawOf (trajVol (n + 1) d) l) ^ 2 ∂lawOf (trajVol (n + 1) d) l) :=
    ContinuousAt.div (continuous_apply true).continuousAt (continuous_apply false).continuousAt hv
  exact RunConv.comp h.chains (ι := Bool)
    (X := fun c n_samples r => bif c then tfp_auto_cov (series r t i (n_samples - 1)) lag else tfp_auto_cov (series r t i (n_samples - 1)) 0)
    (fun c n_samples => by cases c <;> exact hm _ _) (fun c => by cases c; exacts [c0, c1]) (by fun_prop) hgc

end ConvOK

end conv

end Verif
