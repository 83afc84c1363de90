import Verif.Lemmas.Adapted
import Verif.Lemmas.ConsistentRuns
import Mathlib.MeasureTheory.Function.SimpleFuncDenseLp

/-!
# Averages of integrable functions along a run, from any start with a density
-/

open scoped ENNReal
open MeasureTheory ProbabilityTheory

namespace Verif
open Verif.Model Verif.Spec Verif.Props

variable {N n d T : ℕ}

/-- The last sample of a run is the state the run ends in. -/
theorem csmcSv_last {adapt} {kernel : Key → (Fin (n + 1) → Vec d) → (Fin (n + 1) → Fin (N + 1)) → (Fin (n + 1) → ℝ) →
      Ex ((Fin (n + 1) → Vec d) × (Fin (n + 1) → Fin (N + 1)))} {delta : StepSize (n + 1)} {l : (Fin (n + 1) → Vec d) → ℝ}
    (h : CsmcOK 0 l fun key x b => kernel key x b delta.at) (hl : Measurable l)
    (hZ : ∫⁻ x, ENNReal.ofReal (Real.exp (l x)) ∂trajVol (n + 1) d ≠ 0 ∧
      ∫⁻ x, ENNReal.ofReal (Real.exp (l x)) ∂trajVol (n + 1) d ≠ ∞) (key : Key) (b : ℕ) {f : Traj (n + 1) d → ℝ≥0∞}
    (hf : Measurable f) (hf1 : ∀ x, f x ≤ 1) :
    ∫⁻ x, (csmcSv adapt kernel).experiment_last key ((csmcSv adapt kernel).init x) (fun k s => (csmcSv adapt kernel).kernel k s delta) b f
      ∂lawOf (trajVol (n + 1) d) l = ∫⁻ x, f x ∂lawOf (trajVol (n + 1) d) l := by
  have e : ∀ x, (csmcSv adapt kernel).experiment_last key ((csmcSv adapt kernel).init x)
      (fun k s => (csmcSv adapt kernel).kernel k s delta) b f =
      chain (fun key (s : (Fin (n + 1) → Vec d) × (Fin (n + 1) → Fin (N + 1))) => kernel key s.1 s.2 delta.at) (x, fun _ => 0)
        (splitKey key b) fun tr => f (tr (Fin.last b)).1 := fun x =>
    congrFun (C49_sampling_last (m := Ex) key x (fun _ => 0) (fun key s => kernel key s.1 s.2 delta.at) b) fun s => f s.1
  simp only [e]
  cases b with
  | zero => rfl
  | succ b =>
    have h1 := csmcSv_keeps (adapt := adapt) h hl hZ key (b + 1) ⟨b, by simp [strideLen]⟩ f hf hf1
    have e' : ∀ x, (csmcSv adapt kernel).experiment_all key ((csmcSv adapt kernel).init x)
        (fun k s => (csmcSv adapt kernel).kernel k s delta) (b + 1) (fun r => f (r.1 ⟨b, by simp [strideLen]⟩)) =
        chain (fun key (s : (Fin (n + 1) → Vec d) × (Fin (n + 1) → Fin (N + 1))) => kernel key s.1 s.2 delta.at) (x, fun _ => 0)
          (splitKey key (b + 1)) fun tr => f (tr (Fin.last (b + 1))).1 := fun x => by
      refine (congrFun (C49_sampling (m := Ex) key x (fun _ => 0) (fun key s => kernel key s.1 s.2 delta.at) (b + 1) 1) _).trans ?_
      refine Ex.congr_fun' (chain (fun key (s : (Fin (n + 1) → Vec d) × (Fin (n + 1) → Fin (N + 1))) => kernel key s.1 s.2 delta.at) (x, fun _ => 0)
        (splitKey key (b + 1))) fun tr => ?_
      show f (tr ⟨b * 1 + 1, _⟩).1 = _
      exact congrArg (fun i => f (tr i).1) (Fin.ext (by simp))
    simp only [e', mul_zero, add_zero] at h1
    exact le_antisymm h1.1 h1.2

/-- Averages over what is read off a run converge in probability, whatever is dropped at the start: if everything that is read off a
stationary run has the same law, and the averages of bounded functions converge along stationary runs. -/
theorem read_average {Z : Type} [MeasurableSpace Z] {K : SvKernel Ex T d} {delta : StepSize T} {π : Measure (Traj T d)} [IsProbabilityMeasure π]
    (hC : ChainsOK K delta fun _ => True)
    (hlast : ∀ key b f, Measurable f → (∀ x, f x ≤ 1) →
      ∫⁻ x, K.experiment_last key (K.init x) (fun k s => K.kernel k s delta) b f ∂π = ∫⁻ x, f x ∂π)
    {m : ℕ → ℕ} {n1 : ℕ} (hm1 : ∀ n_samples, n1 ≤ n_samples → m n_samples ≠ 0)
    (read : ∀ n_samples, Run (strideLen n_samples 1) T d → Fin (m n_samples) → Z) (hread : ∀ n_samples k, Measurable fun r => read n_samples r k)
    {σ : Measure Z} [IsProbabilityMeasure σ]
    (hkeep : ∀ key n_samples k (u : Z → ℝ≥0∞), Measurable u →
      ∫⁻ x, K.experiment_all key (K.init x) (fun k s => K.kernel k s delta) n_samples (fun r => u (read n_samples (runOf K r) k)) ∂π = ∫⁻ z, u z ∂σ)
    (hav : ∀ f : Z → ℝ, Measurable f → (∃ C, ∀ x, |f x| ≤ C) → ∀ δ : ℝ≥0∞, δ ≠ 0 →
      ∃ M0 : ℕ, ∀ (key : Key) (n_steps : ℕ), M0 ≤ n_steps →
        ∫⁻ x, K.experiment_all key (K.init x) (fun k s => K.kernel k s delta) n_steps
          (fun r => ENNReal.ofReal ((sampleMean f (read n_steps (runOf K r)) - ∫ x, f x ∂σ) ^ 2)) ∂π ≤ δ)
    {f : Z → ℝ} (hf : Measurable f) (hi : Integrable f σ) {ν : Measure (Traj T d)} [IsProbabilityMeasure ν] (hν : ν ≪ π)
    {η : ℝ} (hη : 0 < η) {ε : ℝ≥0∞} (hε : ε ≠ 0) :
    ∃ n0 : ℕ, ∀ (key : Key) (b n_samples : ℕ), n0 ≤ n_samples →
      ∫⁻ x, K.experiment_all key (K.init x) (fun k s => K.kernel k s delta) (n_samples + b)
        (fun r => Set.indicator {r : Run (strideLen n_samples 1) T d | η < |sampleMean f (read n_samples r) - ∫ x, f x ∂σ|} 1 ((runOf K r).drop b)) ∂ν ≤ ε := by
  obtain ⟨C, ρ, hρ, hC1, hCt, hρπ, htv⟩ := near_bounded (π := π) hν (δ := ε / 2) (ENNReal.half_pos hε).ne'
  obtain ⟨δ, hδ0, hδ⟩ : ∃ δ : ℝ≥0∞, δ ≠ 0 ∧ C * (δ + δ) ≤ ε / 2 := by
    refine ⟨ε / 2 / (C * 2), (ENNReal.div_pos (ENNReal.half_pos hε).ne' (ENNReal.mul_ne_top hCt (by simp))).ne', ?_⟩
    rw [← two_mul, ← mul_assoc, mul_comm]
    exact ENNReal.mul_le_of_le_div le_rfl
  obtain ⟨τ, hτ⟩ : ∃ τ, τ = min (ENNReal.ofReal (η / 3)) (ENNReal.ofReal (η / 3) * δ) := ⟨_, rfl⟩
  have hc0 : 0 < ENNReal.ofReal (η / 3) := ENNReal.ofReal_pos.mpr (by positivity)
  have hτ0 : τ ≠ 0 := by
    rw [hτ]
    exact (lt_min hc0 (pos_iff_ne_zero.mpr (mul_ne_zero hc0.ne' hδ0))).ne'
  obtain ⟨g, hg, hgL⟩ := (memLp_one_iff_integrable.mpr hi).exists_simpleFunc_eLpNorm_sub_lt (by simp) hτ0
  rw [eLpNorm_one_eq_lintegral_enorm] at hg
  have hgm : Measurable g := g.measurable
  have hgi : Integrable g σ := memLp_one_iff_integrable.mp hgL
  have hdist : |∫ x, f x ∂σ - ∫ x, g x ∂σ| ≤ η / 3 := by
    rw [← integral_sub hi hgi]
    refine (Real.norm_eq_abs _ ▸ norm_integral_le_lintegral_norm _).trans ?_
    refine ENNReal.toReal_le_of_le_ofReal (by positivity) ?_
    refine le_trans (le_of_eq ?_) (hg.le.trans (hτ ▸ min_le_left _ _))
    exact lintegral_congr fun x => by rw [ofReal_norm]; rfl
  obtain ⟨Cg, hCg⟩ := g.exists_forall_norm_le
  obtain ⟨M0, hM0⟩ := hav g hgm ⟨Cg, fun x => Real.norm_eq_abs (g x) ▸ hCg x⟩ (ENNReal.ofReal ((η / 3) ^ 2) * δ)
    (mul_ne_zero (ENNReal.ofReal_pos.mpr (by positivity)).ne' hδ0)
  refine ⟨max n1 M0, fun key b n_samples hn => ?_⟩
  have hn1 : m n_samples ≠ 0 := hm1 _ ((le_max_left _ _).trans hn)
  obtain ⟨E, hE⟩ : ∃ E : Run (strideLen n_samples 1) T d → ℝ≥0∞,
    E = Set.indicator {r : Run (strideLen n_samples 1) T d | η < |sampleMean f (read n_samples r) - ∫ x, f x ∂σ|} 1 := ⟨_, rfl⟩
  have hS : ∀ {u : Z → ℝ}, Measurable u → Measurable fun r : Run (strideLen n_samples 1) T d => sampleMean u (read n_samples r) := fun hu => by
    unfold sampleMean
    have := hread n_samples
    fun_prop
  have hEm : Measurable E := by
    rw [hE]
    refine measurable_one.indicator (measurableSet_lt measurable_const ?_)
    have := hS hf
    fun_prop
  have hE1 : ∀ r, E r ≤ 1 := fun r => hE ▸ Set.indicator_le_self' (fun _ _ => zero_le_one) r
  rw [← hE]
  obtain ⟨Γ, hΓ⟩ : ∃ Γ : Measure (Run (strideLen n_samples 1) T d), ∀ F : _ → ℝ≥0∞, Measurable F →
      ∫⁻ x, K.experiment_all key (K.init x) (fun k s => K.kernel k s delta) n_samples (fun r => F (runOf K r)) ∂π = ∫⁻ r, F r ∂Γ := by
    obtain ⟨κ, _, hκ⟩ := hC.ker key n_samples
    refine ⟨π.bind κ, fun F hF => ?_⟩
    rw [Measure.lintegral_bind κ.measurable.aemeasurable hF.aemeasurable]
    exact lintegral_congr fun x => hκ x F hF
  have hmarg : ∀ k (u : Z → ℝ≥0∞), Measurable u → ∫⁻ r, u (read n_samples r k) ∂Γ = ∫⁻ x, u x ∂σ := fun k u hu => by
    rw [← hΓ (fun r => u (read n_samples r k)) (hu.comp (hread n_samples k))]
    exact hkeep key n_samples k u hu
  -- from the start with the bounded density, and from the target
  obtain ⟨κ, _, hκ⟩ := hC.ker key (n_samples + b)
  have hDm : Measurable fun r : Run (strideLen (n_samples + b) 1) T d => E (r.drop b) := hEm.comp (f := fun r : Run (strideLen (n_samples + b) 1) T d => r.drop b) (measurable_drop b)
  have hP : ∀ x, K.experiment_all key (K.init x) (fun k s => K.kernel k s delta) (n_samples + b) (fun r => E ((runOf K r).drop b)) =
      ∫⁻ r, E (r.drop b) ∂κ x := fun x => hκ x _ hDm
  have hκ1 : ∀ x, κ x Set.univ = 1 := fun x => by
    rw [← lintegral_one, ← hκ x (fun _ => 1) measurable_const]
    exact hC.mass key (n_samples + b) x
  have hPm : Measurable fun x => ∫⁻ r, E (r.drop b) ∂κ x := hDm.lintegral_kernel
  have hP1 : ∀ x, ∫⁻ r, E (r.drop b) ∂κ x ≤ 1 := fun x =>
    (lintegral_mono fun r => hE1 _).trans (by rw [lintegral_one, hκ1])
  have hstart : ∫⁻ x, ∫⁻ r, E (r.drop b) ∂κ x ∂ν ≤ C * ∫⁻ x, ∫⁻ r, E (r.drop b) ∂κ x ∂π + ε / 2 := by
    refine (htv _ hPm hP1).1.trans ?_
    refine add_le_add ?_ le_rfl
    exact (lintegral_mono' hρπ le_rfl).trans (le_of_eq (lintegral_smul_measure _ _))
  have hstat : ∫⁻ x, ∫⁻ r, E (r.drop b) ∂κ x ∂π = ∫⁻ r, E r ∂Γ := by
    rw [← hΓ E hEm]
    have hm : Measurable fun x => K.experiment_all key (K.init x) (fun k s => K.kernel k s delta) n_samples (fun r => E (runOf K r)) :=
      (hC.ker key n_samples).measurable' hEm
    rw [← hlast key b _ hm fun x => ?_]
    · exact lintegral_congr fun x => (hP x).symm.trans (hC.restart (K.init x) trivial b n_samples key key key E hEm).symm
    · obtain ⟨κ', _, hκ'⟩ := hC.ker key n_samples
      have h1 : κ' x Set.univ = 1 := by
        rw [← lintegral_one, ← hκ' x (fun _ => 1) measurable_const]
        exact hC.mass key n_samples x
      refine (le_of_eq (hκ' x E hEm)).trans ((lintegral_mono hE1).trans ?_)
      rw [lintegral_one, h1]
  -- the averages of the bounded approximation and of the error
  have hpos : (0 : ℝ) < (m n_samples : ℕ) := by exact_mod_cast Nat.pos_of_ne_zero hn1
  have hA : ∫⁻ r, ENNReal.ofReal |sampleMean f (read n_samples r) - sampleMean g (read n_samples r)| ∂Γ ≤ ENNReal.ofReal (η / 3) * δ := by
    have h1 : ∀ r : Run (strideLen n_samples 1) T d, ENNReal.ofReal |sampleMean f (read n_samples r) - sampleMean g (read n_samples r)| ≤
        (m n_samples : ℝ≥0∞)⁻¹ * ∑ k, ‖f (read n_samples r k) - g (read n_samples r k)‖ₑ := fun r => by
      rw [sampleMean, sampleMean, ← sub_div, ← Finset.sum_sub_distrib, abs_div, abs_of_pos hpos, div_eq_inv_mul,
        ENNReal.ofReal_mul (by positivity), ENNReal.ofReal_inv_of_pos hpos, ENNReal.ofReal_natCast]
      gcongr
      refine (ENNReal.ofReal_le_ofReal (Finset.abs_sum_le_sum_abs _ _)).trans ?_
      rw [ENNReal.ofReal_sum_of_nonneg fun _ _ => abs_nonneg _]
      exact Finset.sum_le_sum fun k _ => by rw [← Real.norm_eq_abs, ofReal_norm]
    refine (lintegral_mono h1).trans ?_
    have hu : Measurable fun x => ‖f x - g x‖ₑ := (hf.sub hgm).enorm
    have hk : ∀ k, Measurable fun r : Run (strideLen n_samples 1) T d => ‖f (read n_samples r k) - g (read n_samples r k)‖ₑ := fun k =>
      hu.comp (g := fun x => ‖f x - g x‖ₑ) (f := fun r : Run (strideLen n_samples 1) T d => read n_samples r k) (hread n_samples k)
    rw [lintegral_const_mul _ (Finset.measurable_sum _ fun k _ => hk k), lintegral_finsetSum _ fun k _ => hk k]
    simp only [fun k => hmarg k _ hu, Finset.sum_const, Finset.card_univ, Fintype.card_fin, nsmul_eq_mul]
    rw [← mul_assoc, ENNReal.inv_mul_cancel (by exact_mod_cast hn1) (ENNReal.natCast_ne_top _), one_mul]
    exact hg.le.trans (hτ ▸ min_le_right _ _)
  have hB : ∫⁻ r, ENNReal.ofReal ((sampleMean g (read n_samples r) - ∫ x, g x ∂σ) ^ 2) ∂Γ ≤ ENNReal.ofReal ((η / 3) ^ 2) * δ := by
    rw [← hΓ _ (((hS hgm).sub_const _).pow_const 2).ennreal_ofReal]
    exact hM0 key n_samples ((le_max_right _ _).trans hn)
  have hcheb : ∫⁻ r, E r ∂Γ ≤ δ + δ := by
    have hc1 : ENNReal.ofReal (η / 3) ≠ ∞ := ENNReal.ofReal_ne_top
    have hq0 : ENNReal.ofReal ((η / 3) ^ 2) ≠ 0 := (ENNReal.ofReal_pos.mpr (by positivity)).ne'
    have hq1 : ENNReal.ofReal ((η / 3) ^ 2) ≠ ∞ := ENNReal.ofReal_ne_top
    have h1 : ∀ r, E r ≤ (ENNReal.ofReal (η / 3))⁻¹ * ENNReal.ofReal |sampleMean f (read n_samples r) - sampleMean g (read n_samples r)| +
        (ENNReal.ofReal ((η / 3) ^ 2))⁻¹ * ENNReal.ofReal ((sampleMean g (read n_samples r) - ∫ x, g x ∂σ) ^ 2) := fun r => by
      rw [hE]
      by_cases hr : η < |sampleMean f (read n_samples r) - ∫ x, f x ∂σ|
      · rw [Set.indicator_of_mem (show r ∈ {r : Run (strideLen n_samples 1) T d | η < |sampleMean f (read n_samples r) - ∫ x, f x ∂σ|} from hr)]
        by_cases h2 : η / 3 ≤ |sampleMean f (read n_samples r) - sampleMean g (read n_samples r)|
        · refine le_trans ?_ le_self_add
          refine le_trans (le_of_eq (ENNReal.inv_mul_cancel hc0.ne' hc1).symm) ?_
          gcongr
        · have h3 : η / 3 ≤ |sampleMean g (read n_samples r) - ∫ x, g x ∂σ| := by
            have e : sampleMean f (read n_samples r) - ∫ x, f x ∂σ = (sampleMean f (read n_samples r) - sampleMean g (read n_samples r)) + (sampleMean g (read n_samples r) - ∫ x, g x ∂σ) -
              (∫ x, f x ∂σ - ∫ x, g x ∂σ) := by ring
            rw [e] at hr
            have := abs_sub ((sampleMean f (read n_samples r) - sampleMean g (read n_samples r)) + (sampleMean g (read n_samples r) - ∫ x, g x ∂σ)) (∫ x, f x ∂σ - ∫ x, g x ∂σ)
            have := abs_add_le (sampleMean f (read n_samples r) - sampleMean g (read n_samples r)) (sampleMean g (read n_samples r) - ∫ x, g x ∂σ)
            linarith
          refine le_trans ?_ le_add_self
          refine le_trans (le_of_eq (ENNReal.inv_mul_cancel hq0 hq1).symm) ?_
          rw [← sq_abs (sampleMean g (read n_samples r) - _)]
          gcongr
      · rw [Set.indicator_of_notMem (show r ∉ {r : Run (strideLen n_samples 1) T d | η < |sampleMean f (read n_samples r) - ∫ x, f x ∂σ|} from hr)]
        exact zero_le
    refine (lintegral_mono h1).trans ?_
    have hSf := hS hf
    have hSg := hS hgm
    rw [lintegral_add_left (by fun_prop), lintegral_const_mul _ (by fun_prop), lintegral_const_mul _ (by fun_prop)]
    refine add_le_add ((mul_le_mul_right hA _).trans ?_) ((mul_le_mul_right hB _).trans ?_)
    · rw [← mul_assoc, ENNReal.inv_mul_cancel hc0.ne' hc1, one_mul]
    · rw [← mul_assoc, ENNReal.inv_mul_cancel hq0 hq1, one_mul]
  simp only [hP]
  refine hstart.trans ?_
  rw [hstat]
  calc C * ∫⁻ r, E r ∂Γ + ε / 2 ≤ C * (δ + δ) + ε / 2 := by gcongr
    _ ≤ ε / 2 + ε / 2 := by gcongr
    _ = ε := ENNReal.add_halves ε

/-- The averages of an integrable function along the run converge in probability to its mean, whatever is dropped at the start. -/
theorem run_average {K : SvKernel Ex T d} {delta : StepSize T} {π : Measure (Traj T d)} [IsProbabilityMeasure π]
    (hC : ChainsOK K delta fun _ => True) (hkeep : KeepsLaw 0 π K delta)
    (hlast : ∀ key b f, Measurable f → (∀ x, f x ≤ 1) →
      ∫⁻ x, K.experiment_last key (K.init x) (fun k s => K.kernel k s delta) b f ∂π = ∫⁻ x, f x ∂π)
    (hav : ∀ f : Traj T d → ℝ, Measurable f → (∃ C, ∀ x, |f x| ≤ C) → ∀ δ : ℝ≥0∞, δ ≠ 0 →
      ∃ M0 : ℕ, ∀ (key : Key) (n_steps : ℕ), M0 ≤ n_steps →
        ∫⁻ x, K.experiment_all key (K.init x) (fun k s => K.kernel k s delta) n_steps
          (fun r => ENNReal.ofReal ((sampleMean f r.1 - ∫ x, f x ∂π) ^ 2)) ∂π ≤ δ)
    {f : Traj T d → ℝ} (hf : Measurable f) (hi : Integrable f π) {ν : Measure (Traj T d)} [IsProbabilityMeasure ν] (hν : ν ≪ π)
    {η : ℝ} (hη : 0 < η) {ε : ℝ≥0∞} (hε : ε ≠ 0) :
    ∃ n0 : ℕ, ∀ (key : Key) (b n_samples : ℕ), n0 ≤ n_samples →
      ∫⁻ x, K.experiment_all key (K.init x) (fun k s => K.kernel k s delta) (n_samples + b)
        (fun r => Set.indicator {r : Run (strideLen n_samples 1) T d | η < |sampleMean f r.1 - ∫ x, f x ∂π|} 1 ((runOf K r).drop b)) ∂ν ≤ ε := by
  have e : ∀ n_steps, strideLen n_steps 1 = n_steps := fun n_steps => by simp [strideLen]
  refine read_average hC hlast (m := fun n_samples => strideLen n_samples 1) (n1 := 1) (fun n_samples hn => by rw [e]; omega)
    (fun _ r => r.1) (fun _ k => by fun_prop) (σ := π) (fun key n_samples k u hu => ?_) hav hf hi hν hη hε
  obtain ⟨κ, _, hκ⟩ := hC.ker key n_samples
  have hk : Measurable fun r : Run (strideLen n_samples 1) T d => r.1 k := by fun_prop
  have h1 : ∀ u : Traj T d → ℝ≥0∞, Measurable u → ∫⁻ x, K.experiment_all key (K.init x) (fun k s => K.kernel k s delta) n_samples
      (fun r => u ((runOf K r).1 k)) ∂π = ∫⁻ z, u z ∂(π.bind κ).map fun r => r.1 k := fun u hu => by
    rw [lintegral_map hu hk, Measure.lintegral_bind (f := fun r : Run (strideLen n_samples 1) T d => u (r.1 k)) κ.measurable.aemeasurable
      (hu.comp hk).aemeasurable]
    exact lintegral_congr fun x => hκ x (fun r => u (r.1 k)) (hu.comp hk)
  have e : (π.bind κ).map (fun r => r.1 k) = π := by
    refine Measure.ext fun A hA => ?_
    rw [← lintegral_indicator_one hA, ← h1 _ (measurable_one.indicator hA), ← lintegral_indicator_one hA]
    have h2 := hkeep key n_samples k (A.indicator 1) (measurable_one.indicator hA) fun x =>
      Set.indicator_le_self' (fun _ _ => zero_le_one) x
    simp only [mul_zero, add_zero] at h2
    exact le_antisymm h2.1 h2.2
  rw [h1 u hu, e]

/-- Union bound along a run. -/
theorem run_union {K : SvKernel Ex T d} {delta : StepSize T} (hC : ChainsOK K delta fun _ => True) (ν : Measure (Traj T d)) {ι : Type} [Fintype ι]
    (key : Key) (b n_samples : ℕ) {E : Run (strideLen n_samples 1) T d → ℝ≥0∞} (Es : ι → Run (strideLen n_samples 1) T d → ℝ≥0∞)
    (hE : Measurable E) (hEs : ∀ i, Measurable (Es i)) (hle : ∀ r, E r ≤ ∑ i, Es i r) :
    ∫⁻ x, K.experiment_all key (K.init x) (fun k s => K.kernel k s delta) (n_samples + b) (fun r => E ((runOf K r).drop b)) ∂ν ≤
      ∑ i, ∫⁻ x, K.experiment_all key (K.init x) (fun k s => K.kernel k s delta) (n_samples + b) (fun r => Es i ((runOf K r).drop b)) ∂ν := by
  obtain ⟨κ, _, hκ⟩ := hC.ker key (n_samples + b)
  have hd := measurable_drop (k := n_samples) (T := T) (d := d) b
  have h1 : ∀ {F : Run (strideLen n_samples 1) T d → ℝ≥0∞}, Measurable F → ∀ x, K.experiment_all key (K.init x)
      (fun k s => K.kernel k s delta) (n_samples + b) (fun r => F ((runOf K r).drop b)) = ∫⁻ r, F (r.drop b) ∂κ x := fun hF x =>
    hκ x _ (hF.comp hd)
  have hm : ∀ i, Measurable fun r : Run (strideLen (n_samples + b) 1) T d => Es i (r.drop b) := fun i => (hEs i).comp hd
  simp only [h1 hE, fun i => h1 (hEs i)]
  rw [← lintegral_finsetSum _ fun i _ => (hm i).lintegral_kernel]
  refine lintegral_mono fun x => ?_
  rw [← lintegral_finsetSum _ fun i _ => hm i]
  exact lintegral_mono fun r => hle _

theorem meanA_sq {k : ℕ} (a : Fin k → ℝ) : (meanA fun i => (a i - meanA a) ^ 2) = (meanA fun i => a i ^ 2) - meanA a ^ 2 := by
  unfold meanA
  rcases Nat.eq_zero_or_pos k with rfl | hk
  · simp
  have hk : (k : ℝ) ≠ 0 := by exact_mod_cast hk.ne'
  simp only [sub_sq, Finset.sum_add_distrib, Finset.sum_sub_distrib, ← Finset.sum_mul, ← Finset.mul_sum, Finset.sum_const, Finset.card_univ,
    Fintype.card_fin, nsmul_eq_mul]
  field_simp
  ring

theorem abs_sqrt_le {v V η : ℝ} (hv : 0 ≤ v) (hV : 0 ≤ V) (hη : 0 ≤ η) (h : |v - V| ≤ η ^ 2) : |Real.sqrt v - Real.sqrt V| ≤ η := by
  have key : ∀ {v V : ℝ}, 0 ≤ V → v ≤ V + η ^ 2 → Real.sqrt v ≤ Real.sqrt V + η := fun {v V} hV h => by
    rw [Real.sqrt_le_iff]
    refine ⟨by positivity, ?_⟩
    nlinarith [Real.sq_sqrt hV, mul_nonneg hη (Real.sqrt_nonneg V)]
  rw [abs_le] at h ⊢
  have h1 := key hV (v := v) (by linarith)
  have h2 := key hv (v := V) (by linarith)
  constructor <;> linarith

end Verif
