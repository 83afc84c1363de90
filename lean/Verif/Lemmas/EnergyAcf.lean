import Verif.Lemmas.LagAverages
import Verif.Spec.EnergyAcf

/-!
# Auto-covariances of a function of the samples along a run
-/

open scoped ENNReal
open MeasureTheory ProbabilityTheory

namespace Verif
open Verif.Model Verif.Spec Verif.Props

section laws

variable {T d : ℕ} {K : SvKernel Ex T d} {delta : StepSize T} {π : Measure (Traj T d)} {lag : ℕ} {Γ : Measure (Traj T d × Traj T d)}

/-- The auto-covariance in terms of moments. -/
theorem autoCovOf_eq (h : IsLagLaw K delta π lag Γ) (hkeep : KeepsLaw 0 π K delta) {f : Traj T d → ℝ} (hm : Measurable f)
    (hi : Integrable (fun x => f x) π) (hi2 : Integrable (fun x => f x ^ 2) π) :
    autoCovOf K delta π f lag = ∫ p, f p.1 * f p.2 ∂Γ - (∫ x, f x ∂π) ^ 2 := by
  have := h.prob
  unfold autoCovOf
  rw [h.eq]
  obtain ⟨μ, hμ⟩ : ∃ μ, μ = ∫ x, f x ∂π := ⟨_, rfl⟩
  rw [← hμ]
  have e : ∀ p : Traj T d × Traj T d, (f p.1 - μ) * (f p.2 - μ) = f p.1 * f p.2 - (μ * f p.1 + μ * f p.2 - μ ^ 2) := fun p => by ring
  simp only [e]
  obtain ⟨i1, i2⟩ := h.integrable hkeep hm hi
  obtain ⟨e1, e2⟩ := h.integral hkeep hm
  have i3 : Integrable (fun p : Traj T d × Traj T d => μ * f p.1 + μ * f p.2) Γ := (i1.const_mul μ).add (i2.const_mul μ)
  have i4 : Integrable (fun p : Traj T d × Traj T d => μ * f p.1 + μ * f p.2 - μ ^ 2) Γ := i3.sub (integrable_const _)
  rw [integral_sub (h.mul_integrable hkeep hm hi2) i4, integral_sub i3 (integrable_const _),
    integral_add (i1.const_mul μ) (i2.const_mul μ), integral_const_mul, integral_const_mul, e1, e2, ← hμ]
  simp
  ring

/-- The auto-covariance at lag zero is the variance. -/
theorem autoCovOf_zero {Γ : Measure (Traj T d × Traj T d)} (h : IsLagLaw K delta π 0 Γ) (hkeep : KeepsLaw 0 π K delta) {f : Traj T d → ℝ} (hf : Measurable f) :
    autoCovOf K delta π f 0 = ∫ x, (f x - ∫ x, f x ∂π) ^ 2 ∂π := by
  unfold autoCovOf
  have hm : Measurable fun x : Traj T d => (x, x) := by fun_prop
  have hm' : Measurable fun p : Traj T d × Traj T d => (f p.1 - ∫ x, f x ∂π) * (f p.2 - ∫ x, f x ∂π) := by fun_prop
  rw [h.eq, h.diag hkeep, integral_map hm.aemeasurable hm'.aestronglyMeasurable]
  simp only [sq]

end laws

/-- A number computed from every sample of a run. -/
def seriesOf {T d k : ℕ} (f : Traj T d → ℝ) (r : Run k T d) (L : ℕ) (l : Fin (L + 1)) : ℝ := if h : (l : ℕ) < k then f (r.1 ⟨l, h⟩) else 0

theorem measurable_seriesOf {T d k : ℕ} {f : Traj T d → ℝ} (hf : Measurable f) (L : ℕ) (l : Fin (L + 1)) : Measurable fun r : Run k T d => seriesOf f r L l := by
  unfold seriesOf
  split_ifs <;> fun_prop

theorem meanA_seriesOf {T d L : ℕ} (f : Traj T d → ℝ) (r : Run (strideLen (L + 1) 1) T d) : meanA (seriesOf f r L) = sampleMean f r.1 := by
  have hs : strideLen (L + 1) 1 = L + 1 := by simp [strideLen]
  have e1 := sum_stride (L := L + 1) fun j => if h : j < strideLen (L + 1) 1 then f (r.1 ⟨j, h⟩) else 0
  have e2 : ∑ k : Fin (strideLen (L + 1) 1), (if h : (k : ℕ) < strideLen (L + 1) 1 then f (r.1 ⟨k, h⟩) else 0) = ∑ k, f (r.1 k) :=
    Finset.sum_congr rfl fun k _ => dif_pos k.2
  rw [e2, Finset.sum_range] at e1
  have e3 : ((strideLen (L + 1) 1 : ℕ) : ℝ) = (L + 1 : ℕ) := congrArg Nat.cast hs
  unfold meanA sampleMean
  rw [e1, e3]
  rfl

section conv

variable {N n d : ℕ} {adapt : Key → (Fin (n + 1) → Vec d) → (Fin (n + 1) → Fin (N + 1)) →
      (Key → (Fin (n + 1) → Vec d) × (Fin (n + 1) → Fin (N + 1)) → (Fin (n + 1) → ℝ) →
        Ex ((Fin (n + 1) → Vec d) × (Fin (n + 1) → Fin (N + 1)))) → AdaptCfg → ℕ → (Fin (n + 1) → ℝ) → ℕ →
      Ex (((Fin (n + 1) → Vec d) × (Fin (n + 1) → Fin (N + 1))) × (Fin (n + 1) → ℝ))}
  {kernel : Key → (Fin (n + 1) → Vec d) → (Fin (n + 1) → Fin (N + 1)) → (Fin (n + 1) → ℝ) →
      Ex ((Fin (n + 1) → Vec d) × (Fin (n + 1) → Fin (N + 1)))} {delta : StepSize (n + 1)} {l : (Fin (n + 1) → Vec d) → ℝ}

namespace ConvOK

variable (h : ConvOK adapt kernel delta l)
include h

/-- Auto-covariances. -/
theorem covOf (lag : ℕ) {f : Traj (n + 1) d → ℝ} (hm : Measurable f) (hi : Integrable (fun x => f x) (lawOf (trajVol (n + 1) d) l))
    (hi2 : Integrable (fun x => f x ^ 2) (lawOf (trajVol (n + 1) d) l)) :
    RunConv (csmcSv adapt kernel) delta (lawOf (trajVol (n + 1) d) l) (fun n_samples r => tfp_auto_cov (seriesOf f r (n_samples - 1)) lag)
      (autoCovOf (csmcSv adapt kernel) delta (lawOf (trajVol (n + 1) d) l) f lag) := by
  obtain ⟨Γ, hΓ, hconv⟩ := h.lag lag
  obtain ⟨e1, e2⟩ := hΓ.integral h.keeps hm
  obtain ⟨i1, i2⟩ := hΓ.integrable h.keeps hm hi
  have c1 := hconv (fun p => f p.1 * f p.2) (by fun_prop) (hΓ.mul_integrable h.keeps hm hi2)
  have c2 := hconv (fun p => f p.1) (by fun_prop) i1
  have c3 := hconv (fun p => f p.2) (by fun_prop) i2
  have c4 := h.mean hm hi
  rw [e1] at c2
  rw [e2] at c3
  rw [autoCovOf_eq hΓ h.keeps hm hi hi2]
  obtain ⟨X, hXd⟩ : ∃ X : Bool × Bool → ∀ n_samples, Run (strideLen n_samples 1) (n + 1) d → ℝ, X = fun c n_samples r => match c with
    | (true, true) => sampleMean (fun p => f p.1 * f p.2) (lagPairs lag r)
    | (true, false) => sampleMean (fun p => f p.1) (lagPairs lag r)
    | (false, true) => sampleMean (fun p => f p.2) (lagPairs lag r)
    | (false, false) => sampleMean (fun x => f x) r.1 := ⟨_, rfl⟩
  obtain ⟨x, hxd⟩ : ∃ x : Bool × Bool → ℝ, x = fun c => match c with
    | (true, true) => ∫ p, f p.1 * f p.2 ∂Γ
    | (true, false) => ∫ x, f x ∂lawOf (trajVol (n + 1) d) l
    | (false, true) => ∫ x, f x ∂lawOf (trajVol (n + 1) d) l
    | (false, false) => ∫ x, f x ∂lawOf (trajVol (n + 1) d) l := ⟨_, rfl⟩
  have hX : ∀ c n_samples, Measurable (X c n_samples) := by
    rw [hXd]
    rintro ⟨_ | _, _ | _⟩ n_samples <;> dsimp only <;> unfold sampleMean <;> (try unfold lagPairs) <;> fun_prop
  have hconv' : ∀ c, RunConv (csmcSv adapt kernel) delta (lawOf (trajVol (n + 1) d) l) (X c) (x c) := by
    rw [hXd, hxd]
    rintro ⟨_ | _, _ | _⟩
    exacts [c4, c3, c2, c1]
  have hgc : Continuous fun v : Bool × Bool → ℝ => v (true, true) - v (false, false) * (v (true, false) + v (false, true)) + v (false, false) ^ 2 := by fun_prop
  have key := RunConv.comp h.chains hX hconv' hgc.measurable hgc.continuousAt
  have ex : x (true, true) - x (false, false) * (x (true, false) + x (false, true)) + x (false, false) ^ 2 =
      ∫ p, f p.1 * f p.2 ∂Γ - (∫ x, f x ∂lawOf (trajVol (n + 1) d) l) ^ 2 := by
    rw [hxd]
    ring
  rw [ex] at key
  refine key.congr (n1 := lag + 1) fun n_samples hn r => ?_
  obtain ⟨L, rfl⟩ : ∃ L, n_samples = L + 1 := ⟨n_samples - 1, by omega⟩
  have hs : strideLen (L + 1) 1 = L + 1 := by simp [strideLen]
  have es : ∀ j (hj : j < L + 1), seriesOf f r L ⟨j, hj⟩ = f (r.1 ⟨j, hj.trans_eq hs.symm⟩) := fun j hj => dif_pos (hj.trans_eq hs.symm)
  refine (tfp_auto_cov_eq (seriesOf f r L) (by omega)).trans ?_
  rw [hXd]
  simp only [es]
  rw [meanA_seriesOf f r]
  rfl


end ConvOK

end conv

/-- If the means, variances and auto-covariances of all chains are near the same numbers, then the estimate that pools the chains is near
their quotient. -/
theorem cross_near {M : ℕ} (hM : M ≠ 0) {v : ℝ} (hv : v ≠ 0) (c μ : ℝ) {η : ℝ} (hη : 0 < η) :
    ∃ ξ, 0 < ξ ∧ ∀ (L lag : ℕ) (s : Fin (L + 1) → Fin M → ℝ), (∀ j, |tfp_auto_cov (fun k => s k j) 0 - v| ≤ ξ) →
      (∀ j, |tfp_auto_cov (fun k => s k j) lag - c| ≤ ξ) → (∀ j, |meanA (fun k => s k j) - μ| ≤ ξ) →
      |cross_chains_autocorr s lag - c / v| ≤ η := by
  have hMr : (M : ℝ) ≠ 0 := Nat.cast_ne_zero.mpr hM
  have hmean : ∀ a : ℝ, meanA (fun _ : Fin M => a) = a := fun a => by
    unfold meanA
    rw [Finset.sum_const, Finset.card_univ, Fintype.card_fin, nsmul_eq_mul]
    field_simp
  have hvar : tfp_variance (fun _ : Fin M => μ) = 0 := by
    unfold tfp_variance
    simp [hmean]
  obtain ⟨g, hg⟩ : ∃ g : (Fin M → ℝ) × (Fin M → ℝ) × (Fin M → ℝ) → ℝ, g = fun p => 1 - (meanA p.1 - meanA p.2.1) / (meanA p.1 + tfp_variance p.2.2) := ⟨_, rfl⟩
  have hx : g (fun _ => v, fun _ => c, fun _ => μ) = c / v := by
    rw [hg]
    simp only [hmean, hvar, add_zero]
    field_simp
    ring
  have hgc : ContinuousAt g (fun _ => v, fun _ => c, fun _ => μ) := by
    rw [hg]
    have h1 : Continuous fun p : (Fin M → ℝ) × (Fin M → ℝ) × (Fin M → ℝ) => meanA p.1 := by unfold meanA; fun_prop
    have h2 : Continuous fun p : (Fin M → ℝ) × (Fin M → ℝ) × (Fin M → ℝ) => meanA p.2.1 := by unfold meanA; fun_prop
    have h3 : Continuous fun p : (Fin M → ℝ) × (Fin M → ℝ) × (Fin M → ℝ) => tfp_variance p.2.2 := by unfold tfp_variance meanA; fun_prop
    refine continuousAt_const.sub (ContinuousAt.div (h1.sub h2).continuousAt (h1.add h3).continuousAt ?_)
    simp only [hmean, hvar, add_zero]
    exact hv
  obtain ⟨ξ, hξ, h⟩ := Metric.continuousAt_iff.mp hgc η hη
  refine ⟨ξ / 2, half_pos hξ, fun L lag s h0 h1 h2 => ?_⟩
  have key := h (x := (fun j => tfp_auto_cov (fun k => s k j) 0, fun j => tfp_auto_cov (fun k => s k j) lag, fun j => meanA fun k => s k j)) <| by
    have hp : ∀ a b : Fin M → ℝ, (∀ j, |a j - b j| ≤ ξ / 2) → dist a b < ξ := fun a b hab =>
      lt_of_le_of_lt ((dist_pi_le_iff (half_pos hξ).le).mpr hab) (half_lt_self hξ)
    simp only [Prod.dist_eq, max_lt_iff]
    exact ⟨hp _ _ h0, hp _ _ h1, hp _ _ h2⟩
  rw [hx, Real.dist_eq, hg] at key
  exact key.le

end Verif
