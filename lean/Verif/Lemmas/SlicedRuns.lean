import Verif.Lemmas.ReversedRuns
import Verif.Props.Drivers
import Verif.Spec.Indices

/-!
# Stationary runs of conditional SMC without backward sampling
-/

open scoped ENNReal
open MeasureTheory Finset

namespace Verif
open Verif.Spec Verif.Model

variable {X : Type} [MeasurableSpace X] {N n : ℕ} {lam : Measure X} [SigmaFinite lam] {logpi : (Fin (n + 1) → X) → ℝ}

theorem targetMean_ker (hpi : Measurable logpi) : IsKer (fun _ : Unit => (targetMean (N := N) lam logpi)) := by
  refine IsKer.const (((Measure.pi fun _ => lam).withDensity fun x => ENNReal.ofReal (Real.exp (logpi x))).prod
    (Measure.count : Measure (Fin (n + 1) → Fin (N + 1)))) fun F hF => ?_
  rw [lintegral_prod_symm _ hF.aemeasurable, lintegral_count, tsum_fintype]
  refine sum_congr rfl fun b _ => ?_
  exact (lintegral_withDensity_eq_lintegral_mul _ (by fun_prop) (hF.comp (by fun_prop : Measurable fun x => (x, b)))).symm

omit [SigmaFinite lam] in
theorem targetMean_one : targetMean (N := N) lam logpi (fun _ => 1) = targetMass N lam logpi := by
  simp only [targetMean, targetMass, mul_one]

omit [SigmaFinite lam] in
/-- A stationary run of a kernel that is reversible for every key. -/
theorem runsReversible_of {kernel : Key → PathState X N n → Ex (PathState X N n)} (hk : ∀ key, IsKer (kernel key))
    (hrev : ∀ key, ReversibleFor lam logpi (fun x b => kernel key (x, b))) : RunsReversible lam logpi kernel :=
  fun _ keys _ hF => chain_reversed (I := targetMean lam logpi) hk (fun key H hH => hrev key H hH) keys hF

omit [SigmaFinite lam] in
/-- Conditional SMC with the Barker move and without backward sampling. -/
theorem Sliced.projective {K : AncestorMove Ex N → (Fin (n + 1) → X) → (Fin (n + 1) → Fin (N + 1)) → Ex (PathState X N n)}
    (h : Sliced lam logpi K false) {mv : AncestorMove Ex N} (hmv : ∀ key, MoveKer (moveIndex mv key))
    (hK : IsKer fun z : PathState X N n => K mv z.1 z.2)
    (hd : ∀ key (w : Fin (N + 1) → ℝ), IsProb w → ∀ k g, moveIndex mv key w k g = ∑ l, ENNReal.ofReal (w l) * g l) :
    Projective (targetMean lam logpi) (fun z : PathState X N n => K mv z.1 z.2) := by
  obtain ⟨Ω, mΩ, Φ, w, p, out, kk, h1, h2, h3, h4, h5, h6, h7, h8, h8', h9⟩ := h
  refine ⟨Ω, mΩ, Φ, fun f ω => ∑ k, ENNReal.ofReal (w ω k) * f (p ω k), h1, fun f hf => ?_, fun f g hf hg => ?_,
    fun f hf => h8' f hf, ?_, fun f hf => ?_⟩
  · exact Finset.measurable_fun_sum _ fun k _ => Measurable.mul
      (ENNReal.measurable_ofReal.comp ((measurable_pi_apply k).comp h2))
      (hf.comp (h3.comp (by fun_prop : Measurable fun ω : Ω => (ω, k))))
  · have e : targetMean lam logpi (fun s => f s * K mv s.1 s.2 g) =
        stationaryPair lam logpi (K mv) (fun z z' => f z * g z') := by
      refine sum_congr rfl fun b _ => lintegral_congr fun x => ?_
      rw [hK.const_mul (x, b) (f (x, b)) hg]
    rw [e, h9 mv hmv (fun z z' => f z * g z') ((hf.comp measurable_fst).mul (hg.comp measurable_snd))]
    congr 1
    funext ω
    simp only [hd kk (w ω) (h5 ω), h7 rfl]
    rw [sum_mul_sum]
    refine sum_congr rfl fun k _ => ?_
    rw [mul_sum]
    refine sum_congr rfl fun l _ => ?_
    show ENNReal.ofReal (w ω k) * (ENNReal.ofReal (w ω l) * (f (p ω k) * g (p ω l))) = _
    ring
  · rw [Sliced.mass_eq h5 h8', targetMean_one]
  · refine le_of_le_of_eq ?_ (h8' (fun z => f z * f z) (hf.mul hf))
    have hP : ∀ g : PathState X N n → ℝ≥0∞, Measurable g →
        Measurable fun ω => ∑ k, ENNReal.ofReal (w ω k) * g (p ω k) := fun g hg =>
      Finset.measurable_fun_sum _ fun k _ => Measurable.mul
        (ENNReal.measurable_ofReal.comp ((measurable_pi_apply k).comp h2))
        (hg.comp (h3.comp (by fun_prop : Measurable fun ω : Ω => (ω, k))))
    refine h1.mono () ((hP f hf).mul (hP f hf)) (hP (fun z => f z * f z) (hf.mul hf)) fun ω => ?_
    have hker : IsKer (fun _ : Unit => (fun g => ∑ k, ENNReal.ofReal (w ω k) * g k : Ex (Fin (N + 1)))) :=
      isKer_of_probs (c := fun _ => w ω) (fun _ => measurable_const) fun _ _ => rfl
    have hs : ∑ k, ENNReal.ofReal (w ω k) = 1 := by
      rw [← ENNReal.ofReal_sum_of_nonneg fun i _ => (h5 ω).nonneg i, (h5 ω).sum_one, ENNReal.ofReal_one]
    have := isKer_sq_le hker (g := fun k => f (p ω k)) (measurable_of_countable _)
    simp only [mul_one, hs, one_mul, pow_two] at this
    exact this

/-- Auto-covariances of stationary runs. -/
theorem positivelyCorrelated_of {kernel : Key → PathState X N n → Ex (PathState X N n)}
    (hpi : Measurable logpi) (hP : ∀ key, Projective (targetMean lam logpi) (kernel key)) (hk : ∀ key, IsKer (kernel key))
    (hm : ∀ key s, kernel key s (fun _ => 1) = 1)
    (hfree : ∀ key s f, Measurable f → kernel key s f = kernel [] s f)
    (hinv : ∀ key, LeavesInvariant lam logpi (fun x b => kernel key (x, b))) :
    PositivelyCorrelated lam logpi kernel := by
  have hI := targetMean_ker (N := N) (lam := lam) hpi
  have hinv' : ∀ f, Measurable f → targetMean lam logpi (fun s => kernel [] s f) = targetMean lam logpi f := fun f hf =>
    hinv [] f hf
  have pair : ∀ (f : PathState X N n → ℝ≥0∞), Measurable f → ∀ (m : ℕ) (keys : Fin m → Key),
      targetMean lam logpi (fun s => chain kernel s keys (fun tr => f (tr 0) * f (tr (Fin.last m)))) =
      targetMean lam logpi (fun s => f s * iterK (kernel []) m f s) := fun f hf m keys => by
    have := chain_pair hk hm (hk []) hfree hinv' keys 0 (Fin.last m) (Fin.zero_le _) hf hf
    rwa [Fin.val_last, Fin.val_zero, Nat.sub_zero] at this
  refine ⟨fun f hf m keys => ?_, fun f hf hfin m keys keys' => ?_, fun f hf key n_steps g => ?_⟩
  · rw [pair f hf m keys, ← targetMean_one]
    exact (hP []).autocov_nonneg hI (hk []) hinv' hf m
  · rw [pair f hf m keys, pair f hf (m + 1) keys']
    exact (hP []).autocov_succ hI (hk []) (hm []) hinv' hf hfin m
  · have := (hP []).run hI hk hm (hk []) hfree hinv' (splitKey key n_steps)
      (fun k : Fin (strideLen n_steps g) => ⟨k * g + 1, Nat.succ_lt_succ (strideLen_lt k)⟩) (f := fun s => f s.1)
      (hf.comp measurable_fst)
    rw [targetMean_one] at this
    refine this.trans (le_of_eq ?_)
    congr 2
    funext s
    exact (congrFun (Props.C49_sampling (m := Ex) key s.1 s.2 kernel n_steps g)
      (fun r => (∑ k, f (r.1 k)) ^ 2)).symm

end Verif
