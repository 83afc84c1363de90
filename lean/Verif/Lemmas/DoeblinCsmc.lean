import Verif.Lemmas.Doeblin
import Verif.Lemmas.MarkovKernels
import Verif.Lemmas.Replicates
import Verif.Lemmas.SvStationary

/-!
# Chains of conditional SMC kernels that reach every trajectory
-/

open scoped ENNReal
open MeasureTheory ProbabilityTheory Finset

namespace Verif
open Verif.Spec Verif.Model

variable {X : Type} [MeasurableSpace X] {N n : ℕ}

/-- A chain of trajectories and indices approaches the target from every start. -/
theorem indexed_chain_converges {lam : Measure X} {ε : ℝ≥0∞} {l : (Fin (n + 1) → X) → ℝ} (hl : Measurable l)
    (hZ : ∫⁻ x, ENNReal.ofReal (Real.exp (l x)) ∂(Measure.pi fun _ => lam) ≠ 0 ∧
      ∫⁻ x, ENNReal.ofReal (Real.exp (l x)) ∂(Measure.pi fun _ => lam) ≠ ∞)
    {step : Key → (Fin (n + 1) → X) × (Fin (n + 1) → Fin (N + 1)) → Ex ((Fin (n + 1) → X) × (Fin (n + 1) → Fin (N + 1)))}
    (hmk : ∀ key, MarkovStep fun x b => step key (x, b)) (hrel : ∀ key, Relabels fun x b => step key (x, b))
    (hnear : ∀ key, LeavesNearInvariant ε lam l fun x b => step key (x, b)) {C : ℝ≥0∞}
    (hC : ∀ key x b f, Measurable f → C * ∫⁻ y, ENNReal.ofReal (Real.exp (l y)) * f y ∂(Measure.pi fun _ => lam) ≤
      step key (x, b) fun r => f r.1)
    {T : ℕ} (keys : Fin T → Key) (i : Fin (T + 1)) (s : (Fin (n + 1) → X) × (Fin (n + 1) → Fin (N + 1))) :
    TVLe ((1 - C * ∫⁻ x, ENNReal.ofReal (Real.exp (l x)) ∂(Measure.pi fun _ => lam)) ^ (i : ℕ) + i * ε)
      (fun f => chain step s keys fun tr => f (tr i).1) fun f => ∫⁻ x, f x ∂lawOf (Measure.pi fun _ => lam) l := by
  have hk : ∀ key, IsKer (step key) := fun key => (hmk key).ker
  have hm : ∀ key s, step key s (fun _ => 1) = 1 := fun key s => (hmk key).mass s.1 s.2
  have hlump : ∀ {f : (Fin (n + 1) → X) → ℝ≥0∞}, Measurable f → ∀ {T : ℕ} (keys : Fin T → Key) (i : Fin (T + 1)) s,
      chain step s keys (fun tr => f (tr i).1) = chain step (s.1, fun _ => 0) keys (fun tr => f (tr i).1) := fun {f} hf T keys i s => by
    have h1 := chain_relabels (kernel := step) hk hrel keys s.1 0 s.2 (fun tr => f (tr i).1) (by fun_prop)
    rw [zero_add] at h1
    exact h1
  have hP := lawOf_isProb hZ hl
  have hE : Measurable fun x => ENNReal.ofReal (Real.exp (l x)) := by fun_prop
  let ν : Measure (Fin (n + 1) → X) := C • (Measure.pi fun _ => lam).withDensity fun x => ENNReal.ofReal (Real.exp (l x))
  have hνi : ∀ f, Measurable f → ∫⁻ x, f x ∂ν = C * ∫⁻ y, ENNReal.ofReal (Real.exp (l y)) * f y ∂(Measure.pi fun _ => lam) := fun f hf => by
    show ∫⁻ x, f x ∂(C • _) = _
    rw [lintegral_smul_measure, lintegral_withDensity_eq_lintegral_mul _ hE hf]
    rfl
  have hν1 : ν Set.univ = C * ∫⁻ x, ENNReal.ofReal (Real.exp (l x)) ∂(Measure.pi fun _ => lam) := by
    rw [← lintegral_one, hνi _ measurable_const]
    simp only [mul_one]
  rw [← hν1]
  refine converges_of_near (p := fun s : (Fin (n + 1) → X) × (Fin (n + 1) → Fin (N + 1)) => s.1) (σ := fun x => (x, fun _ => 0)) hk
    (by fun_prop) (by fun_prop) keys i (fun f hf hf1 s s' => ?_) ?_ s
  · exact doeblin_chain hk hm (p := fun s : (Fin (n + 1) → X) × (Fin (n + 1) → Fin (N + 1)) => s.1) (σ := fun x => (x, fun _ => 0))
      (by fun_prop) (by fun_prop) (ν := ν) (fun key s g hg => (hνi g hg).le.trans (hC key s.1 s.2 g hg)) hf (hlump hf) hf1 keys i s s'
  · obtain ⟨h0, hT⟩ := mass_index hZ (Fin (n + 1) → Fin (N + 1))
    obtain ⟨c, hc⟩ : ∃ c, c = (∑ _b : Fin (n + 1) → Fin (N + 1),
      ∫⁻ x, ENNReal.ofReal (Real.exp (l x)) ∂(Measure.pi fun _ => lam))⁻¹ := ⟨_, rfl⟩
    obtain ⟨I, hI⟩ : ∃ I : Ex ((Fin (n + 1) → X) × (Fin (n + 1) → Fin (N + 1))), I = fun f =>
      c * ∑ b, ∫⁻ x, ENNReal.ofReal (Real.exp (l x)) * f (x, b) ∂(Measure.pi fun _ => lam) := ⟨_, rfl⟩
    have hinv : ∀ key, TVLe ε (fun f => I (fun s => step key s f)) I := fun key => by
      have h1 := TVLe.scale (hnear key) c
      have e : c * (ε * ∑ _b : Fin (n + 1) → Fin (N + 1), ∫⁻ x, ENNReal.ofReal (Real.exp (l x)) ∂(Measure.pi fun _ => lam)) = ε := by
        rw [hc, mul_comm, mul_assoc, ENNReal.mul_inv_cancel h0 hT, mul_one]
      have h2 : TVLe (c * (ε * ∑ _b : Fin (n + 1) → Fin (N + 1), ∫⁻ x, ENNReal.ofReal (Real.exp (l x)) ∂(Measure.pi fun _ => lam)))
        (fun f => I (fun s => step key s f)) I := by rw [hI]; exact h1
      rwa [e] at h2
    have hIc : ∀ g : (Fin (n + 1) → X) → ℝ≥0∞, Measurable g → I (fun s => g s.1) = ∫⁻ x, g x ∂lawOf (Measure.pi fun _ => lam) l :=
      fun g hg => by
        rw [hI, lintegral_lawOf hl hg, hc]
        simp only [Finset.sum_const, nsmul_eq_mul]
        rw [ENNReal.mul_inv (Or.inr hZ.2) (Or.inr hZ.1)]
        have hcard : ((Finset.univ : Finset (Fin (n + 1) → Fin (N + 1))).card : ℝ≥0∞) ≠ 0 := by simp
        have hcard' : ((Finset.univ : Finset (Fin (n + 1) → Fin (N + 1))).card : ℝ≥0∞) ≠ ∞ := ENNReal.natCast_ne_top _
        generalize ((Finset.univ : Finset (Fin (n + 1) → Fin (N + 1))).card : ℝ≥0∞) = q at hcard hcard'
        rw [mul_mul_mul_comm, ENNReal.inv_mul_cancel hcard hcard', one_mul]
    intro f hf hf1
    have main := chain_near hk hm I hinv keys i (fun s => f s.1) (by fun_prop) fun s => hf1 _
    have hCm : Measurable fun x => chain step (x, fun _ => 0) keys fun tr => f (tr i).1 :=
      ((chain_ker hk _).comp (g := fun x : Fin (n + 1) → X => (x, fun _ => 0)) (by fun_prop)).measurable' (by fun_prop)
    dsimp only at main ⊢
    have e2 : (fun s : (Fin (n + 1) → X) × (Fin (n + 1) → Fin (N + 1)) => chain step s keys fun tr => f (tr i).1) =
        fun s => chain step (s.1, fun _ => 0) keys fun tr => f (tr i).1 := funext fun s => hlump hf keys i s
    rw [e2, hIc f hf] at main
    rw [← hIc _ hCm]
    exact main

end Verif
