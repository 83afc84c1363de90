import Verif.Lemmas.SvKernels
import Verif.Lemmas.SvMass

/-!
# Chains of the stochastic volatility experiment started from the posterior
-/

open scoped ENNReal
open MeasureTheory Finset

namespace Verif
open Verif.Model Verif.Spec Verif.Props Matrix

variable {N n d T : ℕ}

theorem TVLe.scale {α : Type} [MeasurableSpace α] {ε : ℝ≥0∞} {P Q : Ex α} (h : TVLe ε P Q) (c : ℝ≥0∞) :
    TVLe (c * ε) (fun f => c * P f) (fun f => c * Q f) := fun f hf h1 => by
  obtain ⟨h2, h3⟩ := h f hf h1
  rw [← mul_add, ← mul_add]
  exact ⟨mul_le_mul_right h2 c, mul_le_mul_right h3 c⟩

/-- A chain read through a map. -/
theorem chain_proj {S S' : Type} {step : Key → S → Ex S} {step' : Key → S' → Ex S'} (p : S → S')
    (h : ∀ key s f, step key s (fun s' => f (p s')) = step' key (p s) f) {k : ℕ} (keys : Fin k → Key) (s : S)
    (F : (Fin (k + 1) → S') → ℝ≥0∞) :
    chain step s keys (fun tr => F fun i => p (tr i)) = chain step' (p s) keys F := by
  induction k generalizing s with
  | zero => rfl
  | succ k ih =>
    show step (keys 0) s (fun s' => chain step s' (tailA keys) fun rest => F fun i => p (insert0 s rest i)) =
      step' (keys 0) (p s) (fun s' => chain step' s' (tailA keys) fun rest => F (insert0 (p s) rest))
    rw [← h]
    refine Ex.congr_fun' _ fun s' => ?_
    rw [← ih]
    refine Ex.congr_fun' _ fun rest => congrArg F (funext fun i => ?_)
    exact Fin.cases rfl (fun _ => rfl) i

theorem mass_index {Z : ℝ≥0∞} (hZ : Z ≠ 0 ∧ Z ≠ ∞) (A : Type) [Fintype A] [Nonempty A] :
    (∑ _b : A, Z) ≠ 0 ∧ (∑ _b : A, Z) ≠ ∞ := by
  rw [Finset.sum_const, nsmul_eq_mul]
  refine ⟨mul_ne_zero ?_ hZ.1, ENNReal.mul_ne_top (ENNReal.natCast_ne_top _) hZ.2⟩
  simp

/-- Conditional SMC kernels. -/
theorem csmcSv_keeps {adapt} {ε : ℝ≥0∞} {l : (Fin (n + 1) → Vec d) → ℝ}
    {kernel : Key → (Fin (n + 1) → Vec d) → (Fin (n + 1) → Fin (N + 1)) → (Fin (n + 1) → ℝ) →
      Ex ((Fin (n + 1) → Vec d) × (Fin (n + 1) → Fin (N + 1)))} {delta : StepSize (n + 1)}
    (h : CsmcOK ε l fun key x b => kernel key x b delta.at) (hl : Measurable l)
    (hZ : ∫⁻ x, ENNReal.ofReal (Real.exp (l x)) ∂trajVol (n + 1) d ≠ 0 ∧
      ∫⁻ x, ENNReal.ofReal (Real.exp (l x)) ∂trajVol (n + 1) d ≠ ∞) :
    KeepsLaw ε (lawOf (trajVol (n + 1) d) l) (csmcSv adapt kernel) delta := by
  intro key n_steps k f hf hf1
  obtain ⟨step, hstep⟩ : ∃ step : Key → (Fin (n + 1) → Vec d) × (Fin (n + 1) → Fin (N + 1)) →
    Ex ((Fin (n + 1) → Vec d) × (Fin (n + 1) → Fin (N + 1))), step = fun key s => kernel key s.1 s.2 delta.at := ⟨_, rfl⟩
  have hk : ∀ key, IsKer (step key) := fun key => hstep ▸ (h.markov key).ker
  have hm : ∀ key s, step key s (fun _ => 1) = 1 := fun key s => hstep ▸ (h.markov key).mass s.1 s.2
  obtain ⟨h0, hT⟩ := mass_index hZ (Fin (n + 1) → Fin (N + 1))
  obtain ⟨c, hc⟩ : ∃ c, c = (∑ _b : Fin (n + 1) → Fin (N + 1),
    ∫⁻ x, ENNReal.ofReal (Real.exp (l x)) ∂trajVol (n + 1) d)⁻¹ := ⟨_, rfl⟩
  obtain ⟨I, hI⟩ : ∃ I : Ex ((Fin (n + 1) → Vec d) × (Fin (n + 1) → Fin (N + 1))), I = fun f =>
    c * ∑ b, ∫⁻ x, ENNReal.ofReal (Real.exp (l x)) * f (x, b) ∂trajVol (n + 1) d := ⟨_, rfl⟩
  have hinv : ∀ key, TVLe ε (fun f => I (fun s => step key s f)) I := fun key => by
    have h1 := TVLe.scale (h.near key) c
    have e : c * (ε * ∑ _b : Fin (n + 1) → Fin (N + 1), ∫⁻ x, ENNReal.ofReal (Real.exp (l x)) ∂trajVol (n + 1) d) = ε := by
      rw [hc, mul_comm, mul_assoc, ENNReal.mul_inv_cancel h0 hT, mul_one]
    have h2 : TVLe (c * (ε * ∑ _b : Fin (n + 1) → Fin (N + 1), ∫⁻ x, ENNReal.ofReal (Real.exp (l x)) ∂trajVol (n + 1) d))
      (fun f => I (fun s => step key s f)) I := by rw [hI, hstep]; exact h1
    rwa [e] at h2
  have hlt : k.1 * 1 + 1 < n_steps + 1 := Nat.succ_lt_succ (strideLen_lt k)
  have main := chain_near hk hm I hinv (splitKey key n_steps) ⟨k * 1 + 1, hlt⟩ (fun s => f s.1) (by fun_prop) fun s => hf1 _
  have hC : Measurable fun x => chain step (x, fun _ => 0) (splitKey key n_steps) fun tr => f (tr ⟨k * 1 + 1, hlt⟩).1 :=
    ((chain_ker hk _).comp (g := fun x : Fin (n + 1) → Vec d => (x, fun _ => 0)) (by fun_prop)).measurable' (by fun_prop)
  have hrun : ∀ x, (csmcSv adapt kernel).experiment_all key ((csmcSv adapt kernel).init x)
      (fun k s => (csmcSv adapt kernel).kernel k s delta) n_steps (fun r => f (r.1 k)) =
      chain step (x, fun _ => 0) (splitKey key n_steps) fun tr => f (tr ⟨k * 1 + 1, hlt⟩).1 := fun x => by
    rw [hstep]
    exact congrFun (C49_sampling (m := Ex) key x (fun _ => 0) (fun key s => kernel key s.1 s.2 delta.at) n_steps 1) fun r => f (r.1 k)
  have hrel : ∀ x b, chain step (x, b) (splitKey key n_steps) (fun tr => f (tr ⟨k * 1 + 1, hlt⟩).1) =
      chain step (x, fun _ => 0) (splitKey key n_steps) fun tr => f (tr ⟨k * 1 + 1, hlt⟩).1 := fun x b => by
    have h1 := chain_relabels (kernel := step) hk (by rw [hstep]; exact h.relabels) (splitKey key n_steps) x 0 b
      (fun tr => f (tr ⟨k * 1 + 1, hlt⟩).1) (by fun_prop)
    rw [zero_add] at h1
    exact h1
  have hIc : ∀ g : (Fin (n + 1) → Vec d) → ℝ≥0∞, Measurable g → I (fun s => g s.1) = ∫⁻ x, g x ∂lawOf (trajVol (n + 1) d) l :=
    fun g hg => by
      rw [hI, lintegral_lawOf hl hg, hc]
      simp only [Finset.sum_const, nsmul_eq_mul]
      rw [ENNReal.mul_inv (Or.inr hZ.2) (Or.inr hZ.1)]
      have hcard : ((Finset.univ : Finset (Fin (n + 1) → Fin (N + 1))).card : ℝ≥0∞) ≠ 0 := by simp
      have hcard' : ((Finset.univ : Finset (Fin (n + 1) → Fin (N + 1))).card : ℝ≥0∞) ≠ ∞ := ENNReal.natCast_ne_top _
      generalize ((Finset.univ : Finset (Fin (n + 1) → Fin (N + 1))).card : ℝ≥0∞) = q at hcard hcard'
      rw [mul_mul_mul_comm, ENNReal.inv_mul_cancel hcard hcard', one_mul]
  have hcast : ((⟨k * 1 + 1, hlt⟩ : Fin (n_steps + 1)) : ℕ) = (k : ℕ) + 1 := by simp
  rw [hcast] at main
  simp only [hrun]
  rw [← hIc _ hC, ← hIc f hf]
  have e2 : (fun s : (Fin (n + 1) → Vec d) × (Fin (n + 1) → Fin (N + 1)) => chain step s (splitKey key n_steps)
      fun tr => f (tr ⟨k * 1 + 1, hlt⟩).1) = fun s => chain step (s.1, fun _ => 0) (splitKey key n_steps)
      fun tr => f (tr ⟨k * 1 + 1, hlt⟩).1 := funext fun s => hrel s.1 s.2
  dsimp only at main
  rw [e2] at main
  exact main

/-- Multi-try kernels. -/
theorem vgSv_keeps {ε : ℝ≥0∞} {l : Traj (n + 1) d → ℝ}
    {kernel : Key → VGState (n + 1) d → ℝ → Ex (VGState (n + 1) d × Bool)}
    {init : Traj (n + 1) d → VGState (n + 1) d} {delta : StepSize (n + 1)} (h : VgStepOK kernel init) (hd : 0 < delta.num)
    (hl : Measurable l)
    (hZ : ∫⁻ x, ENNReal.ofReal (Real.exp (l x)) ∂trajVol (n + 1) d ≠ 0 ∧
      ∫⁻ x, ENNReal.ofReal (Real.exp (l x)) ∂trajVol (n + 1) d ≠ ∞)
    (hn : ∀ key, StateNearInvariant ε (trajVol (n + 1) d) l init fun s => kernel key s delta.num >>= fun r => pure r.1) :
    KeepsLaw ε (lawOf (trajVol (n + 1) d) l) (vgSv kernel init) delta := by
  intro key n_steps k f hf hf1
  obtain ⟨step, hstep⟩ : ∃ step : Key → VGState (n + 1) d → Ex (VGState (n + 1) d),
    step = fun key s => kernel key s delta.num >>= fun r => pure r.1 := ⟨_, rfl⟩
  have hk : ∀ key, IsKer (step key) := fun key => by
    rw [hstep]
    exact IsKer.bind (P := fun s => kernel key s delta.num) (F := fun _ r => pure r.1) (h.ker _ hd key) (IsKer.pure (by fun_prop))
  have hm : ∀ key s, step key s (fun _ => 1) = 1 := fun key s => by
    rw [hstep]
    exact h.mass _ hd key s
  obtain ⟨I, hI⟩ : ∃ I : Ex (VGState (n + 1) d), I = fun f => ∫⁻ x, f (init x) ∂lawOf (trajVol (n + 1) d) l := ⟨_, rfl⟩
  have hinv : ∀ key, TVLe ε (fun f => I (fun s => step key s f)) I := fun key g hg hg1 => by
    have h1 := TVLe.scale (hn key) (∫⁻ x, ENNReal.ofReal (Real.exp (l x)) ∂trajVol (n + 1) d)⁻¹ g hg hg1
    rw [mul_comm, mul_assoc, ENNReal.mul_inv_cancel hZ.1 hZ.2, mul_one] at h1
    have e1 : Measurable fun x => step key (init x) g := ((hk key).comp h.init_meas).measurable' hg
    have e2 : Measurable fun x => g (init x) := hg.comp h.init_meas
    have e3 : I (fun s => step key s g) = (∫⁻ x, ENNReal.ofReal (Real.exp (l x)) ∂trajVol (n + 1) d)⁻¹ *
        ∫⁻ x, ENNReal.ofReal (Real.exp (l x)) * step key (init x) g ∂trajVol (n + 1) d := by
      rw [hI]; exact lintegral_lawOf hl e1
    have e4 : I g = (∫⁻ x, ENNReal.ofReal (Real.exp (l x)) ∂trajVol (n + 1) d)⁻¹ *
        ∫⁻ x, ENNReal.ofReal (Real.exp (l x)) * g (init x) ∂trajVol (n + 1) d := by
      rw [hI]; exact lintegral_lawOf hl e2
    show I (fun s => step key s g) ≤ I g + ε ∧ I g ≤ I (fun s => step key s g) + ε
    rw [e3, e4, hstep]
    exact h1
  have hlt : k.1 * 1 + 1 < n_steps + 1 := Nat.succ_lt_succ (strideLen_lt k)
  have main := chain_near hk hm I hinv (splitKey key n_steps) ⟨k * 1 + 1, hlt⟩ (fun s => f s.1) (by fun_prop) fun s => hf1 _
  have hrun : ∀ x, (vgSv kernel init).experiment_all key ((vgSv kernel init).init x)
      (fun k s => (vgSv kernel init).kernel k s delta) n_steps (fun r => f (r.1 k)) =
      chain step (init x) (splitKey key n_steps) fun tr => f (tr ⟨k * 1 + 1, hlt⟩).1 := fun x => by
    refine (congrFun (C49_tp_sampling (m := Ex) key (init x) false (fun key s => kernel key s delta.num) n_steps 1)
      fun r => f (r.1 k)).trans ?_
    rw [hstep]
    exact chain_proj (step := fun key (s : VGState (n + 1) d × Bool) => kernel key s.1 delta.num)
      (step' := fun key s => kernel key s delta.num >>= fun r => pure r.1) Prod.fst (fun _ _ _ => rfl) (splitKey key n_steps)
      (init x, false) fun tr => f (tr ⟨k * 1 + 1, hlt⟩).1
  have hcast : ((⟨k * 1 + 1, hlt⟩ : Fin (n_steps + 1)) : ℕ) = (k : ℕ) + 1 := by simp
  rw [hcast, hI] at main
  simp only [h.init_fst] at main
  simp only [hrun]
  exact main

end Verif
