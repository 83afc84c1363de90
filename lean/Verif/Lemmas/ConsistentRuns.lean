import Verif.Lemmas.Consistent
import Verif.Lemmas.ExpRuns
import Verif.Lemmas.ReachSel
import Verif.Lemmas.SvStationary

/-!
# Consistency of the kernels of the experiments
-/

open scoped ENNReal
open MeasureTheory

namespace Verif
open Verif.Model Verif.Spec Verif.Props

variable {N n d : ℕ}

theorem CsmcOK.consistent {l : (Fin (n + 1) → Vec d) → ℝ}
    {K : Key → (Fin (n + 1) → Vec d) → (Fin (n + 1) → Fin (N + 1)) → Ex ((Fin (n + 1) → Vec d) × (Fin (n + 1) → Fin (N + 1)))}
    (h : CsmcOK 0 l K) (hl : Measurable l)
    (hZ : ∫⁻ x, ENNReal.ofReal (Real.exp (l x)) ∂trajVol (n + 1) d ≠ 0 ∧
      ∫⁻ x, ENNReal.ofReal (Real.exp (l x)) ∂trajVol (n + 1) d ≠ ∞)
    (hr : ∀ x b f, Measurable f → ∫⁻ x, f x ∂(Measure.pi fun _ => volume) ≤ ∞ * K [] x b (fun r => f r.1)) :
    Consistent (trajVol (n + 1) d) (lawOf (trajVol (n + 1) d) l) (fun key s => K key s.1 s.2) :=
  consistent' hl hZ (fun key x b f hf => h.free key [] x b f hf) (h.markov []) (h.relabels []) (fun b f hf hf1 => by
    have := (h.relabels []).nearInvariant (h.near []) b f hf hf1
    simp only [zero_mul, add_zero] at this
    exact le_antisymm this.1 this.2) hr

theorem csmcSv_consistent {adapt} {l : (Fin (n + 1) → Vec d) → ℝ}
    {kernel : Key → (Fin (n + 1) → Vec d) → (Fin (n + 1) → Fin (N + 1)) → (Fin (n + 1) → ℝ) →
      Ex ((Fin (n + 1) → Vec d) × (Fin (n + 1) → Fin (N + 1)))} {delta : StepSize (n + 1)}
    (h : CsmcOK 0 l fun key x b => kernel key x b delta.at) (hl : Measurable l)
    (hZ : ∫⁻ x, ENNReal.ofReal (Real.exp (l x)) ∂trajVol (n + 1) d ≠ 0 ∧
      ∫⁻ x, ENNReal.ofReal (Real.exp (l x)) ∂trajVol (n + 1) d ≠ ∞)
    (hr : ∀ x b f, Measurable f → ∫⁻ x, f x ∂(Measure.pi fun _ => volume) ≤ ∞ * kernel [] x b delta.at (fun r => f r.1)) :
    RunsConsistent (trajVol (n + 1) d) (lawOf (trajVol (n + 1) d) l) (csmcSv adapt kernel) delta := by
  have hc := h.consistent hl hZ hr
  have h1 := hc.samples
  have h2 := hc.averages
  have e : ∀ n_steps, strideLen n_steps 1 = n_steps := fun n_steps => by simp [strideLen]
  refine ⟨⟨fun ν hν ha δ hδ => ?_, h1.2.mono fun x hx δ hδ => ?_⟩, ⟨fun ν hν ha f hf hC δ hδ => ?_, h2.2.mono fun x hx f hf hC δ hδ => ?_⟩⟩
  · obtain ⟨n0, h0⟩ := h1.1 ν hν ha δ hδ
    exact ⟨n0, fun key n_steps k hk => h0 (fun _ => 0) key n_steps 1 k (by omega)⟩
  · obtain ⟨n0, h0⟩ := hx δ hδ
    exact ⟨n0, fun key n_steps k hk => h0 (fun _ => 0) key n_steps 1 k (by omega)⟩
  · obtain ⟨n0, h0⟩ := h2.1 ν hν ha f hf hC δ hδ
    exact ⟨n0, fun key n_steps hk => h0 (fun _ => 0) key n_steps 1 (by rw [e]; exact hk)⟩
  · obtain ⟨n0, h0⟩ := hx f hf hC δ hδ
    exact ⟨n0, fun key n_steps hk => h0 (fun _ => 0) key n_steps 1 (by rw [e]; exact hk)⟩

end Verif
