import Verif.Lemmas.SmallAux
import Verif.Spec.FlatSteps
import Verif.Model.LCsmcF

/-!
# The kernels around auxiliary variables for small step sizes
-/

open scoped ENNReal Topology
open MeasureTheory Finset Filter

namespace Verif
open Verif.Model Verif.Spec

variable {N n d : ℕ} {G Pm ι : Type}

/-- Noise of the auxiliary variables and of the particles. -/
abbrev AuxNoise (N n d : ℕ) := (Fin (n + 1) → Vec d) × (Fin (n + 1) → Fin (N + 1) → Vec d)

/-- Average over the noise. -/
noncomputable def auxAvg (N n d : ℕ) (P : AuxNoise N n d → ℝ≥0∞) : ℝ≥0∞ :=
  ∫⁻ a, ∫⁻ e, P (a, e) ∂(Measure.pi fun _ => Measure.pi fun _ => gaussM d) ∂(Measure.pi fun _ => gaussM d)

/-- The law of the backward index, generically. -/
structure AuxFlat (l : Filter ι) (bstar : Fin (n + 1) → Fin (N + 1))
    (body : ι → AuxNoise N n d → (Fin (N + 1) → ℝ) × (Fin (N + 1) → Vec d) → AuxInp Pm (Vec d) N →
      Ex (((Fin (N + 1) → ℝ) × (Fin (N + 1) → Vec d)) × ((Fin (N + 1) → ℝ) × (Fin (N + 1) → Fin (N + 1)))))
    (key : Key) (params : ι → AuxNoise N n d → Fin n → Pm) (Γ : Vec d → Vec d → G → ℝ) (Gp : ι → AuxNoise N n d → Fin n → G)
    (xs : ι → AuxNoise N n d → Fin (n + 1) → Fin (N + 1) → Vec d) (lw0 : ι → AuxNoise N n d → Fin (N + 1) → ℝ)
    (H : ι → AuxNoise N n d → Fin n → Fin (N + 1) → Fin (N + 1) → ℝ) : Prop where
  step : ∀ s p t c, IsProb c.1 → c.2 = xs s p (Fin.castSucc t) → ExOn (body s p c (auxInputs key (params s p) (xs s p) bstar t))
    fun r => IsProb r.1.1 ∧ r.1.2 = xs s p t.succ ∧ ∃ (A : Fin (N + 1) → Fin (N + 1)) (k : ℝ), r.2.1 = fun i => H s p t (A i) i - k
  lim0 : ∀ p, ∃ c0, ∀ i, Tendsto (fun s => lw0 s p i) l (𝓝 c0)
  limH : ∀ p t, ∃ c, ∀ i j, Tendsto (fun s => H s p t i j) l (𝓝 c)
  limK : ∀ p t i j, Tendsto (fun s => Γ (xs s p (Fin.castSucc t) i) (xs s p t.succ j) (Gp s p t) - Γ (xs s p (Fin.castSucc t) 0) (xs s p t.succ j) (Gp s p t)) l (𝓝 0)
  cont0 : ∀ s i, Continuous fun p => lw0 s p i
  contH : ∀ s t i j, Continuous fun p => H s p t i j
  contK : ∀ s t i j, Continuous fun p => Γ (xs s p (Fin.castSucc t) i) (xs s p t.succ j) (Gp s p t)

section
variable {l : Filter ι} {bstar : Fin (n + 1) → Fin (N + 1)}
    {body : ι → AuxNoise N n d → (Fin (N + 1) → ℝ) × (Fin (N + 1) → Vec d) → AuxInp Pm (Vec d) N →
      Ex (((Fin (N + 1) → ℝ) × (Fin (N + 1) → Vec d)) × ((Fin (N + 1) → ℝ) × (Fin (N + 1) → Fin (N + 1))))}
    {key : Key} {params : ι → AuxNoise N n d → Fin n → Pm} {Γ : Vec d → Vec d → G → ℝ} {Gp : ι → AuxNoise N n d → Fin n → G}
    {xs : ι → AuxNoise N n d → Fin (n + 1) → Fin (N + 1) → Vec d} {lw0 : ι → AuxNoise N n d → Fin (N + 1) → ℝ}
    {H : ι → AuxNoise N n d → Fin n → Fin (N + 1) → Fin (N + 1) → ℝ}
    (h : AuxFlat l bstar body key params Γ Gp xs lw0 H) (kb : Key)

/-- The spread of the weights of one run. -/
noncomputable def auxSpread (Γ : Vec d → Vec d → G → ℝ) (Gp : ι → AuxNoise N n d → Fin n → G)
    (xs : ι → AuxNoise N n d → Fin (n + 1) → Fin (N + 1) → Vec d) (lw0 : ι → AuxNoise N n d → Fin (N + 1) → ℝ)
    (H : ι → AuxNoise N n d → Fin n → Fin (N + 1) → Fin (N + 1) → ℝ) (s : ι) (p : AuxNoise N n d) : ℝ :=
  spread3 (lw0 s p) (H s p) fun t i j => Γ (xs s p (Fin.castSucc t) i) (xs s p t.succ j) (Gp s p t)

include h

theorem AuxFlat.tendsto (p : AuxNoise N n d) : Tendsto (fun s => auxSpread Γ Gp xs lw0 H s p) l (𝓝 0) := by
  obtain ⟨c0, h0⟩ := h.lim0 p
  choose c hc using h.limH p
  exact spread3_tendsto h0 hc (h.limK p)

theorem AuxFlat.measurable (s : ι) : Measurable fun p => auxSpread Γ Gp xs lw0 H s p :=
  (continuous_spread3 (h.cont0 s) (h.contH s) (h.contK s)).measurable

theorem AuxFlat.on (s : ι) (p : AuxNoise N n d) (t : Fin n) (c : (Fin (N + 1) → ℝ) × (Fin (N + 1) → Vec d)) (hc : IsProb c.1)
    (hx : c.2 = xs s p (Fin.castSucc t)) : ExOn (body s p c (auxInputs key (params s p) (xs s p) bstar t))
    fun r => IsProb r.1.1 ∧ r.1.2 = xs s p t.succ ∧ Flat (auxSpread Γ Gp xs lw0 H s p) r.2.1 := by
  refine (h.step s p t c hc hx).weaken fun r hr => ⟨hr.1, hr.2.1, ?_⟩
  obtain ⟨A, k, e⟩ := hr.2.2
  rw [e]
  exact (spread3_flatH _ _ _ t A).sub_const k

theorem AuxFlat.limit [l.IsCountablyGenerated] {mv : AncestorMove Ex N} (hker : ∀ key, MoveKer (moveIndex mv key)) (hmass : ∀ key, MoveMass (moveIndex mv key))
    (mx : ι → AuxNoise N n d → ℝ) (t : Fin n) :
    Tendsto (fun s => auxAvg N n d fun p => moveProb (auxTail (body s p) key kb (params s p) Γ (Gp s p) (xs s p) bstar
      (normalizeW fun i => lw0 s p i - mx s p) (fun i => lw0 s p i - mx s p) mv) t.castSucc (bstar t.castSucc)) l (𝓝 (ENNReal.ofReal (N / (N + 1)))) :=
  noise_limit (h.measurable) (fun s p => spread3_nonneg _ _ _) (h.tendsto) (lo := fun x => flatLo N (x + x)) (hi := fun x => flatHi N (x + x))
    ((continuous_flatLo N).comp (by fun_prop)).measurable ((continuous_flatHi N).comp (by fun_prop)).measurable (fun _ _ => flatLo_le N _)
    (fun _ _ => flatHi_le N _) (double_tendsto (flatLo_tendsto N)) (double_tendsto (flatHi_tendsto N)) fun s a e =>
    auxTail_flat key kb (params s (a, e)) Γ (Gp s (a, e)) mv (normalize_isProb _) ((spread3_flat0 _ _ _).sub_const _) (h.on s (a, e)) hker hmass
      (fun t j => spread3_flatK _ _ (fun t i j => Γ (xs s (a, e) (Fin.castSucc t) i) (xs s (a, e) t.succ j) (Gp s (a, e) t)) t j) _ t

theorem AuxFlat.barker [l.IsCountablyGenerated] (mx : ι → AuxNoise N n d → ℝ) :
    Tendsto (fun s => auxAvg N n d fun p => moveProb (auxTail (body s p) key kb (params s p) Γ (Gp s p) (xs s p) bstar
      (normalizeW fun i => lw0 s p i - mx s p) (fun i => lw0 s p i - mx s p) (fun key w => barker_move key w)) (Fin.last n) (bstar (Fin.last n))) l
      (𝓝 (ENNReal.ofReal (N / (N + 1)))) :=
  noise_limit (h.measurable) (fun s p => spread3_nonneg _ _ _) (h.tendsto) (lo := flatLo N) (hi := flatHi N)
    (continuous_flatLo N).measurable (continuous_flatHi N).measurable (fun _ _ => flatLo_le N _)
    (fun _ _ => flatHi_le N _) (flatLo_tendsto N) (flatHi_tendsto N) fun s a e =>
    auxTail_last key kb (params s (a, e)) Γ (Gp s (a, e)) _ (normalize_isProb _) ((spread3_flat0 _ _ _).sub_const _) (h.on s (a, e))
      (fun i => if i ≠ bstar (Fin.last n) then 1 else 0) fun key lw hlw => barker_flat hlw key _

theorem AuxFlat.force [l.IsCountablyGenerated] (hN : 1 ≤ N) (mx : ι → AuxNoise N n d → ℝ) :
    Tendsto (fun s => auxAvg N n d fun p => moveProb (auxTail (body s p) key kb (params s p) Γ (Gp s p) (xs s p) bstar
      (normalizeW fun i => lw0 s p i - mx s p) (fun i => lw0 s p i - mx s p) (fun key w => force_move key w)) (Fin.last n) (bstar (Fin.last n))) l
      (𝓝 1) :=
  noise_limit (h.measurable) (fun s p => spread3_nonneg _ _ _) (h.tendsto) (lo := smallAcc) (hi := fun _ => 1)
    measurable_smallAcc measurable_const (fun _ => smallAcc_le)
    (fun _ _ => le_rfl) smallAcc_tendsto tendsto_const_nhds fun s a e =>
    auxTail_last key kb (params s (a, e)) Γ (Gp s (a, e)) _ (normalize_isProb _) ((spread3_flat0 _ _ _).sub_const _) (h.on s (a, e))
      (fun i => if i ≠ bstar (Fin.last n) then 1 else 0) fun key lw hlw => force_flat hN (spread3_nonneg _ _ _) hlw key _

end

/-! ## The particles -/

theorem auxParticles_cont {Y : Type} [TopologicalSpace Y] {u : Y → Fin (n + 1) → Vec d} {e : Y → Fin (n + 1) → Fin (N + 1) → Vec d} (hu : Continuous u)
    (he : Continuous e) (std : Fin (n + 1) → ℝ) (bstar : Fin (n + 1) → Fin (N + 1)) (xstar : Fin (n + 1) → Vec d) :
    Continuous fun y => auxParticles (u y) std (e y) bstar xstar := by
  unfold auxParticles
  refine continuous_pi fun t => continuous_pi fun i => ?_
  simp only [atSet_apply]
  split_ifs
  · exact continuous_const
  · fun_prop

theorem auxParticles_tendsto {l : Filter ι} {u : ι → Fin (n + 1) → Vec d} {std : ι → Fin (n + 1) → ℝ} {xstar : Fin (n + 1) → Vec d}
    (hu : Tendsto u l (𝓝 xstar)) (hs : ∀ t, Tendsto (fun s => std s t) l (𝓝 0)) (e : Fin (n + 1) → Fin (N + 1) → Vec d)
    (bstar : Fin (n + 1) → Fin (N + 1)) (t : Fin (n + 1)) (i : Fin (N + 1)) :
    Tendsto (fun s => auxParticles (u s) (std s) e bstar xstar t i) l (𝓝 (xstar t)) := by
  unfold auxParticles
  simp only [atSet_apply]
  split_ifs
  · exact tendsto_const_nhds
  · refine tendsto_pi_nhds.mpr fun j => ?_
    have h1 := (tendsto_pi_nhds.mp (tendsto_pi_nhds.mp hu t) j).add ((hs t).mul_const (e t i j))
    rwa [zero_mul, add_zero] at h1

theorem auxStd_tendsto {l : Filter ι} {δ : ι → Fin (n + 1) → ℝ} {t : Fin (n + 1)} (h : Tendsto (fun s => δ s t) l (𝓝 0)) :
    Tendsto (fun s => auxStd (δ s) t) l (𝓝 0) := by
  have := (Real.continuous_sqrt.tendsto _).comp (h.const_mul 0.5)
  rw [mul_zero, Real.sqrt_zero] at this
  exact this

/-! ## The forward steps -/

section steps
variable {resampling : Resampling Ex N} (hR : ∀ key, CondResampling fun w i j => resampling key w i j true)
include hR

theorem resampling_on (key : Key) {w : Fin (N + 1) → ℝ} (hw : IsProb w) (i j : Fin (N + 1)) : ExOn (resampling key w i j true) fun _ => True :=
  ExOn.ofKer (hR key).ker (x := (w, i, j)) ((hR key).mass w hw i j)

theorem rwBody_on (Γ : Vec d → Vec d → G → ℝ) {key : Key} {params : Fin n → G} {xs : Fin (n + 1) → Fin (N + 1) → Vec d} {bstar : Fin (n + 1) → Fin (N + 1)}
    {t : Fin n} {c : (Fin (N + 1) → ℝ) × (Fin (N + 1) → Vec d)} (hc : IsProb c.1) (hx : c.2 = xs (Fin.castSucc t)) :
    ExOn (rwBody Γ resampling c (auxInputs key params xs bstar t)) fun r => IsProb r.1.1 ∧ r.1.2 = xs t.succ ∧
      ∃ (A : Fin (N + 1) → Fin (N + 1)) (k : ℝ), r.2.1 = fun i => Γ (xs (Fin.castSucc t) (A i)) (xs t.succ i) (params t) - k := by
  refine (resampling_on hR _ hc _ _).bind fun A _ => ExOn.pure ⟨?_, rfl, A, ?_⟩
  · exact normalize_isProb _
  · rw [hx]
    exact ⟨_, rfl⟩

theorem alBody_on (Γ : Vec d → Vec d → G → ℝ) (Γg : Vec d → Vec d → G → Vec d) {key : Key} {params : Fin n → AlParams G d}
    {xs : Fin (n + 1) → Fin (N + 1) → Vec d} {bstar : Fin (n + 1) → Fin (N + 1)}
    {t : Fin n} {c : (Fin (N + 1) → ℝ) × (Fin (N + 1) → Vec d)} (hc : IsProb c.1) (hx : c.2 = xs (Fin.castSucc t)) :
    ExOn (alBody Γ Γg resampling c (auxInputs key params xs bstar t)) fun r => IsProb r.1.1 ∧ r.1.2 = xs t.succ ∧
      ∃ (A : Fin (N + 1) → Fin (N + 1)) (k : ℝ), r.2.1 = fun i => alGtTilde Γ Γg (xs (Fin.castSucc t) (A i)) (xs t.succ i) (params t) - k := by
  refine (resampling_on hR _ hc _ _).bind fun A _ => ExOn.pure ⟨?_, rfl, A, ?_⟩
  · exact normalize_isProb _
  · rw [hx]
    exact ⟨_, rfl⟩

theorem lBody_on (Γ : Vec d → Vec d → G → ℝ) (Γg : Vec d → Vec d → G → Vec d) {key : Key} {params : Fin n → LParams G d}
    {xs : Fin (n + 1) → Fin (N + 1) → Vec d} {bstar : Fin (n + 1) → Fin (N + 1)}
    {t : Fin n} {c : (Fin (N + 1) → ℝ) × (Fin (N + 1) → Vec d)} (hc : IsProb c.1) (hx : c.2 = xs (Fin.castSucc t)) :
    ExOn (lBody Γ Γg resampling c (auxInputs key params xs bstar t)) fun r => IsProb r.1.1 ∧ r.1.2 = xs t.succ ∧
      ∃ (A : Fin (N + 1) → Fin (N + 1)) (k : ℝ), r.2.1 = fun i => lGammatTilde N Γ Γg (xs (Fin.castSucc t) (A i)) (xs t.succ i) (params t) - k := by
  refine (resampling_on hR _ hc _ _).bind fun A _ => ExOn.pure ⟨?_, rfl, A, ?_⟩
  · exact normalize_isProb _
  · rw [hx]
    exact ⟨_, rfl⟩

end steps

/-! ## The weights of the gradient kernels -/

/-- The weights, without division by the step size. -/
noncomputable def gradWeight (c δ Γ : ℝ) (v x g : Vec d) : ℝ := Γ + ∑ j, (v j - x j) * g j - c * δ * ∑ j, g j ^ 2

theorem alGt_eq (Γ : Vec d → Vec d → G → ℝ) (Γg : Vec d → Vec d → G → Vec d) (y x u : Vec d) (g : G) {δ : ℝ} (hδ : 0 < δ) :
    alGtTilde Γ Γg y x ⟨δ, δ, u, g⟩ = gradWeight 0.25 δ (Γ y x g) u x (Γg y x g) := by
  have h : ∀ v : Vec d, -sumSq (fun j => u j - x j - 0.5 * δ * v j) / δ - -sumSq (fun j => x j - u j) / δ =
      ∑ j, (u j - x j) * v j - 0.25 * δ * ∑ j, v j ^ 2 := fun v => by
    rw [← sub_div, div_eq_iff hδ.ne', sub_mul, mul_sum, sum_mul, sum_mul]
    simp only [sumSq]
    rw [← sum_neg_distrib, ← sum_neg_distrib, ← sum_sub_distrib, ← sum_sub_distrib]
    exact sum_congr rfl fun j _ => by ring
  simp only [alGtTilde, alGammatTilde, gradWeight]
  rw [add_sub_assoc, h]
  ring

theorem alG0_eq (Γ : Vec d → ℝ) (Γg : Vec d → Vec d) (x u : Vec d) {δ : ℝ} (hδ : 0 < δ) :
    alG0Tilde Γ Γg x δ δ u = gradWeight 0.25 δ (Γ x) u x (Γg x) := alGt_eq (fun _ x (_ : Unit) => Γ x) (fun _ x _ => Γg x) x x u () hδ

theorem lHphi_grad (g : Vec d) (v : ℝ) {δ : ℝ} (hδ : 0 < δ) (xb x : Vec d) :
    lHphi N g v δ δ xb x = gradWeight (0.25 * ((N : ℝ) / (N + 1))) δ v xb x g := by
  simp only [lHphi, gradWeight]
  rw [add_sub_assoc]
  congr 1
  rw [div_eq_iff hδ.ne', sub_mul, mul_sum, mul_sum, sum_mul, sum_mul]
  simp only [sumSq]
  rw [mul_sum, ← sum_sub_distrib, ← sum_sub_distrib]
  exact sum_congr rfl fun j _ => by ring

theorem gradWeight_tendsto {l : Filter ι} {c : ℝ} {δ Γ : ι → ℝ} {v x g : ι → Vec d} {Γ' : ℝ} {x' g' : Vec d} (hδ : Tendsto δ l (𝓝 0))
    (hΓ : Tendsto Γ l (𝓝 Γ')) (hv : Tendsto v l (𝓝 x')) (hx : Tendsto x l (𝓝 x')) (hg : Tendsto g l (𝓝 g')) :
    Tendsto (fun s => gradWeight c (δ s) (Γ s) (v s) (x s) (g s)) l (𝓝 Γ') := by
  have e : Γ' = Γ' + ∑ j, (x' j - x' j) * g' j - c * 0 * ∑ j, g' j ^ 2 := by simp
  rw [e]
  have hv' := tendsto_pi_nhds.mp hv
  have hx' := tendsto_pi_nhds.mp hx
  have hg' := tendsto_pi_nhds.mp hg
  exact (hΓ.add (tendsto_finsetSum _ fun j _ => ((hv' j).sub (hx' j)).mul (hg' j))).sub
    ((hδ.const_mul c).mul (tendsto_finsetSum _ fun j _ => (hg' j).pow 2))

end Verif
