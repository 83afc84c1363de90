import Verif.Lemmas.FlatWeights

/-!
# Particle kernels around auxiliary variables, for small step sizes
-/

open scoped ENNReal Topology
open MeasureTheory Finset Filter

namespace Verif
open Verif.Model Verif.Spec

variable {N n d : ℕ} {X G Pm ι : Type}

/-! ## Given the particles -/

theorem aux_scan_flat {S : ℝ} {body : (Fin (N + 1) → ℝ) × (Fin (N + 1) → X) → AuxInp Pm X N →
      Ex (((Fin (N + 1) → ℝ) × (Fin (N + 1) → X)) × ((Fin (N + 1) → ℝ) × (Fin (N + 1) → Fin (N + 1))))}
    (key : Key) (params : Fin n → Pm) (xs : Fin (n + 1) → Fin (N + 1) → X) (bstar : Fin (n + 1) → Fin (N + 1)) {w0 : Fin (N + 1) → ℝ} (hw0 : IsProb w0)
    (hbody : ∀ t c, IsProb c.1 → c.2 = xs (Fin.castSucc t) →
      ExOn (body c (auxInputs key params xs bstar t)) fun r => IsProb r.1.1 ∧ r.1.2 = xs t.succ ∧ Flat S r.2.1) :
    ExOn (scanM body (w0, xs 0) (auxInputs key params xs bstar)) fun r => ∀ t, Flat S (r.2 t).1 := by
  refine (ExOn.scanM (body := body) (w0, xs 0) (auxInputs key params xs bstar)
    (fun t ht c os => IsProb c.1 ∧ c.2 = xs ⟨t, Nat.lt_succ_of_le ht⟩ ∧ ∀ s, Flat S (os s).1) ⟨hw0, rfl, fun s => s.elim0⟩
    fun t ht c os hI => ?_).weaken fun r hr => hr.2.2
  refine (hbody ⟨t, ht⟩ c hI.1 hI.2.1).weaken fun r hr => ⟨hr.1, hr.2.1, fun s => ?_⟩
  induction s using Fin.lastCases with
  | last => rw [snocA_last]; exact hr.2.2
  | cast s => rw [snocA_castSucc]; exact hI.2.2 s

/-- What the kernels do once the particles are drawn. -/
noncomputable def auxTail (body : (Fin (N + 1) → ℝ) × (Fin (N + 1) → X) → AuxInp Pm X N →
      Ex (((Fin (N + 1) → ℝ) × (Fin (N + 1) → X)) × ((Fin (N + 1) → ℝ) × (Fin (N + 1) → Fin (N + 1)))))
    (key kb : Key) (params : Fin n → Pm) (Γ : X → X → G → ℝ) (Gp : Fin n → G) (xs : Fin (n + 1) → Fin (N + 1) → X)
    (bstar : Fin (n + 1) → Fin (N + 1)) (w0 lw0 : Fin (N + 1) → ℝ) (mv : AncestorMove Ex N) : Ex (KOut X N n) := do
  let r ← scanM body (w0, xs 0) (auxInputs key params xs bstar)
  let q ← backward_sampling_pass kb Γ Gp (lastA bstar) xs (insert0 lw0 fun t => (r.2 t).1) mv true
  pure { xs := q.1, Bs := q.2, log_ws := insert0 lw0 fun t => (r.2 t).1 }

section tail
variable {S : ℝ} {body : (Fin (N + 1) → ℝ) × (Fin (N + 1) → X) → AuxInp Pm X N →
      Ex (((Fin (N + 1) → ℝ) × (Fin (N + 1) → X)) × ((Fin (N + 1) → ℝ) × (Fin (N + 1) → Fin (N + 1))))}
    (key kb : Key) (params : Fin n → Pm) (Γ : X → X → G → ℝ) (Gp : Fin n → G) {xs : Fin (n + 1) → Fin (N + 1) → X}
    {bstar : Fin (n + 1) → Fin (N + 1)} {w0 lw0 : Fin (N + 1) → ℝ} (mv : AncestorMove Ex N)
    (hw0 : IsProb w0) (hlw0 : Flat S lw0)
    (hbody : ∀ t c, IsProb c.1 → c.2 = xs (Fin.castSucc t) →
      ExOn (body c (auxInputs key params xs bstar t)) fun r => IsProb r.1.1 ∧ r.1.2 = xs t.succ ∧ Flat S r.2.1)
include hw0 hlw0 hbody

theorem auxTail_flat (hker : ∀ key, MoveKer (moveIndex mv key)) (hmass : ∀ key, MoveMass (moveIndex mv key))
    (hΓ : ∀ t j, Flat S fun i => Γ (xs (Fin.castSucc t) i) (xs t.succ j) (Gp t)) (b : Fin (N + 1)) (t : Fin n) :
    flatLo N (S + S) ≤ auxTail body key kb params Γ Gp xs bstar w0 lw0 mv (fun o => if o.Bs t.castSucc ≠ b then 1 else 0) ∧
      auxTail body key kb params Γ Gp xs bstar w0 lw0 mv (fun o => if o.Bs t.castSucc ≠ b then 1 else 0) ≤ flatHi N (S + S) := by
  have h := aux_scan_flat key params xs bstar hw0 hbody
  have hb : ∀ r : ((Fin (N + 1) → ℝ) × (Fin (N + 1) → X)) × (Fin n → (Fin (N + 1) → ℝ) × (Fin (N + 1) → Fin (N + 1))),
      (∀ t, Flat S (r.2 t).1) → _ := fun r hr =>
    bsp_flat kb mv hker hmass (log_ws := insert0 lw0 fun t => (r.2 t).1) (Fin.cases hlw0 hr) hΓ (lastA bstar) b t
  exact ⟨h.ge fun r hr => (hb r hr).1, h.le fun r hr => (hb r hr).2⟩

theorem auxTail_last {lo hi : ℝ≥0∞} (g : Fin (N + 1) → ℝ≥0∞)
    (hmv : ∀ key lw, Flat S lw → lo ≤ moveIndex mv key (normalizeW lw) (lastA bstar) g ∧ moveIndex mv key (normalizeW lw) (lastA bstar) g ≤ hi) :
    lo ≤ auxTail body key kb params Γ Gp xs bstar w0 lw0 mv (fun o => g (o.Bs (Fin.last n))) ∧
      auxTail body key kb params Γ Gp xs bstar w0 lw0 mv (fun o => g (o.Bs (Fin.last n))) ≤ hi := by
  have h := aux_scan_flat key params xs bstar hw0 hbody
  have hb : ∀ r : ((Fin (N + 1) → ℝ) × (Fin (N + 1) → X)) × (Fin n → (Fin (N + 1) → ℝ) × (Fin (N + 1) → Fin (N + 1))),
      (∀ t, Flat S (r.2 t).1) →
      lo ≤ (backward_sampling_pass kb Γ Gp (lastA bstar) xs (insert0 lw0 fun t => (r.2 t).1) mv true : Ex _) (fun q => g (q.2 (Fin.last n))) ∧
      (backward_sampling_pass kb Γ Gp (lastA bstar) xs (insert0 lw0 fun t => (r.2 t).1) mv true : Ex _) (fun q => g (q.2 (Fin.last n))) ≤ hi := fun r hr => by
    rw [bsp_last]
    have hf : ∀ t, Flat S ((insert0 lw0 fun t => (r.2 t).1 : Fin (n + 1) → Fin (N + 1) → ℝ) t) := Fin.cases hlw0 hr
    exact hmv _ _ (hf (Fin.last n))
  exact ⟨h.ge fun r hr => (hb r hr).1, h.le fun r hr => (hb r hr).2⟩

end tail

/-! ## Ancestor moves with nearly equal weights -/

theorem barker_flat {S : ℝ} {lw : Fin (N + 1) → ℝ} (h : Flat S lw) (key : Key) (b : Fin (N + 1)) :
    flatLo N S ≤ moveIndex (fun key w => barker_move key w) key (normalizeW lw) b (fun i => if i ≠ b then 1 else 0) ∧
      moveIndex (fun key w => barker_move key w) key (normalizeW lw) b (fun i => if i ≠ b then 1 else 0) ≤ flatHi N S := choice_flat h key b

theorem force_flat (hN : 1 ≤ N) {S : ℝ} (hS : 0 ≤ S) {lw : Fin (N + 1) → ℝ} (h : Flat S lw) (key : Key) (b : Fin (N + 1)) :
    smallAcc S ≤ moveIndex (fun key w => force_move key w) key (normalizeW lw) b (fun i => if i ≠ b then 1 else 0) ∧
      moveIndex (fun key w => force_move key w) key (normalizeW lw) b (fun i => if i ≠ b then 1 else 0) ≤ 1 := by
  refine ⟨?_, forced_le_one (normalize_isProb lw) key b fun i => by split_ifs <;> simp⟩
  unfold smallAcc
  split_ifs with h1
  · refine force_accepts (normalize_isProb lw) hN key h1 (Real.exp_le_one_iff.mpr (by linarith)) fun i => ?_
    rw [normalize_eq, normalize_eq, ← mul_div_assoc, ← Real.exp_add]
    refine div_le_div_of_nonneg_right (Real.exp_le_exp.mpr ?_) (sum_nonneg fun j _ => (Real.exp_pos _).le)
    linarith [h b i]
  · exact zero_le

/-! ## Spread of the log-weights -/

/-- How much the log-weights and the backward weights differ. -/
noncomputable def spread3 (lw0 : Fin (N + 1) → ℝ) (H K : Fin n → Fin (N + 1) → Fin (N + 1) → ℝ) : ℝ :=
  2 * (∑ i, |lw0 i - lw0 0| + ∑ t, ∑ i, ∑ j, |H t i j - H t 0 0| + ∑ t, ∑ i, ∑ j, |K t i j - K t 0 j|)

section spread
variable (lw0 : Fin (N + 1) → ℝ) (H K : Fin n → Fin (N + 1) → Fin (N + 1) → ℝ)

theorem spread3_nonneg : 0 ≤ spread3 lw0 H K := by
  unfold spread3
  positivity

theorem spread3_flat0 : Flat (spread3 lw0 H K) lw0 := fun i k => by
  have h1 : ∀ i, |lw0 i - lw0 0| ≤ ∑ i, |lw0 i - lw0 0| := fun i => single_le_sum (f := fun i => |lw0 i - lw0 0|) (fun i _ => abs_nonneg _) (mem_univ i)
  have h2 := le_abs_self (lw0 i - lw0 0)
  have h3 := neg_abs_le (lw0 k - lw0 0)
  have h4 : 0 ≤ ∑ t, ∑ i, ∑ j, |H t i j - H t 0 0| := by positivity
  have h5 : 0 ≤ ∑ t, ∑ i, ∑ j, |K t i j - K t 0 j| := by positivity
  unfold spread3
  linarith [h1 i, h1 k]

theorem triple_le {f : Fin n → Fin (N + 1) → Fin (N + 1) → ℝ} (hf : ∀ t i j, 0 ≤ f t i j) (t : Fin n) (i j : Fin (N + 1)) :
    f t i j ≤ ∑ t, ∑ i, ∑ j, f t i j :=
  (single_le_sum (fun j _ => hf t i j) (mem_univ j)).trans
    ((single_le_sum (f := fun i => ∑ j, f t i j) (fun i _ => sum_nonneg fun j _ => hf t i j) (mem_univ i)).trans
      (single_le_sum (f := fun t => ∑ i, ∑ j, f t i j) (fun t _ => sum_nonneg fun i _ => sum_nonneg fun j _ => hf t i j) (mem_univ t)))

theorem spread3_flatH (t : Fin n) (A : Fin (N + 1) → Fin (N + 1)) : Flat (spread3 lw0 H K) fun i => H t (A i) i := fun i k => by
  have h1 := fun i j => triple_le (f := fun t i j => |H t i j - H t 0 0|) (fun _ _ _ => abs_nonneg _) t i j
  have h2 := le_abs_self (H t (A i) i - H t 0 0)
  have h3 := neg_abs_le (H t (A k) k - H t 0 0)
  have h4 : 0 ≤ ∑ i, |lw0 i - lw0 0| := by positivity
  have h5 : 0 ≤ ∑ t, ∑ i, ∑ j, |K t i j - K t 0 j| := by positivity
  have h6 := h1 (A i) i
  have h7 := h1 (A k) k
  dsimp only at h6 h7 ⊢
  unfold spread3
  linarith

theorem spread3_flatK (t : Fin n) (j : Fin (N + 1)) : Flat (spread3 lw0 H K) fun i => K t i j := fun i k => by
  have h1 := fun i => triple_le (f := fun t i j => |K t i j - K t 0 j|) (fun _ _ _ => abs_nonneg _) t i j
  have h2 := le_abs_self (K t i j - K t 0 j)
  have h3 := neg_abs_le (K t k j - K t 0 j)
  have h4 : 0 ≤ ∑ i, |lw0 i - lw0 0| := by positivity
  have h5 : 0 ≤ ∑ t, ∑ i, ∑ j, |H t i j - H t 0 0| := by positivity
  have h6 := h1 i
  have h7 := h1 k
  dsimp only at h6 h7 ⊢
  unfold spread3
  linarith

end spread

theorem spread3_tendsto {l : Filter ι} {lw0 : ι → Fin (N + 1) → ℝ} {H K : ι → Fin n → Fin (N + 1) → Fin (N + 1) → ℝ} {c0 : ℝ} {c : Fin n → ℝ}
    (h0 : ∀ i, Tendsto (fun s => lw0 s i) l (𝓝 c0)) (hH : ∀ t i j, Tendsto (fun s => H s t i j) l (𝓝 (c t)))
    (hK : ∀ t i j, Tendsto (fun s => K s t i j - K s t 0 j) l (𝓝 0)) : Tendsto (fun s => spread3 (lw0 s) (H s) (K s)) l (𝓝 0) := by
  have e : (0 : ℝ) = 2 * (∑ _i : Fin (N + 1), |c0 - c0| + ∑ t : Fin n, ∑ _i : Fin (N + 1), ∑ _j : Fin (N + 1), |c t - c t| +
      ∑ _t : Fin n, ∑ _i : Fin (N + 1), ∑ _j : Fin (N + 1), |(0 : ℝ)|) := by simp
  rw [e]
  refine Tendsto.const_mul 2 (((tendsto_finsetSum _ fun i _ => ((h0 i).sub (h0 0)).abs).add ?_).add ?_)
  · exact tendsto_finsetSum _ fun t _ => tendsto_finsetSum _ fun i _ => tendsto_finsetSum _ fun j _ => ((hH t i j).sub (hH t 0 0)).abs
  · exact tendsto_finsetSum _ fun t _ => tendsto_finsetSum _ fun i _ => tendsto_finsetSum _ fun j _ => (hK t i j).abs

theorem continuous_spread3 {Y : Type} [TopologicalSpace Y] {lw0 : Y → Fin (N + 1) → ℝ} {H K : Y → Fin n → Fin (N + 1) → Fin (N + 1) → ℝ}
    (h0 : ∀ i, Continuous fun y => lw0 y i) (hH : ∀ t i j, Continuous fun y => H y t i j) (hK : ∀ t i j, Continuous fun y => K y t i j) :
    Continuous fun y => spread3 (lw0 y) (H y) (K y) := by
  unfold spread3
  refine continuous_const.mul (((continuous_finsetSum _ fun i _ => ((h0 i).sub (h0 0)).abs).add ?_).add ?_)
  · exact continuous_finsetSum _ fun t _ => continuous_finsetSum _ fun i _ => continuous_finsetSum _ fun j _ => ((hH t i j).sub (hH t 0 0)).abs
  · exact continuous_finsetSum _ fun t _ => continuous_finsetSum _ fun i _ => continuous_finsetSum _ fun j _ => ((hK t i j).sub (hK t 0 j)).abs

/-! ## Limits -/

/-- Averages over the noise of probabilities that are known up to a vanishing spread. -/
theorem noise_limit {E E' : Type} [MeasurableSpace E] [MeasurableSpace E'] {μ : Measure E} {ν : Measure E'} [IsProbabilityMeasure μ] [IsProbabilityMeasure ν]
    {l : Filter ι} [l.IsCountablyGenerated] {S : ι → E × E' → ℝ} (hS : ∀ s, Measurable (S s)) (hS0 : ∀ s p, 0 ≤ S s p)
    (hlim : ∀ p, Tendsto (fun s => S s p) l (𝓝 0)) {P : ι → E → E' → ℝ≥0∞} {lo hi : ℝ → ℝ≥0∞} (hlo : Measurable lo) (hhi : Measurable hi)
    (hlo1 : ∀ s, 0 ≤ s → lo s ≤ 1) (hhi1 : ∀ s, 0 ≤ s → hi s ≤ 1) {L : ℝ≥0∞} (hloL : Tendsto lo (𝓝 0) (𝓝 L)) (hhiL : Tendsto hi (𝓝 0) (𝓝 L))
    (hP : ∀ s a e, lo (S s (a, e)) ≤ P s a e ∧ P s a e ≤ hi (S s (a, e))) :
    Tendsto (fun s => ∫⁻ a, ∫⁻ e, P s a e ∂ν ∂μ) l (𝓝 L) := by
  have key : ∀ g : ℝ → ℝ≥0∞, Measurable g → (∀ s, 0 ≤ s → g s ≤ 1) → Tendsto g (𝓝 0) (𝓝 L) →
      Tendsto (fun s => ∫⁻ a, ∫⁻ e, g (S s (a, e)) ∂ν ∂μ) l (𝓝 L) := fun g hg h1 hL => by
    have e : ∀ s, ∫⁻ a, ∫⁻ e, g (S s (a, e)) ∂ν ∂μ = ∫⁻ p, g (S s p) ∂(μ.prod ν) := fun s =>
      (lintegral_prod (fun p => g (S s p)) (hg.comp (hS s)).aemeasurable).symm
    simp only [e]
    have h := tendsto_lintegral_filter_of_dominated_convergence (μ := μ.prod ν) (l := l) (F := fun s p => g (S s p)) (f := fun _ => L) (fun _ => 1)
      (.of_forall fun s => hg.comp (hS s)) (.of_forall fun s => .of_forall fun p => h1 _ (hS0 s p)) (by simp)
      (.of_forall fun p => hL.comp (hlim p))
    simpa using h
  exact tendsto_of_tendsto_of_tendsto_of_le_of_le (key lo hlo hlo1 hloL) (key hi hhi hhi1 hhiL)
    (fun s => lintegral_mono fun a => lintegral_mono fun e => (hP s a e).1) (fun s => lintegral_mono fun a => lintegral_mono fun e => (hP s a e).2)

theorem flatLo_le (N : ℕ) (s : ℝ) : flatLo N s ≤ 1 := ENNReal.ofReal_le_one.mpr (by
  have : 0 ≤ Real.exp s / ((N : ℝ) + 1) := by positivity
  linarith)

theorem flatHi_le (N : ℕ) (s : ℝ) : flatHi N s ≤ 1 := flatLo_le N (-s)

theorem continuous_flatLo (N : ℕ) : Continuous (flatLo N) := by
  unfold flatLo
  exact ENNReal.continuous_ofReal.comp (by fun_prop)

theorem flatLo_tendsto (N : ℕ) : Tendsto (flatLo N) (𝓝 0) (𝓝 (ENNReal.ofReal (N / (N + 1)))) := by
  have h := (continuous_flatLo N).tendsto 0
  have e : flatLo N 0 = ENNReal.ofReal (N / (N + 1)) := by
    unfold flatLo
    congr 1
    rw [Real.exp_zero]
    field_simp
    ring
  rwa [e] at h

theorem continuous_flatHi (N : ℕ) : Continuous (flatHi N) := (continuous_flatLo N).comp continuous_neg

theorem flatHi_tendsto (N : ℕ) : Tendsto (flatHi N) (𝓝 0) (𝓝 (ENNReal.ofReal (N / (N + 1)))) := by
  have h : Tendsto (fun s : ℝ => -s) (𝓝 0) (𝓝 0) := by
    have := (continuous_neg (G := ℝ)).tendsto 0
    rwa [neg_zero] at this
  exact (flatLo_tendsto N).comp h

theorem double_tendsto {f : ℝ → ℝ≥0∞} {L : ℝ≥0∞} (h : Tendsto f (𝓝 0) (𝓝 L)) : Tendsto (fun s => f (s + s)) (𝓝 0) (𝓝 L) := by
  have h2 : Tendsto (fun s : ℝ => s + s) (𝓝 0) (𝓝 0) := by
    have h : Continuous fun s : ℝ => s + s := by fun_prop
    simpa using h.tendsto 0
  exact h.comp h2

end Verif
