import Verif.Spec.Near
import Verif.Lemmas.MoveError
import Verif.Lemmas.ChainInv

/-!
# Invariance up to a total-variation error
-/

open scoped ENNReal
open MeasureTheory Finset

namespace Verif
open Verif.Spec Verif.Model

/-- Finitely many outcomes with measurable probabilities. -/
theorem isKer_of_probs {β : Type} [MeasurableSpace β] {n : ℕ} {c : β → Fin n → ℝ} (hc : ∀ i, Measurable fun b => c b i)
    {P : β → Ex (Fin n)} (hP : ∀ b f, P b f = ∑ i, ENNReal.ofReal (c b i) * f i) : IsKer P := by
  have hm : Measurable (Function.uncurry fun (b : β) (i : Fin n) => ENNReal.ofReal (c b i)) :=
    ENNReal.measurable_ofReal.comp (measurable_from_prod_countable_left fun i => hc i)
  refine ⟨(ProbabilityTheory.Kernel.const β Measure.count).withDensity fun b i => ENNReal.ofReal (c b i),
    ProbabilityTheory.Kernel.IsSFiniteKernel.withDensity _ fun b i => ENNReal.ofReal_ne_top, fun b f hf => ?_⟩
  rw [ProbabilityTheory.Kernel.lintegral_withDensity _ hm b hf, ProbabilityTheory.Kernel.const_apply, lintegral_fintype, hP]
  simp

/-! ## The Metropolised Gibbs move -/

section liu
variable {N : ℕ} {w : Fin (N + 1) → ℝ}

theorem pair_le_one (hw : IsProb w) {k l : Fin (N + 1)} (h : k ≠ l) : w k + w l ≤ 1 := by
  have := Finset.sum_le_sum_of_subset_of_nonneg (f := w) (subset_univ {k, l}) fun i _ _ => hw.nonneg i
  rwa [sum_pair h, hw.sum_one] at this

theorem liuQ_nonneg (hw : IsProb w) (k l : Fin (N + 1)) : 0 ≤ liuQ w k l :=
  div_nonneg (hw.nonneg l) (le_max_of_le_left (by linarith [hw.le_one k]))

theorem sum_erase (hw : IsProb w) (k : Fin (N + 1)) : ∑ l ∈ univ.erase k, w l = 1 - w k := by
  have := Finset.add_sum_erase univ w (mem_univ k)
  rw [hw.sum_one] at this
  linarith

theorem liuQ_sum_le (hw : IsProb w) (k : Fin (N + 1)) : ∑ l ∈ univ.erase k, liuQ w k l ≤ 1 := by
  rcases eq_or_lt_of_le (hw.le_one k) with h1 | h1
  · refine (sum_eq_zero fun l hl => ?_).trans_le zero_le_one
    have h2 := pair_le_one hw (ne_of_mem_erase hl).symm
    have h3 : w l = 0 := le_antisymm (by linarith) (hw.nonneg l)
    rw [liuQ, h3, zero_div]
  · have hp : 0 < 1 - w k := by linarith
    calc ∑ l ∈ univ.erase k, liuQ w k l ≤ ∑ l ∈ univ.erase k, w l / (1 - w k) :=
          sum_le_sum fun l _ => div_le_div_of_nonneg_left (hw.nonneg l) hp (le_max_left _ _)
      _ = 1 := by rw [← sum_div, sum_erase hw, div_self hp.ne']

theorem liuQ_balance (k l : Fin (N + 1)) : w k * liuQ w k l = w l * liuQ w l k := by
  rw [liuQ, liuQ, max_comm (1 - w l)]
  ring

/-- Detailed balance off the diagonal gives invariance. -/
theorem invariant_of_balance {Q : Fin (N + 1) → Fin (N + 1) → ℝ} (hw : IsProb w) (hQ : ∀ k l, 0 ≤ Q k l)
    (hs : ∀ k, ∑ l ∈ univ.erase k, Q k l ≤ 1) (hb : ∀ k l, k ≠ l → w k * Q k l = w l * Q l k) (f : Fin (N + 1) → ℝ≥0∞) :
    ∑ k, ENNReal.ofReal (w k) * ((∑ l ∈ univ.erase k, ENNReal.ofReal (Q k l) * f l) +
      ENNReal.ofReal (1 - ∑ l ∈ univ.erase k, Q k l) * f k) = ∑ k, ENNReal.ofReal (w k) * f k := by
  have e : ∀ k (g : Fin (N + 1) → ℝ≥0∞), ∑ l ∈ univ.erase k, g l = ∑ l, if k = l then 0 else g l := by
    intro k g
    rw [← Finset.add_sum_erase univ _ (mem_univ k)]
    simp only [if_true, zero_add]
    exact sum_congr rfl fun l hl => by simp [(ne_of_mem_erase hl).symm]
  have e' : ∀ k (g : Fin (N + 1) → ℝ), ∑ l ∈ univ.erase k, g l = ∑ l, if k = l then 0 else g l := by
    intro k g
    rw [← Finset.add_sum_erase univ _ (mem_univ k)]
    simp only [if_true, zero_add]
    exact sum_congr rfl fun l hl => by simp [(ne_of_mem_erase hl).symm]
  have h1 : ∀ k, ENNReal.ofReal (w k) * ((∑ l ∈ univ.erase k, ENNReal.ofReal (Q k l) * f l) +
      ENNReal.ofReal (1 - ∑ l ∈ univ.erase k, Q k l) * f k) =
      (∑ l, if k = l then 0 else ENNReal.ofReal (w k * Q k l) * f l) +
      ENNReal.ofReal (w k - ∑ l, if k = l then 0 else w k * Q k l) * f k := by
    intro k
    have hwk := hw.nonneg k
    rw [mul_add, ← mul_assoc, ← ENNReal.ofReal_mul hwk, mul_sum, e]
    congr 1
    · refine sum_congr rfl fun l _ => ?_
      split_ifs
      · rfl
      · rw [← mul_assoc, ← ENNReal.ofReal_mul hwk]
    · congr 2
      rw [mul_sub, mul_one, mul_sum, e']
  simp only [h1, sum_add_distrib]
  rw [sum_comm, ← sum_add_distrib]
  refine sum_congr rfl fun k _ => ?_
  have h2 : (∑ l, if l = k then (0 : ℝ≥0∞) else ENNReal.ofReal (w l * Q l k) * f k) =
      ENNReal.ofReal (∑ l, if k = l then 0 else w k * Q k l) * f k := by
    rw [ENNReal.ofReal_sum_of_nonneg, sum_mul]
    · refine Finset.sum_congr rfl (fun l _ => ?_)
      by_cases h : l = k
      · simp [h]
      · simp only [h, Ne.symm h, if_false]
        rw [hb l k h]
    · intro l _
      split_ifs
      · exact le_rfl
      · exact mul_nonneg (hw.nonneg k) (hQ k l)
  rw [h2, ← add_mul, ← ENNReal.ofReal_add]
  · congr 2; exact add_sub_cancel _ _
  · refine Finset.sum_nonneg (fun l _ => ?_)
    split_ifs
    · exact le_rfl
    · exact mul_nonneg (hw.nonneg k) (hQ k l)
  · have h3 := hs k
    have e2 : (∑ l, if k = l then 0 else w k * Q k l) = w k * ∑ l ∈ univ.erase k, Q k l := by
      rw [mul_sum, e']
    rw [e2]
    nlinarith [hw.nonneg k]

theorem measurable_liuQ (k l : Fin (N + 1)) : Measurable fun w : Fin (N + 1) → ℝ => liuQ w k l := by
  unfold liuQ
  fun_prop

theorem liuMove_ker : MoveKer (liuMove (N := N)) := by
  refine isKer_of_probs (c := fun (p : (Fin (N + 1) → ℝ) × Fin (N + 1)) l =>
    if l = p.2 then 1 - ∑ l ∈ univ.erase p.2, liuQ p.1 p.2 l else liuQ p.1 p.2 l) (fun l => ?_) fun p f => ?_
  · refine measurable_from_prod_countable_left fun k => ?_
    show Measurable fun w => if l = k then 1 - ∑ l ∈ univ.erase k, liuQ w k l else liuQ w k l
    split_ifs
    · exact measurable_const.sub (Finset.measurable_fun_sum _ fun l _ => measurable_liuQ k l)
    · exact measurable_liuQ k l
  · rw [← Finset.add_sum_erase univ _ (mem_univ p.2)]
    simp only [if_true]
    refine (add_comm _ _).trans (congrArg₂ _ rfl ?_)
    exact sum_congr rfl fun l hl => by simp only [ne_of_mem_erase hl, if_false]

/-- The Metropolised Gibbs move leaves the weights invariant. -/
theorem liu_moveInvariant : MoveInvariant (liuMove (N := N)) where
  ker := liuMove_ker
  inv _ hw _ f := invariant_of_balance hw (liuQ_nonneg hw) (liuQ_sum_le hw) (fun k l _ => liuQ_balance k l) f

/-! ## `force_move` and the Metropolised Gibbs move -/

theorem forceQ_eq_liuQ (hw : IsProb w) {k l : Fin (N + 1)} (hkl : l ≠ k) (hk : w k < forceThreshold (N + 1)) :
    forceQ w k l = liuQ w k l := by
  have h1 : w k < 1 := hk.trans (forceThreshold_lt_one _)
  have h2 := pair_le_one hw hkl
  have h3 := hw.nonneg l
  simp only [forceQ, forceRest, hk, if_true, atSet_ne _ _ hkl, forceAcc, liuQ, h1, true_and]
  have h4 : (1 - w k) ≠ 0 := by linarith
  by_cases hle : w k ≤ w l
  · rw [if_pos hle, max_eq_left (by linarith), mul_one]
  · rw [if_neg hle, max_eq_right (by linarith)]
    have h5 : (1 - w l) ≠ 0 := by linarith
    field_simp

theorem forceQ_sum_guarded (hw : IsProb w) {k : Fin (N + 1)} (hk : forceThreshold (N + 1) ≤ w k) :
    ∑ l ∈ univ.erase k, forceQ w k l ≤ (1 - w k) / w k := by
  have htg := forceThreshold_ge (N + 1)
  have hbig : (0.9 : ℝ) ≤ w k := by norm_num at htg ⊢; linarith
  have hpos : 0 < w k := by norm_num at hbig; linarith
  have h1 := hw.le_one k
  calc ∑ l ∈ univ.erase k, forceQ w k l ≤ ∑ l ∈ univ.erase k, 1 / ((N : ℝ) + 1) * ((1 - w k) / w k) := by
        refine sum_le_sum fun l hl => ?_
        have h2 := pair_le_one hw (ne_of_mem_erase hl)
        have hnle : ¬ (w k ≤ w l) := by norm_num at hbig; linarith
        simp only [forceQ, forceRest, not_lt.mpr hk, if_false, forceAcc, hnle, and_false]
        refine mul_le_mul_of_nonneg_left ?_ (by positivity)
        exact div_le_div_of_nonneg_left (by linarith) hpos (by linarith)
    _ ≤ ∑ _l : Fin (N + 1), 1 / ((N : ℝ) + 1) * ((1 - w k) / w k) := by
        refine sum_le_sum_of_subset_of_nonneg (erase_subset _ _) fun i _ _ => ?_
        exact mul_nonneg (by positivity) (div_nonneg (by linarith) hpos.le)
    _ = (1 - w k) / w k := by
        rw [sum_const, card_univ, Fintype.card_fin, nsmul_eq_mul]
        push_cast
        field_simp

theorem liuQ_sum_guarded (hw : IsProb w) {k : Fin (N + 1)} (hk : forceThreshold (N + 1) ≤ w k) :
    ∑ l ∈ univ.erase k, liuQ w k l ≤ (1 - w k) / w k := by
  have htg := forceThreshold_ge (N + 1)
  have hbig : (0.9 : ℝ) ≤ w k := by norm_num at htg ⊢; linarith
  have hpos : 0 < w k := by norm_num at hbig; linarith
  calc ∑ l ∈ univ.erase k, liuQ w k l ≤ ∑ l ∈ univ.erase k, w l / w k := by
        refine sum_le_sum fun l hl => ?_
        have h2 := pair_le_one hw (ne_of_mem_erase hl)
        refine div_le_div_of_nonneg_left (hw.nonneg l) hpos ?_
        exact le_max_of_le_right (by linarith)
    _ = (1 - w k) / w k := by rw [← sum_div, sum_erase hw]

/-- Two moves that rarely leave `k` are close. -/
theorem rare_moves_le {k : Fin (N + 1)} {Q Q' : Fin (N + 1) → ℝ} {p p' : ℝ} (hQ : ∀ l, 0 ≤ Q l) (hQ' : ∀ l, 0 ≤ Q' l)
    (hp : ∑ l ∈ univ.erase k, Q l ≤ p) (hp' : ∑ l ∈ univ.erase k, Q' l ≤ p') (hs' : ∑ l ∈ univ.erase k, Q' l ≤ 1)
    {f : Fin (N + 1) → ℝ≥0∞} (hf : ∀ l, f l ≤ 1) :
    (∑ l ∈ univ.erase k, ENNReal.ofReal (Q l) * f l) + ENNReal.ofReal (1 - ∑ l ∈ univ.erase k, Q l) * f k ≤
    ((∑ l ∈ univ.erase k, ENNReal.ofReal (Q' l) * f l) + ENNReal.ofReal (1 - ∑ l ∈ univ.erase k, Q' l) * f k) +
      ENNReal.ofReal (p + p') := by
  have n1 : 0 ≤ ∑ l ∈ univ.erase k, Q l := sum_nonneg fun l _ => hQ l
  have n2 : 0 ≤ ∑ l ∈ univ.erase k, Q' l := sum_nonneg fun l _ => hQ' l
  have h1 : ∑ l ∈ univ.erase k, ENNReal.ofReal (Q l) * f l ≤ ENNReal.ofReal p := by
    calc ∑ l ∈ univ.erase k, ENNReal.ofReal (Q l) * f l ≤ ∑ l ∈ univ.erase k, ENNReal.ofReal (Q l) :=
          sum_le_sum fun l _ => mul_le_of_le_one_right' (hf l)
      _ = ENNReal.ofReal (∑ l ∈ univ.erase k, Q l) := (ENNReal.ofReal_sum_of_nonneg fun l _ => hQ l).symm
      _ ≤ ENNReal.ofReal p := ENNReal.ofReal_le_ofReal hp
  have h2 : ENNReal.ofReal (1 - ∑ l ∈ univ.erase k, Q l) * f k ≤ f k :=
    mul_le_of_le_one_left' (by rw [← ENNReal.ofReal_one]; exact ENNReal.ofReal_le_ofReal (by linarith))
  have h3 : f k ≤ ENNReal.ofReal (1 - ∑ l ∈ univ.erase k, Q' l) * f k + ENNReal.ofReal p' := by
    calc f k = ENNReal.ofReal ((1 - ∑ l ∈ univ.erase k, Q' l) + ∑ l ∈ univ.erase k, Q' l) * f k := by simp
      _ = ENNReal.ofReal (1 - ∑ l ∈ univ.erase k, Q' l) * f k + ENNReal.ofReal (∑ l ∈ univ.erase k, Q' l) * f k := by
          rw [ENNReal.ofReal_add (by linarith) n2, add_mul]
      _ ≤ ENNReal.ofReal (1 - ∑ l ∈ univ.erase k, Q' l) * f k + ENNReal.ofReal p' := by
          gcongr
          exact (mul_le_of_le_one_right' (hf k)).trans (ENNReal.ofReal_le_ofReal hp')
  rw [ENNReal.ofReal_add (n1.trans hp) (n2.trans hp')]
  calc _ ≤ ENNReal.ofReal p + (ENNReal.ofReal (1 - ∑ l ∈ univ.erase k, Q' l) * f k + ENNReal.ofReal p') := by
        gcongr
        exact h2.trans h3
    _ = ENNReal.ofReal (1 - ∑ l ∈ univ.erase k, Q' l) * f k + (ENNReal.ofReal p + ENNReal.ofReal p') := by ring
    _ ≤ _ := by
        gcongr
        exact le_add_self

/-- The distance between `force_move` and the Metropolised Gibbs move. -/
theorem force_near_liu (key : Key) (hw : IsProb w) (k : Fin (N + 1)) :
    TVLe (ENNReal.ofReal 3e-12) (moveIndex (fun key w k => force_move key w k) key w k) (liuMove w k) := by
  intro f _ hf
  have e : moveIndex (fun key w k => force_move key w k) key w k f =
      (∑ l ∈ univ.erase k, ENNReal.ofReal (forceQ w k l) * f l) +
      ENNReal.ofReal (1 - ∑ l ∈ univ.erase k, forceQ w k l) * f k := force_move_law' hw key k (fun r => f r.1)
  rw [e, liuMove]
  by_cases hk : w k < forceThreshold (N + 1)
  · have h1 : ∀ l ∈ univ.erase k, forceQ w k l = liuQ w k l := fun l hl => forceQ_eq_liuQ hw (ne_of_mem_erase hl) hk
    rw [sum_congr rfl h1, sum_congr rfl fun l hl => by rw [h1 l hl]]
    exact ⟨le_self_add, le_self_add⟩
  · have hk' := not_lt.mp hk
    have h1 : (1 - w k) / w k + (1 - w k) / w k ≤ 3e-12 := by
      have htg := forceThreshold_ge (N + 1)
      have hpos : 0 < w k := by norm_num at htg; linarith
      rw [← add_div, div_le_iff₀ hpos]
      norm_num at htg ⊢
      linarith
    have h2 : ENNReal.ofReal ((1 - w k) / w k + (1 - w k) / w k) ≤ ENNReal.ofReal 3e-12 := ENNReal.ofReal_le_ofReal h1
    have a := forceQ_sum_guarded hw hk'
    have b := liuQ_sum_guarded hw hk'
    constructor
    · exact (rare_moves_le (forceQ_nonneg hw k) (liuQ_nonneg hw k) a b (liuQ_sum_le hw k) hf).trans (by gcongr)
    · exact (rare_moves_le (liuQ_nonneg hw k) (forceQ_nonneg hw k) b a (forceQ_sum_le hw k) hf).trans (by gcongr)

theorem measurable_forceRest : Measurable fun p : (Fin (N + 1) → ℝ) × Fin (N + 1) => forceRest p.1 p.2 := by
  refine measurable_from_prod_countable_left fun k => ?_
  show Measurable fun w : Fin (N + 1) → ℝ => forceRest w k
  unfold forceRest
  refine Measurable.ite (measurableSet_lt (measurable_pi_apply k) measurable_const) ?_ measurable_const
  refine measurable_pi_lambda _ fun i => Measurable.div ?_ (by fun_prop)
  have h := measurable_atSet (a := fun w : Fin (N + 1) → ℝ => w) (i := fun _ => k) (v := fun _ => (0 : ℝ)) measurable_id
    measurable_const measurable_const
  exact (measurable_pi_apply i).comp h

theorem force_moveKer (key : Key) : MoveKer (N := N) (moveIndex (fun key w k => force_move key w k) key) := by
  have h : IsKer (fun p : (Fin (N + 1) → ℝ) × Fin (N + 1) => (do
      let i ← RandM.choice (splitKey key 2 0) (forceRest p.1 p.2)
      let u ← RandM.uniform (splitKey key 2 1)
      pure (if u * (1 - p.1 i) < 1 - p.1 p.2 then i else p.2) : Ex (Fin (N + 1)))) := by
    refine IsKer.bind (F := fun p i => RandM.uniform (splitKey key 2 1) >>= fun u =>
      pure (if u * (1 - p.1 i) < 1 - p.1 p.2 then i else p.2)) (IsKer.choice _ measurable_forceRest) ?_
    refine IsKer.bind (F := fun (p : ((Fin (N + 1) → ℝ) × Fin (N + 1)) × Fin (N + 1)) u =>
      pure (if u * (1 - p.1.1 p.2) < 1 - p.1.1 p.1.2 then p.2 else p.1.2)) (IsKer.uniform _) ?_
    refine IsKer.pure (g := fun q : (((Fin (N + 1) → ℝ) × Fin (N + 1)) × Fin (N + 1)) × ℝ =>
      if q.2 * (1 - q.1.1.1 q.1.2) < 1 - q.1.1.1 q.1.1.2 then q.1.2 else q.1.1.2) ?_
    refine Measurable.ite (measurableSet_lt ?_ ?_) (by fun_prop) (by fun_prop)
    · exact measurable_snd.mul (measurable_const.sub (measurable_index (by fun_prop) (by fun_prop)))
    · exact measurable_const.sub (measurable_index (by fun_prop) (by fun_prop))
  exact h

end liu

/-! ## Comparison of kernels -/

section kernel
variable {X : Type} [MeasurableSpace X] {N n : ℕ}

theorem Sys.OK.kernel_le {S : Sys X N n} (hS : S.OK) {Γ : Fin n → X → X → ℝ}
    (hΓ : ∀ t, Measurable fun p : X × X => Γ t p.1 p.2)
    {move move' : (Fin (N + 1) → ℝ) → Fin (N + 1) → Ex (Fin (N + 1))} (hm : MoveKer move) (hm' : MoveKer move')
    {ε : ℝ≥0∞} (hn : ∀ w, IsProb w → ∀ k, ∀ f : Fin (N + 1) → ℝ≥0∞, (∀ i, f i ≤ 1) → move w k f ≤ move' w k f + ε)
    (backward : Bool) (x : Fin (n + 1) → X) (b : Fin (n + 1) → Fin (N + 1))
    {f : (Fin (n + 1) → X) × (Fin (n + 1) → Fin (N + 1)) → ℝ≥0∞} (hf : Measurable f) (h1 : ∀ z, f z ≤ 1) :
    S.kernel Γ move backward x b f ≤ S.kernel Γ move' backward x b f + ε := by
  obtain ⟨g, hg⟩ : ∃ g : Hist X N n → Fin (N + 1) → ℝ≥0∞, g = fun h k =>
    (if backward = true then S.bs Γ h k else (pure (h.tracex k, h.trace k) : Ex _)) f := ⟨_, rfl⟩
  have hker : IsKer (fun p : Hist X N n × Fin (N + 1) => if backward = true then S.bs Γ p.1 p.2
        else (pure (p.1.tracex p.2, p.1.trace p.2) : Ex _)) := by
    cases backward with
    | true => simpa using hS.bs_ker hΓ
    | false =>
      simpa using IsKer.pure (by fun_prop : Measurable fun p : Hist X N n × Fin (N + 1) => (p.1.tracex p.2, p.1.trace p.2))
  have hgm : Measurable fun p : Hist X N n × Fin (N + 1) => g p.1 p.2 := by
    rw [hg]
    exact hker.measurable' hf
  have hg1 : ∀ h k, g h k ≤ 1 := by
    intro h k
    rw [hg]
    refine (hker.mono (h, k) hf measurable_const h1).trans ?_
    cases backward with
    | true => exact (S.bs_mass Γ h k).le
    | false => exact le_rfl
  have hmm : ∀ {mv : (Fin (N + 1) → ℝ) → Fin (N + 1) → Ex (Fin (N + 1))}, MoveKer mv →
      Measurable fun h => mv (S.wLast h) (lastA b) (g h) := fun {mv} hk =>
    (hk.comp (g := fun h : Hist X N n => (S.wLast h, lastA b)) (hS.measurable_wLast.prodMk measurable_const)).measurable
      (f := fun h k => g h k) hgm
  have hK : ∀ mv : (Fin (N + 1) → ℝ) → Fin (N + 1) → Ex (Fin (N + 1)), S.kernel Γ mv backward x b f =
      S.fwd b x (fun h => mv (S.wLast h) (lastA b) (g h)) := fun mv => by rw [hg]; rfl
  rw [hK, hK]
  have hF := hS.fwd_ker
  calc S.fwd b x (fun h => move (S.wLast h) (lastA b) (g h))
      ≤ S.fwd b x (fun h => move' (S.wLast h) (lastA b) (g h) + ε) :=
        hF.mono (b, x) (hmm hm) ((hmm hm').add measurable_const) fun h => hn _ (normalize_isProb _) _ _ (hg1 h)
    _ = S.fwd b x (fun h => move' (S.wLast h) (lastA b) (g h)) + S.fwd b x (fun _ => ε) :=
        hF.add (b, x) (hmm hm') measurable_const
    _ = _ := by rw [hF.const_fun (b, x) ε, hS.fwd_mass, mul_one]

/-- Kernels of one particle system with two moves that are close. -/
theorem Sys.OK.kernel_near {S : Sys X N n} (hS : S.OK) {Γ : Fin n → X → X → ℝ}
    (hΓ : ∀ t, Measurable fun p : X × X => Γ t p.1 p.2)
    {move move' : (Fin (N + 1) → ℝ) → Fin (N + 1) → Ex (Fin (N + 1))} (hm : MoveKer move) (hm' : MoveKer move')
    {ε : ℝ≥0∞} (hn : ∀ w, IsProb w → ∀ k, TVLe ε (move w k) (move' w k))
    (backward : Bool) (x : Fin (n + 1) → X) (b : Fin (n + 1) → Fin (N + 1)) :
    TVLe ε (S.kernel Γ move backward x b) (S.kernel Γ move' backward x b) := fun _ hf h1 =>
  ⟨hS.kernel_le hΓ hm hm' (fun w hw k f h => (hn w hw k f (measurable_of_finite f) h).1) backward x b hf h1,
    hS.kernel_le hΓ hm' hm (fun w hw k f h => (hn w hw k f (measurable_of_finite f) h).2) backward x b hf h1⟩

/-- Mixtures of kernels that are close. -/
theorem TVLe.mixture {α θ : Type} [MeasurableSpace α] [MeasurableSpace θ] {μ : Measure θ} [IsProbabilityMeasure μ]
    {ε : ℝ≥0∞} {P Q : θ → Ex α} (h : ∀ e, TVLe ε (P e) (Q e)) {P' Q' : Ex α}
    (hP : ∀ f, Measurable f → P' f = ∫⁻ e, P e f ∂μ) (hQ : ∀ f, Measurable f → Q' f = ∫⁻ e, Q e f ∂μ) :
    TVLe ε P' Q' := by
  intro f hf h1
  rw [hP f hf, hQ f hf]
  constructor
  · calc ∫⁻ e, P e f ∂μ ≤ ∫⁻ e, (Q e f + ε) ∂μ := lintegral_mono fun e => (h e f hf h1).1
      _ = _ := by rw [lintegral_add_right _ measurable_const, lintegral_const, measure_univ, mul_one]
  · calc ∫⁻ e, Q e f ∂μ ≤ ∫⁻ e, (P e f + ε) ∂μ := lintegral_mono fun e => (h e f hf h1).2
      _ = _ := by rw [lintegral_add_right _ measurable_const, lintegral_const, measure_univ, mul_one]

/-- A kernel close to an invariant one is nearly invariant. -/
theorem LeavesInvariant.near {lam : Measure X} {logpi : (Fin (n + 1) → X) → ℝ} (hpi : Measurable logpi)
    {K K' : (Fin (n + 1) → X) → (Fin (n + 1) → Fin (N + 1)) → Ex ((Fin (n + 1) → X) × (Fin (n + 1) → Fin (N + 1)))}
    (hK : LeavesInvariant lam logpi K) {ε : ℝ≥0∞} (hn : ∀ x b, TVLe ε (K' x b) (K x b)) :
    LeavesNearInvariant ε lam logpi K' := by
  have hm : Measurable fun x => ENNReal.ofReal (Real.exp (logpi x)) := by fun_prop
  have key : ∀ (A B : (Fin (n + 1) → X) → (Fin (n + 1) → Fin (N + 1)) → ℝ≥0∞), (∀ x b, A x b ≤ B x b + ε) →
      ∑ b, ∫⁻ x, ENNReal.ofReal (Real.exp (logpi x)) * A x b ∂(Measure.pi fun _ => lam) ≤
      ∑ b, ∫⁻ x, ENNReal.ofReal (Real.exp (logpi x)) * B x b ∂(Measure.pi fun _ => lam) +
        ε * ∑ _b : Fin (n + 1) → Fin (N + 1), ∫⁻ x, ENNReal.ofReal (Real.exp (logpi x)) ∂(Measure.pi fun _ => lam) := by
    intro A B h
    rw [mul_sum, ← sum_add_distrib]
    refine sum_le_sum fun b _ => ?_
    calc _ ≤ ∫⁻ x, (ENNReal.ofReal (Real.exp (logpi x)) * B x b + ε * ENNReal.ofReal (Real.exp (logpi x)))
          ∂(Measure.pi fun _ => lam) := by
          refine lintegral_mono fun x => ?_
          calc _ ≤ ENNReal.ofReal (Real.exp (logpi x)) * (B x b + ε) := by gcongr; exact h x b
            _ = _ := by ring
      _ = _ := by rw [lintegral_add_right _ (hm.const_mul ε), lintegral_const_mul _ hm]
  intro f hf h1
  have e := hK f hf
  constructor
  · refine (key _ _ fun x b => (hn x b f hf h1).1).trans (le_of_eq ?_)
    rw [e]
  · show ∑ b, ∫⁻ x, ENNReal.ofReal (Real.exp (logpi x)) * f (x, b) ∂(Measure.pi fun _ => lam) ≤ _
    rw [← e]
    exact key _ _ fun x b => (hn x b f hf h1).2

end kernel

/-- If each step of a chain changes a functional by at most `ε`, the state at time `i` differs by at most `i * ε`. -/
theorem chain_near {S : Type} [MeasurableSpace S] {step : Key → S → Ex S} (hk : ∀ key, IsKer (step key))
    (hm : ∀ key s, step key s (fun _ => 1) = 1) {ε : ℝ≥0∞} (I : (S → ℝ≥0∞) → ℝ≥0∞)
    (hinv : ∀ key, TVLe ε (fun f => I (fun s => step key s f)) I) {n : ℕ} (keys : Fin n → Key) (i : Fin (n + 1)) :
    TVLe (i * ε) (fun f => I (fun s => chain step s keys (fun tr => f (tr i)))) I := by
  have hconst : ∀ {n : ℕ} (keys : Fin n → Key) (s : S) (c : ℝ≥0∞), chain step s keys (fun _ => c) = c :=
    fun keys s c => by rw [(chain_ker hk keys).const_fun s c, chain_mass hm, mul_one]
  induction n with
  | zero =>
    intro f hf h1
    exact ⟨le_self_add, le_self_add⟩
  | succ n ih =>
    refine Fin.cases ?_ (fun j => ?_) i
    · intro f hf h1
      have e : (fun s => chain step s keys (fun tr => f (tr 0))) = f := by
        funext s
        show step (keys 0) s (fun s' => chain step s' (tailA keys) (fun _ => f s)) = f s
        simp only [hconst]
        rw [(hk (keys 0)).const_fun s (f s), hm, mul_one]
      show I (fun s => chain step s keys (fun tr => f (tr 0))) ≤ I f + _ ∧ I f ≤ I (fun s => chain step s keys (fun tr => f (tr 0))) + _
      rw [e]
      exact ⟨le_self_add, le_self_add⟩
    · intro f hf h1
      have hmeas : Measurable fun s' => chain step s' (tailA keys) (fun rest => f (rest j)) :=
        (chain_ker hk (tailA keys)).measurable' (by fun_prop)
      have hle : ∀ s', chain step s' (tailA keys) (fun rest => f (rest j)) ≤ 1 := fun s' =>
        ((chain_ker hk (tailA keys)).mono s' (f := fun rest => f (rest j)) (g := fun _ => 1) (by fun_prop) (by fun_prop)
          fun rest => h1 _).trans (hconst _ _ _).le
      have a := hinv (keys 0) _ hmeas hle
      have b := ih (tailA keys) j f hf h1
      have e' : (((Fin.succ j : Fin (n + 1 + 1)) : ℕ) : ℝ≥0∞) * ε = ((j : ℕ) : ℝ≥0∞) * ε + ε := by
        rw [Fin.val_succ]; push_cast; ring
      rw [e']
      constructor
      · refine a.1.trans ?_
        rw [← add_assoc]
        exact add_le_add_left b.1 ε
      · refine b.2.trans ?_
        calc _ ≤ (I (fun s => step (keys 0) s fun s' => chain step s' (tailA keys) (fun rest => f (rest j))) + ε) +
              ((j : ℕ) : ℝ≥0∞) * ε := add_le_add_left a.2 _
          _ = I (fun s => step (keys 0) s fun s' => chain step s' (tailA keys) (fun rest => f (rest j))) +
              (((j : ℕ) : ℝ≥0∞) * ε + ε) := by ring

theorem force_mass {N : ℕ} (key : Key) {w : Fin (N + 1) → ℝ} (hw : IsProb w) (k : Fin (N + 1)) :
    moveIndex (fun key w k => force_move key w k) key w k (fun _ => 1) = 1 := by
  refine (force_move_law' hw key k fun _ => 1).trans ?_
  simp only [mul_one]
  rw [← ENNReal.ofReal_sum_of_nonneg fun l _ => forceQ_nonneg hw k l, ← ENNReal.ofReal_add
    (Finset.sum_nonneg fun l _ => forceQ_nonneg hw k l) (sub_nonneg.mpr (forceQ_sum_le hw k)), add_sub_cancel,
    ENNReal.ofReal_one]

end Verif
