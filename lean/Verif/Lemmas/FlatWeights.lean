import Verif.Lemmas.SmallSteps

/-!
# Backward sampling with nearly equal weights
-/

open scoped ENNReal Topology
open MeasureTheory Finset Filter

namespace Verif
open Verif.Model Verif.Spec

variable {N n d T : ℕ} {α β : Type}

/-- The results of `P` satisfy `R`, and its mass is one. -/
structure ExOn (P : Ex α) (R : α → Prop) : Prop where
  mono : ∀ f g : α → ℝ≥0∞, (∀ a, R a → f a ≤ g a) → P f ≤ P g
  const : ∀ c : ℝ≥0∞, P (fun _ => c) = c

namespace ExOn

theorem le {P : Ex α} {R : α → Prop} (h : ExOn P R) {f : α → ℝ≥0∞} {c : ℝ≥0∞} (hf : ∀ a, R a → f a ≤ c) : P f ≤ c :=
  (h.mono f (fun _ => c) hf).trans (h.const c).le

theorem ge {P : Ex α} {R : α → Prop} (h : ExOn P R) {f : α → ℝ≥0∞} {c : ℝ≥0∞} (hf : ∀ a, R a → c ≤ f a) : c ≤ P f :=
  (h.const c).ge.trans (h.mono (fun _ => c) f hf)

theorem pure {R : α → Prop} {a : α} (h : R a) : ExOn (Pure.pure a : Ex α) R := ⟨fun f g hfg => hfg a h, fun _ => rfl⟩

theorem bind {P : Ex α} {F : α → Ex β} {R : α → Prop} {Q : β → Prop} (hP : ExOn P R) (hF : ∀ a, R a → ExOn (F a) Q) : ExOn (P >>= F) Q where
  mono f g hfg := hP.mono _ _ fun a ha => (hF a ha).mono f g hfg
  const c := le_antisymm (hP.le fun a ha => ((hF a ha).const c).le) (hP.ge fun a ha => ((hF a ha).const c).ge)

theorem weaken {P : Ex α} {R Q : α → Prop} (h : ExOn P R) (hRQ : ∀ a, R a → Q a) : ExOn P Q :=
  ⟨fun f g hfg => h.mono f g fun a ha => hfg a (hRQ a ha), h.const⟩

theorem choice {w : Fin (N + 1) → ℝ} (hw : IsProb w) (key : Key) : ExOn (RandM.choice key w : Ex (Fin (N + 1))) fun _ => True where
  mono f g h := sum_le_sum fun i _ => mul_le_mul_right (h i trivial) _
  const c := by
    show ∑ i, catP w i * c = c
    rw [← sum_mul]
    have : ∑ i, catP w i = 1 := by
      simp only [catP, hw.sum_one, div_one]
      rw [← ENNReal.ofReal_sum_of_nonneg fun i _ => hw.nonneg i, hw.sum_one, ENNReal.ofReal_one]
    rw [this, one_mul]

theorem ofKer {X : Type} [MeasurableSpace X] [Finite α] [MeasurableSpace α] [MeasurableSingletonClass α] {P : X → Ex α} (h : IsKer P) {x : X} (hm : P x (fun _ => 1) = 1) :
    ExOn (P x) fun _ => True where
  mono f g hfg := h.mono x (measurable_of_finite _) (measurable_of_finite _) fun a => hfg a trivial
  const c := by
    have := h.const_mul (b := x) c (f := fun _ => (1 : ℝ≥0∞)) measurable_const
    simpa [hm] using this

theorem scanM {C I O : Type} {body : C → I → Ex (C × O)} {n : ℕ} (c : C) (inp : Fin n → I) (Inv : (t : ℕ) → t ≤ n → C → (Fin t → O) → Prop)
    (h0 : Inv 0 (Nat.zero_le _) c Fin.elim0)
    (hstep : ∀ (t : ℕ) (ht : t < n) (c : C) (os : Fin t → O), Inv t ht.le c os →
      ExOn (body c (inp ⟨t, ht⟩)) (fun r => Inv (t + 1) ht r.1 (snocA os r.2))) :
    ExOn (Verif.scanM body c inp) (fun r => Inv n le_rfl r.1 r.2) := by
  induction n with
  | zero => exact ExOn.pure h0
  | succ k ih =>
    rw [scanM_snoc]
    refine ExOn.bind (ih (initA inp) (fun t ht => Inv t (ht.trans (Nat.le_succ k))) h0
      (fun t ht c os hI => hstep t (ht.trans (Nat.lt_succ_self k)) c os hI)) fun rs hrs => ?_
    exact ExOn.bind (hstep k (Nat.lt_succ_self k) rs.1 rs.2 hrs) fun r hr => ExOn.pure hr

/-- The law of one output of a scan. -/
theorem scan_out {C I O : Type} {body : C → I → Ex (C × O)} {n : ℕ} (c : C) (inp : Fin n → I) (Inv : (t : ℕ) → t ≤ n → C → Prop)
    (h0 : Inv 0 (Nat.zero_le _) c)
    (hstep : ∀ (t : ℕ) (ht : t < n) (c : C), Inv t ht.le c → ExOn (body c (inp ⟨t, ht⟩)) (fun r => Inv (t + 1) ht r.1))
    (s : Fin n) {g : O → ℝ≥0∞} {lo hi : ℝ≥0∞}
    (hb : ∀ c, Inv s.1 s.2.le c → lo ≤ body c (inp s) (fun r => g r.2) ∧ body c (inp s) (fun r => g r.2) ≤ hi) :
    lo ≤ Verif.scanM body c inp (fun r => g (r.2 s)) ∧ Verif.scanM body c inp (fun r => g (r.2 s)) ≤ hi := by
  induction n with
  | zero => exact s.elim0
  | succ k ih =>
    rw [scanM_snoc]
    have hk := ExOn.scanM (body := body) c (initA inp) (fun t ht c _ => Inv t (ht.trans (Nat.le_succ k)) c) h0
      (fun t ht c os hI => hstep t (ht.trans (Nat.lt_succ_self k)) c hI)
    induction s using Fin.lastCases with
    | last =>
      have e : ∀ rs : C × (Fin k → O), (fun r : C × O => g (snocA rs.2 r.2 (Fin.last k))) = fun r => g r.2 := fun rs => by simp
      constructor
      · exact hk.ge fun rs hrs => by
          show lo ≤ body rs.1 (lastA inp) (fun r => g (snocA rs.2 r.2 (Fin.last k)))
          rw [e]
          exact (hb rs.1 hrs).1
      · exact hk.le fun rs hrs => by
          show body rs.1 (lastA inp) (fun r => g (snocA rs.2 r.2 (Fin.last k))) ≤ hi
          rw [e]
          exact (hb rs.1 hrs).2
    | cast s =>
      have h := ih (initA inp) (fun t ht => Inv t (ht.trans (Nat.le_succ k))) h0
        (fun t ht c hI => hstep t (ht.trans (Nat.lt_succ_self k)) c hI) s hb
      have e : ∀ rs : C × (Fin k → O), Inv k (Nat.le_succ k) rs.1 → body rs.1 (lastA inp) (fun r => g (snocA rs.2 r.2 s.castSucc)) = g (rs.2 s) := fun rs hrs => by
        simp only [snocA_castSucc]
        exact (hstep k (Nat.lt_succ_self k) rs.1 hrs).const _
      constructor
      · refine h.1.trans (hk.mono _ _ fun rs hrs => (e rs hrs).ge)
      · refine le_trans (hk.mono _ _ fun rs hrs => (e rs hrs).le) h.2

end ExOn

/-! ## Nearly equal log-weights -/

/-- The log-weights differ by at most `S`. -/
def Flat (S : ℝ) (lw : Fin (N + 1) → ℝ) : Prop := ∀ i k, lw i ≤ lw k + S

theorem Flat.normalizeLog {S : ℝ} {lw : Fin (N + 1) → ℝ} (h : Flat S lw) : Flat S (normalizeLog lw) := fun i k => by
  have := h i k
  unfold Model.normalizeLog
  linarith

theorem Flat.add {S S' : ℝ} {lw lw' : Fin (N + 1) → ℝ} (h : Flat S lw) (h' : Flat S' lw') : Flat (S + S') fun i => lw i + lw' i := fun i k => by
  have := h i k
  have := h' i k
  dsimp only
  linarith

theorem Flat.sub_const {S : ℝ} {lw : Fin (N + 1) → ℝ} (h : Flat S lw) (c : ℝ) : Flat S fun i => lw i - c := fun i k => by
  have := h i k
  dsimp only
  linarith

theorem Flat.lower {S : ℝ} {lw : Fin (N + 1) → ℝ} (h : Flat S lw) (k : Fin (N + 1)) : Real.exp (-S) / (N + 1) ≤ normalizeW lw k := by
  rw [normalize_eq, div_le_div_iff₀ (by positivity) (sum_exp_pos lw)]
  have : ∑ l, Real.exp (lw l) ≤ ∑ _l : Fin (N + 1), Real.exp (lw k) * Real.exp S := sum_le_sum fun i _ => by
    rw [← Real.exp_add]
    exact Real.exp_le_exp.mpr (h i k)
  rw [sum_const, card_univ, Fintype.card_fin, nsmul_eq_mul] at this
  push_cast at this
  calc Real.exp (-S) * ∑ l, Real.exp (lw l) ≤ Real.exp (-S) * ((N + 1) * (Real.exp (lw k) * Real.exp S)) := mul_le_mul_of_nonneg_left this (Real.exp_pos _).le
    _ = Real.exp (lw k) * (N + 1) * (Real.exp (-S) * Real.exp S) := by ring
    _ = _ := by rw [← Real.exp_add, neg_add_cancel, Real.exp_zero, mul_one]

theorem Flat.upper {S : ℝ} {lw : Fin (N + 1) → ℝ} (h : Flat S lw) (k : Fin (N + 1)) : normalizeW lw k ≤ Real.exp S / (N + 1) := by
  rw [normalize_eq, div_le_div_iff₀ (sum_exp_pos lw) (by positivity)]
  have : ∑ _l : Fin (N + 1), Real.exp (lw k) ≤ ∑ l, Real.exp S * Real.exp (lw l) := sum_le_sum fun i _ => by
    rw [← Real.exp_add]
    exact Real.exp_le_exp.mpr (by linarith [h k i])
  rw [sum_const, card_univ, Fintype.card_fin, nsmul_eq_mul, ← mul_sum] at this
  push_cast at this
  linarith

/-- The probability that a draw from the weights is another index. -/
theorem choice_ne {w : Fin (N + 1) → ℝ} (hw : IsProb w) (key : Key) (b : Fin (N + 1)) :
    (choice key w : Ex _) (fun i => if i ≠ b then 1 else 0) = ENNReal.ofReal (1 - w b) := by
  have h1 : (choice key w : Ex _) (fun i => if i ≠ b then 1 else 0) = ∑ i ∈ univ.erase b, ENNReal.ofReal (w i) := by
    show ∑ i, catP w i * (if i ≠ b then 1 else 0) = _
    rw [← add_sum_erase _ _ (mem_univ b)]
    simp only [ne_eq, not_true_eq_false, if_false, mul_zero, zero_add]
    refine sum_congr rfl fun i hi => ?_
    rw [if_pos (ne_of_mem_erase hi), mul_one, catP, hw.sum_one, div_one]
  rw [h1, ← ENNReal.ofReal_sum_of_nonneg fun i _ => hw.nonneg i]
  congr 1
  have := hw.sum_one
  rw [← add_sum_erase _ _ (mem_univ b)] at this
  linarith

/-- Bounds on the probability of another index. -/
noncomputable def flatLo (N : ℕ) (S : ℝ) : ℝ≥0∞ := ENNReal.ofReal (1 - Real.exp S / (N + 1))

noncomputable def flatHi (N : ℕ) (S : ℝ) : ℝ≥0∞ := ENNReal.ofReal (1 - Real.exp (-S) / (N + 1))

theorem choice_flat {S : ℝ} {lw : Fin (N + 1) → ℝ} (h : Flat S lw) (key : Key) (b : Fin (N + 1)) :
    flatLo N S ≤ (choice key (normalizeW lw) : Ex _) (fun i => if i ≠ b then 1 else 0) ∧
      (choice key (normalizeW lw) : Ex _) (fun i => if i ≠ b then 1 else 0) ≤ flatHi N S := by
  rw [choice_ne (normalize_isProb lw)]
  exact ⟨ENNReal.ofReal_le_ofReal (by linarith [h.upper b]), ENNReal.ofReal_le_ofReal (by linarith [h.lower b])⟩

section bsp
variable {X G : Type} {Γ : X → X → G → ℝ} {Gp : Fin n → G} {xs : Fin (n + 1) → Fin (N + 1) → X} {log_ws : Fin (n + 1) → Fin (N + 1) → ℝ} {S : ℝ}

theorem bsBody_on (c : X) (inp : Key × (Fin (N + 1) → X) × (Fin (N + 1) → ℝ) × G) : ExOn (bsBody Γ c inp : Ex _) fun r => ∃ i, r.1 = inp.2.1 i :=
  ExOn.bind (ExOn.choice (normalize_isProb _) _) fun i _ => ExOn.pure ⟨i, rfl⟩

/-- Backward sampling with nearly equal weights, before the last time. -/
theorem bsp_flat (key : Key) (mv : AncestorMove Ex N) (hker : ∀ key, MoveKer (moveIndex mv key)) (hmass : ∀ key, MoveMass (moveIndex mv key))
    (hw : ∀ t, Flat S (log_ws t)) (hΓ : ∀ t j, Flat S fun i => Γ (xs (Fin.castSucc t) i) (xs t.succ j) (Gp t)) (bT b : Fin (N + 1)) (t : Fin n) :
    flatLo N (S + S) ≤ (backward_sampling_pass key Γ Gp bT xs log_ws mv true : Ex _) (fun r => if r.2 t.castSucc ≠ b then 1 else 0) ∧
      (backward_sampling_pass key Γ Gp bT xs log_ws mv true : Ex _) (fun r => if r.2 t.castSucc ≠ b then 1 else 0) ≤ flatHi N (S + S) := by
  have hm : ExOn (moveIndex mv (lastA (splitKey key (n + 1))) (normalizeW (lastA log_ws)) bT) fun _ => True :=
    ExOn.ofKer (hker _) (x := (_, _)) (hmass _ _ (normalize_isProb _) bT)
  have hs : ∀ BT : Fin (N + 1), flatLo N (S + S) ≤ (scanM (bsBody Γ) (lastA xs BT) (fun t => (initA (splitKey key (n + 1)) t, revInit xs t, revInit log_ws t, rev Gp t)) : Ex _)
        (fun r => if (r.2 t.rev).2 ≠ b then 1 else 0) ∧
      (scanM (bsBody Γ) (lastA xs BT) (fun t => (initA (splitKey key (n + 1)) t, revInit xs t, revInit log_ws t, rev Gp t)) : Ex _)
        (fun r => if (r.2 t.rev).2 ≠ b then 1 else 0) ≤ flatHi N (S + S) := fun BT => by
    refine ExOn.scan_out (g := fun o : X × Fin (N + 1) => if o.2 ≠ b then 1 else 0) _ _
      (fun t ht c => ∃ i, c = xs ⟨n - t, by omega⟩ i) ⟨BT, rfl⟩ (fun t ht c _ => ?_) t.rev fun c hc => ?_
    · refine (bsBody_on c _).weaken fun r hr => ?_
      obtain ⟨i, hi⟩ := hr
      refine ⟨i, hi.trans ?_⟩
      show xs _ i = xs _ i
      congr 1
    · obtain ⟨i, rfl⟩ := hc
      have e : xs ⟨n - t.rev.1, by omega⟩ i = xs t.succ i := by
        congr 1
        simp only [Fin.ext_iff, Fin.val_rev, Fin.val_succ]
        omega
      rw [e]
      have h := choice_flat ((hΓ t i).sub_const (maxA fun i' => Γ (xs t.castSucc i') (xs t.succ i) (Gp t)) |>.add (hw t.castSucc))
        (initA (splitKey key (n + 1)) t.rev) b
      have e2 : (bsBody Γ (xs t.succ i) (initA (splitKey key (n + 1)) t.rev, revInit xs t.rev, revInit log_ws t.rev, rev Gp t.rev) : Ex _)
          (fun r => if r.2.2 ≠ b then 1 else 0) =
        (choice (initA (splitKey key (n + 1)) t.rev) (normalizeW fun i' => Γ (xs t.castSucc i') (xs t.succ i) (Gp t) -
          maxA (fun i' => Γ (xs t.castSucc i') (xs t.succ i) (Gp t)) + log_ws t.castSucc i') : Ex _) (fun i => if i ≠ b then 1 else 0) := by
        simp only [revInit, rev_apply, Fin.rev_rev]
        rfl
      rw [e2]
      exact h
  have e : (backward_sampling_pass key Γ Gp bT xs log_ws mv true : Ex _) (fun r => if r.2 t.castSucc ≠ b then 1 else 0) =
      moveIndex mv (lastA (splitKey key (n + 1))) (normalizeW (lastA log_ws)) bT fun BT =>
        (scanM (bsBody Γ) (lastA xs BT) (fun t => (initA (splitKey key (n + 1)) t, revInit xs t, revInit log_ws t, rev Gp t)) : Ex _)
        (fun r => if (r.2 t.rev).2 ≠ b then 1 else 0) := by
    have : ∀ (BT : Fin (N + 1)) (r : X × (Fin n → X × Fin (N + 1))), rev (insert0 BT (fun t => (r.2 t).2)) t.castSucc = (r.2 t.rev).2 := fun BT r => by
      rw [rev_insert0, snocA_castSucc, rev_apply]
    show moveIndex mv (lastA (splitKey key (n + 1))) (normalizeW (lastA log_ws)) bT (fun BT =>
      (scanM (bsBody Γ) (lastA xs BT) (fun t => (initA (splitKey key (n + 1)) t, revInit xs t, revInit log_ws t, rev Gp t)) : Ex _)
        (fun r => if rev (insert0 BT (fun t => (r.2 t).2)) t.castSucc ≠ b then 1 else 0)) = _
    simp only [this]
  rw [e]
  exact ⟨hm.ge fun BT _ => (hs BT).1, hm.le fun BT _ => (hs BT).2⟩

/-- The index at the last time is that of the ancestor move. -/
theorem bsp_last (key : Key) (mv : AncestorMove Ex N) (bT : Fin (N + 1)) (g : Fin (N + 1) → ℝ≥0∞) :
    (backward_sampling_pass key Γ Gp bT xs log_ws mv true : Ex _) (fun r => g (r.2 (Fin.last n))) =
      moveIndex mv (lastA (splitKey key (n + 1))) (normalizeW (lastA log_ws)) bT g := by
  have h : ∀ BT : Fin (N + 1), (scanM (bsBody Γ) (lastA xs BT) (fun t => (initA (splitKey key (n + 1)) t, revInit xs t, revInit log_ws t, rev Gp t)) : Ex _)
      (fun r => g (rev (insert0 BT (fun t => (r.2 t).2)) (Fin.last n))) = g BT := fun BT => by
    have h1 : ExOn (scanM (bsBody Γ) (lastA xs BT) (fun t => (initA (splitKey key (n + 1)) t, revInit xs t, revInit log_ws t, rev Gp t)) : Ex _) fun _ => True :=
      ExOn.scanM _ _ (fun _ _ _ _ => True) trivial fun t ht c os _ => (bsBody_on c _).weaken fun _ _ => trivial
    simp only [rev_insert0, snocA_last]
    exact h1.const _
  show moveIndex mv (lastA (splitKey key (n + 1))) (normalizeW (lastA log_ws)) bT (fun BT =>
    (scanM (bsBody Γ) (lastA xs BT) (fun t => (initA (splitKey key (n + 1)) t, revInit xs t, revInit log_ws t, rev Gp t)) : Ex _)
      (fun r => g (rev (insert0 BT (fun t => (r.2 t).2)) (Fin.last n)))) = _
  simp only [h]

end bsp

end Verif
