import Verif.Lemmas.ScanSteps
import Verif.Spec.LargeSteps
import Mathlib.Probability.Distributions.Gaussian.Real

/-!
# Large steps of `rw_csmc`: helpers
-/

open scoped ENNReal Topology
open MeasureTheory Finset Filter ProbabilityTheory

namespace Verif
open Verif.Model Verif.Spec Verif.Props

variable {N n d : ℕ} {X G Pm ι : Type}

/-! ## Odds against the reference -/

/-- The weights of the others relative to that of `b`. -/
noncomputable def odds (lw : Fin (N + 1) → ℝ) (b : Fin (N + 1)) : ℝ := ∑ i ∈ univ.erase b, Real.exp (lw i - lw b)

theorem odds_nonneg (lw : Fin (N + 1) → ℝ) (b : Fin (N + 1)) : 0 ≤ odds lw b := sum_nonneg fun _ _ => (Real.exp_pos _).le

theorem odds_sub (lw : Fin (N + 1) → ℝ) (c : ℝ) (b : Fin (N + 1)) : odds (fun i => lw i - c) b = odds lw b := by
  unfold odds
  simp

/-- `(1 - w b) / w b` is the odds. -/
theorem odds_eq (lw : Fin (N + 1) → ℝ) (b : Fin (N + 1)) : 1 - normalizeW lw b = odds lw b * normalizeW lw b := by
  have h := (normalize_isProb lw).sum_one
  rw [← add_sum_erase _ _ (mem_univ b)] at h
  have h2 : odds lw b * normalizeW lw b = ∑ i ∈ univ.erase b, normalizeW lw i := by
    unfold odds
    rw [sum_mul]
    refine sum_congr rfl fun i _ => ?_
    rw [normalize_eq, normalize_eq, ← mul_div_assoc, ← Real.exp_add, sub_add_cancel]
  rw [h2]
  linarith

theorem one_sub_le_odds (lw : Fin (N + 1) → ℝ) (b : Fin (N + 1)) : 1 - normalizeW lw b ≤ odds lw b := by
  rw [odds_eq]
  exact mul_le_of_le_one_right (odds_nonneg lw b) ((normalize_isProb lw).le_one b)

theorem choice_odds (lw : Fin (N + 1) → ℝ) (key : Key) (b : Fin (N + 1)) :
    (RandM.choice key (normalizeW lw) : Ex (Fin (N + 1))) (fun i => if i ≠ b then 1 else 0) ≤ ENNReal.ofReal (odds lw b) := by
  have hw := normalize_isProb lw
  show ∑ i, catP (normalizeW lw) i * (if i ≠ b then 1 else 0) ≤ _
  rw [← add_sum_erase _ _ (mem_univ b), if_neg (by simp), mul_zero, zero_add]
  have e : ∀ i ∈ univ.erase b, catP (normalizeW lw) i * (if i ≠ b then 1 else 0) = ENNReal.ofReal (normalizeW lw i) := fun i hi => by
    rw [if_pos (ne_of_mem_erase hi), mul_one, catP, hw.sum_one, div_one]
  rw [sum_congr rfl e, ← ENNReal.ofReal_sum_of_nonneg fun i _ => hw.nonneg i]
  refine ENNReal.ofReal_le_ofReal (le_trans ?_ (one_sub_le_odds lw b))
  have h := hw.sum_one
  rw [← add_sum_erase _ _ (mem_univ b)] at h
  linarith

/-- An ancestor move that leaves the reference with at most its odds. -/
structure OddsMove (mv : AncestorMove Ex N) : Prop where
  ker : ∀ key, MoveKer (moveIndex mv key)
  on : ∀ key w, IsProb w → ∀ b, ExOn (moveIndex mv key w b) fun _ => True
  odds : ∀ key lw b, moveIndex mv key (normalizeW lw) b (fun i => if i ≠ b then 1 else 0) ≤ ENNReal.ofReal (odds lw b)

theorem barker_odds : OddsMove (N := N) (fun key w => barker_move key w) :=
  ⟨fun key => (barker_moveInvariant key).ker, barker_flatMove.on, fun key lw b => choice_odds lw key b⟩

theorem forceAcc_le_odds (lw : Fin (N + 1) → ℝ) {b i : Fin (N + 1)} (hi : i ≠ b) : forceAcc (normalizeW lw) b i ≤ odds lw b := by
  have hw := normalize_isProb lw
  have hp : ∀ k, 0 < normalizeW lw k := fun k => by rw [normalize_eq]; exact div_pos (Real.exp_pos _) (sum_exp_pos lw)
  have e := odds_eq lw b
  have hib : normalizeW lw i ≤ 1 - normalizeW lw b := by
    have h := hw.sum_one
    rw [← add_sum_erase _ _ (mem_univ b)] at h
    have := single_le_sum (f := normalizeW lw) (fun i _ => hw.nonneg i) (mem_erase.mpr ⟨hi, mem_univ i⟩)
    linarith
  unfold forceAcc
  split_ifs with h
  · have h1 : normalizeW lw b ≤ odds lw b * normalizeW lw b := by rw [← e]; exact h.2.trans hib
    exact (le_mul_iff_one_le_left (hp b)).mp h1
  · have h1 : normalizeW lw b ≤ 1 - normalizeW lw i := by linarith
    rw [div_le_iff₀ (lt_of_lt_of_le (hp b) h1), e]
    exact mul_le_mul_of_nonneg_left h1 (odds_nonneg _ _)

theorem force_odds (hN : 1 ≤ N) : OddsMove (N := N) (fun key w => force_move key w) := by
  refine ⟨fun key => force_moveKer key, (force_flatMove hN).on, fun key lw b => ?_⟩
  have hw := normalize_isProb lw
  have h : moveIndex (fun key w => force_move key w) key (normalizeW lw) b (fun i => if i ≠ b then 1 else 0) =
      (∑ l ∈ univ.erase b, ENNReal.ofReal (forceQ (normalizeW lw) b l) * (if l ≠ b then 1 else 0)) +
      ENNReal.ofReal (1 - ∑ l ∈ univ.erase b, forceQ (normalizeW lw) b l) * (if b ≠ b then 1 else 0) :=
    force_move_law' hw key b (fun r => if r.1 ≠ b then 1 else 0)
  rw [h, if_neg (by simp), mul_zero, add_zero]
  have e : ∀ i ∈ univ.erase b, ENNReal.ofReal (forceQ (normalizeW lw) b i) * (if i ≠ b then 1 else 0) = ENNReal.ofReal (forceQ (normalizeW lw) b i) := fun i hi => by
    rw [if_pos (ne_of_mem_erase hi), mul_one]
  rw [sum_congr rfl e, ← ENNReal.ofReal_sum_of_nonneg fun i _ => forceQ_nonneg hw b i]
  refine ENNReal.ofReal_le_ofReal ?_
  have hr := forceRest_isProb hw b
  calc ∑ i ∈ univ.erase b, forceQ (normalizeW lw) b i ≤ ∑ i ∈ univ.erase b, forceRest (normalizeW lw) b i * odds lw b :=
        sum_le_sum fun i hi => mul_le_mul_of_nonneg_left (forceAcc_le_odds lw (ne_of_mem_erase hi)) (hr.nonneg i)
    _ = (∑ i ∈ univ.erase b, forceRest (normalizeW lw) b i) * odds lw b := (sum_mul _ _ _).symm
    _ ≤ 1 * odds lw b := by
        refine mul_le_mul_of_nonneg_right ?_ (odds_nonneg _ _)
        rw [← hr.sum_one]
        exact sum_le_sum_of_subset_of_nonneg (erase_subset _ _) fun i _ _ => hr.nonneg i
    _ = _ := one_mul _

/-! ## The forward pass -/

section scan
variable {I : Type} {resampling : Resampling Ex N}
  {body : (Fin (N + 1) → ℝ) × (Fin (N + 1) → X) → I → Ex (((Fin (N + 1) → ℝ) × (Fin (N + 1) → X)) × ((Fin (N + 1) → ℝ) × (Fin (N + 1) → Fin (N + 1))))}

/-- The step resamples, then computes log-weights for which the odds against the reference are at most `ρ`. -/
def OddsBody (resampling : Resampling Ex N) (ρ : Fin n → ℝ)
    (body : (Fin (N + 1) → ℝ) × (Fin (N + 1) → X) → I → Ex (((Fin (N + 1) → ℝ) × (Fin (N + 1) → X)) × ((Fin (N + 1) → ℝ) × (Fin (N + 1) → Fin (N + 1)))))
    (inp : Fin n → I) (keys : Fin n → Key) (xs : Fin (n + 1) → Fin (N + 1) → X) (b : Fin (n + 1) → Fin (N + 1)) : Prop :=
  ∀ (t : Fin n) c, c.2 = xs t.castSucc → ∃ ψ : (Fin (N + 1) → Fin (N + 1)) → Fin (N + 1) → ℝ,
    (∀ A : Fin (N + 1) → Fin (N + 1), A (b t.succ) = b t.castSucc → odds (ψ A) (b t.succ) ≤ ρ t) ∧
    body c (inp t) = (resampling (keys t) c.1 (b t.castSucc) (b t.succ) true >>= fun A => pure ((normalizeW (ψ A), xs t.succ), (ψ A, A)))

theorem odds_on (hR : ∀ key, CondResampling fun w i j => resampling key w i j true) {w0 : Fin (N + 1) → ℝ} (hw0 : IsProb w0) (hp0 : ∀ k, 0 < w0 k)
    {ρ : Fin n → ℝ} {inp : Fin n → I} {keys : Fin n → Key} {xs : Fin (n + 1) → Fin (N + 1) → X} {b : Fin (n + 1) → Fin (N + 1)}
    (h : OddsBody resampling ρ body inp keys xs b) : ExOn (scanM body (w0, xs 0) inp) fun r => (IsProb r.1.1 ∧ ∀ k, 0 < r.1.1 k) ∧ r.1.2 = xs (Fin.last n) ∧
      (∀ t, anc (fun s => (r.2 s).2) (b (Fin.last n)) t = b t) ∧ ∀ t, odds (r.2 t).1 (b t.succ) ≤ ρ t := by
  induction n with
  | zero => exact ExOn.pure ⟨⟨hw0, hp0⟩, rfl, fun t => by rw [Fin.fin_one_eq_zero t]; rfl, fun t => t.elim0⟩
  | succ n ih =>
    rw [scanM_snoc]
    refine ExOn.bind (ih (ρ := initA ρ) (inp := initA inp) (keys := initA keys) (xs := initA xs) (b := initA b) fun t c hc => h t.castSucc c hc) fun rs hrs => ?_
    obtain ⟨ψ, hψ, e⟩ := h (Fin.last n) rs.1 hrs.2.1
    have e' : body rs.1 (lastA inp) = _ := e
    rw [e']
    refine ExOn.bind (ExOn.bind (Q := fun r => ∃ A : Fin (N + 1) → Fin (N + 1), A (b (Fin.last n).succ) = b (Fin.last n).castSucc ∧
        r = ((normalizeW (ψ A), xs (Fin.last n).succ), (ψ A, A))) (resampling_ref hR _ hrs.1.1 hrs.1.2 _ _) fun A hA => ExOn.pure ⟨A, hA, rfl⟩) fun r hr => ?_
    obtain ⟨A, hA, rfl⟩ := hr
    refine ExOn.pure ⟨⟨normalize_isProb _, fun k => ?_⟩, rfl, fun t => ?_, fun t => ?_⟩
    · show 0 < normalizeW (ψ A) k
      rw [normalize_eq]
      exact div_pos (Real.exp_pos _) (sum_exp_pos _)
    · have e1 : (fun s => (snocA rs.2 (ψ A, A) s).2) = snocA (fun s => (rs.2 s).2) A := by
        funext s
        induction s using Fin.lastCases with
        | last => simp
        | cast s => simp
      show anc (fun s => (snocA rs.2 (ψ A, A) s).2) _ t = _
      rw [e1]
      induction t using Fin.lastCases with
      | last => exact anc_last _ _
      | cast t =>
        show snocA (anc (initA (snocA (fun s => (rs.2 s).2) A)) (lastA (snocA (fun s => (rs.2 s).2) A) (b (Fin.last (n + 1))))) _ t.castSucc = _
        rw [snocA_castSucc, initA_snocA, lastA_snocA]
        have : A (b (Fin.last (n + 1))) = b (Fin.last n).castSucc := hA
        rw [this]
        exact hrs.2.2.1 t
    · show odds (snocA rs.2 (ψ A, A) t).1 _ ≤ _
      induction t using Fin.lastCases with
      | last => rw [snocA_last]; exact hψ A hA
      | cast t => rw [snocA_castSucc]; exact hrs.2.2.2 t

end scan

/-! ## The backward pass -/

/-- Averages of sums with a constant. -/
def ExAdd {α : Type} (P : Ex α) : Prop := ∀ (f : α → ℝ≥0∞) (c : ℝ≥0∞), P (fun a => f a + c) = P f + c

open Classical in
/-- Union bound: a scan that starts at `good 0` and leaves the path `good` with probability at most `ε t` at step `t`. -/
theorem scan_leave {C I O : Type} {body : C → I → Ex (C × O)} (hadd : ∀ c i, ExAdd (body c i)) (hon : ∀ c i, ExOn (body c i) fun _ => True)
    (inp : Fin n → I) (good : Fin (n + 1) → C) (go : Fin n → O → Prop) (ε : Fin n → ℝ≥0∞)
    (h : ∀ t, body (good t.castSucc) (inp t) (fun r => if r.1 = good t.succ ∧ go t r.2 then 0 else 1) ≤ ε t) :
    scanM body (good 0) inp (fun r => if ∀ t, go t (r.2 t) then 0 else 1) ≤ ∑ t, ε t := by
  induction n with
  | zero =>
    refine (ExOn.scanM (body := body) (good 0) inp (fun _ _ _ _ => True) trivial fun t ht => absurd ht (Nat.not_lt_zero t)).le fun r _ => ?_
    rw [if_pos fun t => Fin.elim0 t]
    exact zero_le
  | succ n ih =>
    have h1 := ih (tailA inp) (tailA good) (tailA go) (tailA ε) fun t => h t.succ
    rw [scanM_succ, Fin.sum_univ_succ]
    have hs : ∀ c, ExOn (scanM body c (tailA inp)) fun _ => True := fun c => ExOn.scanM c _ (fun _ _ _ _ => True) trivial fun t ht c os _ => hon c _
    refine le_trans ?_ (add_le_add (h 0) le_rfl)
    rw [← hadd]
    refine (hon _ _).mono _ _ fun r _ => ?_
    show scanM body r.1 (tailA inp) (fun rs => if ∀ t, go t (insert0 r.2 rs.2 t) then 0 else 1) ≤ _
    by_cases hr : r.1 = good (Fin.succ 0) ∧ go 0 r.2
    · rw [if_pos hr, zero_add]
      refine le_trans ((hs r.1).mono _ (fun rs => if ∀ t, tailA go t (rs.2 t) then 0 else 1) fun rs _ => ?_) (hr.1 ▸ h1)
      split_ifs with h2 h3 h3
      · exact le_rfl
      · exact zero_le
      · exact absurd (Fin.cases hr.2 h3) h2
      · exact le_rfl
    · rw [if_neg hr]
      refine le_trans ((hs r.1).le (c := 1) fun rs _ => ?_) le_self_add
      split_ifs <;> simp

theorem bsBody_add (Γ : X → X → G → ℝ) (c : X) (inp : Key × (Fin (N + 1) → X) × (Fin (N + 1) → ℝ) × G) : ExAdd (bsBody (m := Ex) Γ c inp) := fun f k => by
  set lw : Fin (N + 1) → ℝ := fun i => Γ (inp.2.1 i) c inp.2.2.2 - maxA (fun i => Γ (inp.2.1 i) c inp.2.2.2) + inp.2.2.1 i with hlw
  show ∑ i, catP (normalizeW lw) i * (f (inp.2.1 i, (inp.2.1 i, i)) + k) = (∑ i, catP (normalizeW lw) i * f (inp.2.1 i, (inp.2.1 i, i))) + k
  simp only [mul_add, sum_add_distrib, ← sum_mul]
  have := (ExOn.choice (normalize_isProb lw) inp.1).const 1
  have h1 : ∑ i, catP (normalizeW lw) i * 1 = 1 := this
  simp only [mul_one] at h1
  rw [h1, one_mul]

open Classical in
theorem bsBody_leave (Γ : X → X → G → ℝ) (c : X) (inp : Key × (Fin (N + 1) → X) × (Fin (N + 1) → ℝ) × G) (b : Fin (N + 1)) {M : ℝ}
    (hM : ∀ i, Real.exp (Γ (inp.2.1 i) c inp.2.2.2 - Γ (inp.2.1 b) c inp.2.2.2) ≤ M) :
    bsBody (m := Ex) Γ c inp (fun r => if r.1 = inp.2.1 b ∧ r.2.2 = b then 0 else 1) ≤ ENNReal.ofReal (M * odds inp.2.2.1 b) := by
  set lw : Fin (N + 1) → ℝ := fun i => Γ (inp.2.1 i) c inp.2.2.2 - maxA (fun i => Γ (inp.2.1 i) c inp.2.2.2) + inp.2.2.1 i with hlw
  show (RandM.choice inp.1 (normalizeW lw) : Ex _) (fun B => if inp.2.1 B = inp.2.1 b ∧ B = b then 0 else 1) ≤ _
  refine le_trans ((ExOn.choice (normalize_isProb lw) inp.1).mono _ (fun i => if i ≠ b then 1 else 0) fun B _ => ?_) ((choice_odds lw inp.1 b).trans ?_)
  · by_cases h : B = b
    · rw [if_pos ⟨by rw [h], h⟩]; exact zero_le
    · rw [if_pos h]; split_ifs <;> simp
  · refine ENNReal.ofReal_le_ofReal ?_
    unfold odds
    rw [mul_sum]
    refine sum_le_sum fun i _ => ?_
    have e : lw i - lw b = (Γ (inp.2.1 i) c inp.2.2.2 - Γ (inp.2.1 b) c inp.2.2.2) + (inp.2.2.1 i - inp.2.2.1 b) := by simp only [hlw]; ring
    rw [e, Real.exp_add]
    exact mul_le_mul_of_nonneg_right (hM i) (Real.exp_pos _).le

/-- Backward sampling leaves the reference with probability at most the sum of the odds. -/
theorem bsp_leave (key : Key) (Γ : X → X → G → ℝ) (Gp : Fin n → G) {xs : Fin (n + 1) → Fin (N + 1) → X} {log_ws : Fin (n + 1) → Fin (N + 1) → ℝ}
    {mv : AncestorMove Ex N} (hmv : OddsMove mv) (b : Fin (n + 1) → Fin (N + 1)) {M : ℝ}
    (hM : ∀ (t : Fin n) i, Real.exp (Γ (xs t.castSucc i) (xs t.succ (b t.succ)) (Gp t) - Γ (xs t.castSucc (b t.castSucc)) (xs t.succ (b t.succ)) (Gp t)) ≤ M)
    {ρ : Fin (n + 1) → ℝ} (hρ : ∀ t, odds (log_ws t) (b t) ≤ ρ t) (hM1 : 1 ≤ M) (t : Fin (n + 1)) :
    (backward_sampling_pass key Γ Gp (lastA b) xs log_ws mv true : Ex _) (fun q => if q.2 t ≠ b t then 1 else 0) ≤ ENNReal.ofReal (M * ∑ t, ρ t) := by
  classical
  have hrt : ∀ t : Fin n, Fin.rev t.castSucc = (Fin.rev t).succ := fun t => Fin.rev_castSucc t
  have hrs : ∀ t : Fin n, Fin.rev t.succ = (Fin.rev t).castSucc := fun t => Fin.rev_succ t
  set inp : Fin n → Key × (Fin (N + 1) → X) × (Fin (N + 1) → ℝ) × G := fun t => (initA (splitKey key (n + 1)) t, revInit xs t, revInit log_ws t, rev Gp t) with hinp
  have h1 := scan_leave (body := bsBody (m := Ex) Γ) (bsBody_add Γ) (fun c i => (bsBody_on c i).weaken fun _ _ => trivial) inp
    (fun t => xs (Fin.rev t) (b (Fin.rev t))) (fun t o => o.2 = b (Fin.rev t).castSucc) (fun t => ENNReal.ofReal (M * ρ (Fin.rev t).castSucc)) fun t => by
      have h2 := bsBody_leave Γ (xs (Fin.rev t).succ (b (Fin.rev t).succ)) (inp t) (b (Fin.rev t).castSucc) (M := M) (hM (Fin.rev t))
      rw [hrt, hrs]
      have hM0 : 0 ≤ M := by linarith
      exact le_trans (le_of_eq (Ex.congr_fun' _ fun r => by congr)) (h2.trans (ENNReal.ofReal_le_ofReal (mul_le_mul_of_nonneg_left (hρ _) hM0)))
  have hsum : ∑ t : Fin n, ENNReal.ofReal (M * ρ (Fin.rev t).castSucc) = ENNReal.ofReal (M * ∑ t : Fin n, ρ t.castSucc) := by
    have hρ0 : ∀ t, 0 ≤ ρ t := fun t => (odds_nonneg _ _).trans (hρ t)
    rw [← ENNReal.ofReal_sum_of_nonneg fun t _ => mul_nonneg (by linarith) (hρ0 _), mul_sum]
    exact congrArg _ (Equiv.sum_comp Fin.revPerm fun t : Fin n => M * ρ t.castSucc)
  rw [hsum] at h1
  have hon : ∀ BT : Fin (N + 1), ExOn (scanM (bsBody (m := Ex) Γ) (lastA xs BT) inp) fun _ => True := fun BT =>
    ExOn.scanM _ _ (fun _ _ _ _ => True) trivial fun t ht c os _ => (bsBody_on c _).weaken fun _ _ => trivial
  show moveIndex mv (lastA (splitKey key (n + 1))) (normalizeW (lastA log_ws)) (lastA b) (fun BT =>
      (scanM (bsBody Γ) (lastA xs BT) inp : Ex _) (fun r => if rev (insert0 BT (fun t => (r.2 t).2)) t ≠ b t then 1 else 0)) ≤ _
  have hk := hmv.ker (lastA (splitKey key (n + 1)))
  have ho := hmv.on (lastA (splitKey key (n + 1))) _ (normalize_isProb (lastA log_ws)) (lastA b)
  calc moveIndex mv (lastA (splitKey key (n + 1))) (normalizeW (lastA log_ws)) (lastA b) (fun BT =>
      (scanM (bsBody Γ) (lastA xs BT) inp : Ex _) (fun r => if rev (insert0 BT (fun t => (r.2 t).2)) t ≠ b t then 1 else 0))
      ≤ moveIndex mv (lastA (splitKey key (n + 1))) (normalizeW (lastA log_ws)) (lastA b) (fun BT => (if BT ≠ lastA b then 1 else 0) +
        ENNReal.ofReal (M * ∑ t : Fin n, ρ t.castSucc)) := by
        refine ho.mono _ _ fun BT _ => ?_
        by_cases hB : BT = lastA b
        · subst hB
          rw [if_neg (by simp), zero_add]
          refine le_trans ((hon _).mono _ _ fun r _ => ?_) h1
          split_ifs with h2 h3 h3
          · refine absurd ?_ h2
            induction t using Fin.lastCases with
            | last => exact rev_insert0_last _ _
            | cast t => rw [rev_insert0_castSucc, h3 t.rev, Fin.rev_rev]
          · exact le_rfl
          · exact le_rfl
          · exact zero_le
        · rw [if_pos hB]
          refine le_trans ((hon _).le (c := 1) fun r _ => ?_) le_self_add
          split_ifs <;> simp
    _ = moveIndex mv (lastA (splitKey key (n + 1))) (normalizeW (lastA log_ws)) (lastA b) (fun BT => if BT ≠ lastA b then 1 else 0) +
        ENNReal.ofReal (M * ∑ t : Fin n, ρ t.castSucc) := by
        rw [hk.add (_, _) (measurable_of_finite _) (measurable_of_finite _), ho.const]
    _ ≤ ENNReal.ofReal (M * ρ (Fin.last n)) + ENNReal.ofReal (M * ∑ t : Fin n, ρ t.castSucc) := by
        refine add_le_add ((hmv.odds _ _ _).trans (ENNReal.ofReal_le_ofReal ?_)) le_rfl
        have h0 := hρ (Fin.last n)
        have h2 := odds_nonneg (lastA log_ws) (lastA b)
        exact h0.trans (le_mul_of_one_le_left (h2.trans h0) hM1)
    _ = _ := by
        have hρ0 : ∀ t, 0 ≤ ρ t := fun t => (odds_nonneg _ _).trans (hρ t)
        rw [← ENNReal.ofReal_add (mul_nonneg (by linarith) (hρ0 _)) (mul_nonneg (by linarith) (sum_nonneg fun t _ => hρ0 _)), ← mul_add,
          Fin.sum_univ_castSucc, add_comm]

theorem ind_le_one (p : Prop) [Decidable p] : (if p then (1 : ℝ≥0∞) else 0) ≤ 1 := by
  split_ifs <;> simp

theorem bsp_le_one (key : Key) (Γ : X → X → G → ℝ) (Gp : Fin n → G) (xs : Fin (n + 1) → Fin (N + 1) → X) (log_ws : Fin (n + 1) → Fin (N + 1) → ℝ)
    {mv : AncestorMove Ex N} (hmv : OddsMove mv) (b : Fin (N + 1)) {f : (Fin (n + 1) → X) × (Fin (n + 1) → Fin (N + 1)) → ℝ≥0∞} (hf : ∀ q, f q ≤ 1) :
    (backward_sampling_pass key Γ Gp b xs log_ws mv true : Ex _) f ≤ 1 := by
  have hon : ∀ BT : Fin (N + 1), ExOn (scanM (bsBody (m := Ex) Γ) (lastA xs BT)
      (fun t => (initA (splitKey key (n + 1)) t, revInit xs t, revInit log_ws t, rev Gp t))) fun _ => True := fun BT =>
    ExOn.scanM _ _ (fun _ _ _ _ => True) trivial fun t ht c os _ => (bsBody_on c _).weaken fun _ _ => trivial
  have h := (hmv.on (lastA (splitKey key (n + 1))) _ (normalize_isProb (lastA log_ws)) b).le fun BT _ => (hon BT).le fun r _ =>
    hf (rev (insert0 (lastA xs BT) (fun t => (r.2 t).1)), rev (insert0 BT (fun t => (r.2 t).2)))
  exact h

/-! ## The kernel given the particles -/

section tail
variable {resampling : Resampling Ex N} {mv : AncestorMove Ex N} (hR : ∀ key, CondResampling fun w i j => resampling key w i j true) (hmv : OddsMove mv)
  {body : (Fin (N + 1) → ℝ) × (Fin (N + 1) → X) → AuxInp Pm X N →
      Ex (((Fin (N + 1) → ℝ) × (Fin (N + 1) → X)) × ((Fin (N + 1) → ℝ) × (Fin (N + 1) → Fin (N + 1))))}
  {lw0 : Fin (N + 1) → ℝ} {ρ : Fin n → ℝ} {key kb : Key} {params : Fin n → Pm} {xs : Fin (n + 1) → Fin (N + 1) → X} {b : Fin (n + 1) → Fin (N + 1)}
  (hb : OddsBody resampling ρ body (auxInputs key params xs b) (keysResampling key n) xs b)
include hR hmv hb

theorem auxTail_odds (Γ : X → X → G → ℝ) (Gp : Fin n → G) {M : ℝ} (hM1 : 1 ≤ M)
    (hM : ∀ (t : Fin n) i, Real.exp (Γ (xs t.castSucc i) (xs t.succ (b t.succ)) (Gp t) - Γ (xs t.castSucc (b t.castSucc)) (xs t.succ (b t.succ)) (Gp t)) ≤ M)
    (t : Fin (n + 1)) :
    moveProb (auxTail body key kb params Γ Gp xs b (normalizeW lw0) lw0 mv) t (b t) ≤ ENNReal.ofReal (M * (odds lw0 (b 0) + ∑ t, ρ t)) ∧
      moveProb (auxTail body key kb params Γ Gp xs b (normalizeW lw0) lw0 mv) t (b t) ≤ 1 := by
  have hon := odds_on hR (normalize_isProb lw0) (fun k => by rw [normalize_eq]; exact div_pos (Real.exp_pos _) (sum_exp_pos _)) hb
  refine ⟨hon.le fun r hr => ?_, hon.le fun r hr => bsp_le_one _ _ _ _ _ hmv _ fun q => ind_le_one (q.2 t ≠ b t)⟩
  have h := bsp_leave kb Γ Gp (xs := xs) (log_ws := insert0 lw0 fun t => (r.2 t).1) hmv b hM (ρ := insert0 (odds lw0 (b 0)) ρ)
    (Fin.cases le_rfl hr.2.2.2) hM1 t
  rw [Fin.sum_univ_succ] at h
  exact h

theorem scanTail_odds (t : Fin (n + 1)) :
    moveProb (scanTail body key kb params xs b (normalizeW lw0) lw0 mv) t (b t) ≤ ENNReal.ofReal (odds lw0 (b 0) + ∑ t, ρ t) ∧
      moveProb (scanTail body key kb params xs b (normalizeW lw0) lw0 mv) t (b t) ≤ 1 := by
  have e : moveProb (scanTail body key kb params xs b (normalizeW lw0) lw0 mv) t (b t) =
      scanM body (normalizeW lw0, xs 0) (auxInputs key params xs b) fun r =>
        moveIndex mv kb (normalizeW (lastA (insert0 lw0 fun t => (r.2 t).1))) (lastA b) fun k => if anc (fun t => (r.2 t).2) k t ≠ b t then 1 else 0 := by
    show (scanM body (normalizeW lw0, xs 0) (auxInputs key params xs b) : Ex _) (fun r =>
      (backward_scanning_pass kb (fun t => (r.2 t).2) (lastA b) xs (lastA (insert0 lw0 fun t => (r.2 t).1)) mv : Ex _) fun q => if q.2 t ≠ b t then 1 else 0) = _
    refine Ex.congr_fun' _ fun r => ?_
    exact bscan_pass kb _ _ xs _ mv fun B => if B t ≠ b t then 1 else 0
  have hon := odds_on hR (normalize_isProb lw0) (fun k => by rw [normalize_eq]; exact div_pos (Real.exp_pos _) (sum_exp_pos _)) hb
  rw [e]
  refine ⟨hon.le fun r hr => ?_, hon.le fun r hr => (hmv.on kb _ (normalize_isProb _) _).le fun k _ => by split_ifs <;> simp⟩
  have h1 : ∀ t : Fin (n + 1), odds ((insert0 lw0 fun t => (r.2 t).1 : Fin (n + 1) → Fin (N + 1) → ℝ) t) (b t) ≤ (insert0 (odds lw0 (b 0)) ρ : Fin (n + 1) → ℝ) t :=
    Fin.cases le_rfl hr.2.2.2
  refine le_trans ((hmv.on kb _ (normalize_isProb _) (lastA b)).mono _ (fun k => if k ≠ lastA b then 1 else 0) fun k _ => ?_)
    ((hmv.odds kb _ (lastA b)).trans (ENNReal.ofReal_le_ofReal ?_))
  · by_cases hk : k = lastA b
    · rw [if_neg (not_not.mpr (by rw [hk]; exact hr.2.2.1 t))]
      exact zero_le
    · rw [if_pos hk]
      split_ifs <;> simp
  · refine (h1 (Fin.last n)).trans ?_
    have h2 := single_le_sum (f := (insert0 (odds lw0 (b 0)) ρ : Fin (n + 1) → ℝ)) (fun t _ => (odds_nonneg _ _).trans (h1 t)) (mem_univ (Fin.last n))
    rw [Fin.sum_univ_succ] at h2
    exact h2

end tail

/-! ## Noise -/

theorem far_tendsto {l : Filter ι} {s : ι → ℝ} (hs : Tendsto s l atTop) (x : Vec d) {v : Vec d} (hv : v ≠ 0) :
    Tendsto (fun k (j : Fin d) => x j + v j * s k) l (cocompact (Vec d)) := by
  obtain ⟨j, hj⟩ := Function.ne_iff.mp hv
  rw [← Metric.cobounded_eq_cocompact, ← tendsto_norm_atTop_iff_cobounded]
  have h1 : Tendsto (fun k => |v j| * s k - |x j|) l atTop := tendsto_atTop_add_const_right _ _ (hs.const_mul_atTop (abs_pos.mpr hj))
  refine tendsto_atTop_mono' l ?_ h1
  filter_upwards [hs.eventually_ge_atTop 0] with k hk
  have h2 := norm_le_pi_norm (fun j => x j + v j * s k) j
  have h3 : |v j * s k| ≤ |x j + v j * s k| + |x j| := by
    have := abs_sub (x j + v j * s k) (x j)
    rwa [add_sub_cancel_left] at this
  rw [Real.norm_eq_abs] at h2
  rw [abs_mul, abs_of_nonneg hk] at h3
  linarith

theorem gaussM_singleton (hd : 1 ≤ d) (x : Vec d) : gaussM d {x} = 0 := by
  unfold gaussM
  rw [Measure.pi_singleton]
  refine prod_eq_zero (mem_univ ⟨0, hd⟩) ?_
  have := nullSingletonClass_gaussianReal (μ := 0) (v := 1) one_ne_zero
  exact measure_singleton _

/-- Almost surely no proposal coincides with the reference. -/
theorem noise_ne (hd : 1 ≤ d) : ∀ᵐ p : AuxNoise N n d ∂((Measure.pi fun _ => gaussM d).prod (Measure.pi fun _ => Measure.pi fun _ => gaussM d)),
    ∀ t i, p.1 t + p.2 t i ≠ 0 := by
  refine ae_all_iff.mpr fun t => ae_all_iff.mpr fun i => ?_
  have hs : MeasurableSet {p : AuxNoise N n d | p.1 t + p.2 t i = 0} := (isClosed_eq (by fun_prop) continuous_const).measurableSet
  have h0 := (Measure.measure_prod_null (μ := Measure.pi fun _ : Fin (n + 1) => gaussM d)
    (ν := Measure.pi fun _ : Fin (n + 1) => Measure.pi fun _ : Fin (N + 1) => gaussM d) hs).mpr (.of_forall fun a => by
      have hp := (measurePreserving_eval (fun _ : Fin (N + 1) => gaussM d) i).comp
        (measurePreserving_eval (fun _ : Fin (n + 1) => Measure.pi fun _ : Fin (N + 1) => gaussM d) t)
      have h1 := hp.measure_preimage (s := {-a t}) (measurableSet_singleton _).nullMeasurableSet
      rw [gaussM_singleton hd] at h1
      refine measure_mono_null (fun e he => ?_) h1
      exact eq_neg_of_add_eq_zero_right he)
  rw [ae_iff]
  simpa using h0

theorem noise_far {E E' : Type} [MeasurableSpace E] [MeasurableSpace E'] {μ : Measure E} {ν : Measure E'} [IsProbabilityMeasure μ] [IsProbabilityMeasure ν]
    {l : Filter ι} [l.IsCountablyGenerated] {S : ι → E × E' → ℝ} (hS : ∀ s, Measurable (S s))
    (hlim : ∀ᵐ p ∂(μ.prod ν), Tendsto (fun s => S s p) l (𝓝 0)) {P : ι → E → E' → ℝ≥0∞} (hP : ∀ s a e, P s a e ≤ ENNReal.ofReal (S s (a, e)))
    (hP1 : ∀ s a e, P s a e ≤ 1) :
    Tendsto (fun s => ∫⁻ a, ∫⁻ e, P s a e ∂ν ∂μ) l (𝓝 0) := by
  have hm : ∀ s, Measurable fun p => min 1 (ENNReal.ofReal (S s p)) := fun s => measurable_const.min (hS s).ennreal_ofReal
  have e : ∀ s, ∫⁻ a, ∫⁻ e, min 1 (ENNReal.ofReal (S s (a, e))) ∂ν ∂μ = ∫⁻ p, min 1 (ENNReal.ofReal (S s p)) ∂(μ.prod ν) := fun s =>
    (lintegral_prod (fun p => min 1 (ENNReal.ofReal (S s p))) (hm s).aemeasurable).symm
  have h := tendsto_lintegral_filter_of_dominated_convergence (μ := μ.prod ν) (l := l) (F := fun s p => min 1 (ENNReal.ofReal (S s p))) (f := fun _ => 0) (fun _ => 1)
    (.of_forall fun s => hm s) (.of_forall fun s => .of_forall fun p => min_le_left _ _) (by simp)
    (hlim.mono fun p hp => by
      have h1 := (tendsto_const_nhds (x := (1 : ℝ≥0∞))).min ((ENNReal.continuous_ofReal.tendsto _).comp hp)
      simpa using h1)
  simp only [← e, lintegral_zero] at h
  exact tendsto_of_tendsto_of_tendsto_of_le_of_le tendsto_const_nhds h (fun _ => zero_le)
    (fun s => lintegral_mono fun a => lintegral_mono fun e => le_min (hP1 s a e) (hP s a e))

/-! ## The kernel -/

/-- Odds against the reference, whatever the ancestors. -/
noncomputable def farOdds (Γ0 : Vec d → ℝ) (Γ : Vec d → Vec d → G → ℝ) (Gp : Fin n → G) (b : Fin (n + 1) → Fin (N + 1)) (xs : Fin (n + 1) → Fin (N + 1) → Vec d) : ℝ :=
  odds (fun i => Γ0 (xs 0 i)) (b 0) + ∑ t : Fin n, ∑ i ∈ univ.erase (b t.succ), ∑ j,
    Real.exp (Γ (xs t.castSucc j) (xs t.succ i) (Gp t) - Γ (xs t.castSucc (b t.castSucc)) (xs t.succ (b t.succ)) (Gp t))

theorem rw_odds {resampling : Resampling Ex N} (Γ : Vec d → Vec d → G → ℝ) (key : Key) (Gp : Fin n → G) (xs : Fin (n + 1) → Fin (N + 1) → Vec d)
    (b : Fin (n + 1) → Fin (N + 1)) : OddsBody resampling (fun t => ∑ i ∈ univ.erase (b t.succ), ∑ j,
      Real.exp (Γ (xs t.castSucc j) (xs t.succ i) (Gp t) - Γ (xs t.castSucc (b t.castSucc)) (xs t.succ (b t.succ)) (Gp t)))
      (rwBody Γ resampling) (auxInputs key Gp xs b) (keysResampling key n) xs b := fun t c hc => by
  obtain ⟨ψ, hψ, e⟩ := rw_form (resampling := resampling) Γ key Gp xs b t c hc
  refine ⟨ψ, fun A hA => ?_, e⟩
  obtain ⟨k, hk⟩ := hψ A
  rw [hk, odds_sub]
  refine sum_le_sum fun i _ => ?_
  dsimp only
  rw [hA]
  exact single_le_sum (f := fun j => Real.exp (Γ (xs t.castSucc j) (xs t.succ i) (Gp t) - Γ (xs t.castSucc (b t.castSucc)) (xs t.succ (b t.succ)) (Gp t)))
    (fun j _ => (Real.exp_pos _).le) (mem_univ (A i))

theorem farOdds_cont {Y : Type} [TopologicalSpace Y] {Γ0 : Vec d → ℝ} {Γ : Vec d → Vec d → G → ℝ} (h0 : Continuous Γ0)
    (hΓ : ∀ y, Continuous fun p : Vec d × Vec d => Γ p.1 p.2 y) (Gp : Fin n → G) (b : Fin (n + 1) → Fin (N + 1))
    {xs : Y → Fin (n + 1) → Fin (N + 1) → Vec d} (hx : Continuous xs) : Continuous fun y => farOdds Γ0 Γ Gp b (xs y) := by
  have hx' : ∀ t i, Continuous fun y => xs y t i := fun t i => (continuous_apply i).comp ((continuous_apply t).comp hx)
  have hG : ∀ (t : Fin n) i j, Continuous fun y => Γ (xs y t.castSucc i) (xs y t.succ j) (Gp t) := fun t i j =>
    (hΓ (Gp t)).comp ((hx' _ _).prodMk (hx' _ _))
  unfold farOdds odds
  refine Continuous.add (continuous_finsetSum _ fun i _ => ((h0.comp (hx' _ _)).sub (h0.comp (hx' _ _))).rexp)
    (continuous_finsetSum _ fun t _ => continuous_finsetSum _ fun i _ => continuous_finsetSum _ fun j _ => ((hG _ _ _).sub (hG _ _ _)).rexp)

theorem farOdds_tendsto {l : Filter ι} {Γ0 : Vec d → ℝ} {Γ : Vec d → Vec d → G → ℝ} (h0 : Tendsto Γ0 (cocompact _) atBot) (Gp : Fin n → G) (hΓ : ∀ t, VanishesFar Γ (Gp t))
    (b : Fin (n + 1) → Fin (N + 1)) (xstar : Fin (n + 1) → Vec d) {xs : ι → Fin (n + 1) → Fin (N + 1) → Vec d} (hb : ∀ s t, xs s t (b t) = xstar t)
    (hx : ∀ t i, i ≠ b t → Tendsto (fun s => xs s t i) l (cocompact _)) : Tendsto (fun s => farOdds Γ0 Γ Gp b (xs s)) l (𝓝 0) := by
  unfold farOdds odds
  simp only [hb]
  have e : (0 : ℝ) = ∑ i ∈ univ.erase (b 0), 0 + ∑ t : Fin n, ∑ i ∈ univ.erase (b t.succ), ∑ j : Fin (N + 1), 0 := by simp
  rw [e]
  refine Tendsto.add (tendsto_finsetSum _ fun i hi => ?_) (tendsto_finsetSum _ fun t _ => tendsto_finsetSum _ fun i hi => tendsto_finsetSum _ fun j _ => ?_)
  · exact Real.tendsto_exp_atBot.comp (tendsto_atBot_add_const_right _ _ (h0.comp (hx 0 i (ne_of_mem_erase hi))))
  · obtain ⟨φ, hφ, hle⟩ := hΓ t
    refine Real.tendsto_exp_atBot.comp (tendsto_atBot_add_const_right _ _ ?_)
    exact tendsto_atBot_mono (fun s => hle _ _) (hφ.comp (hx t.succ i (ne_of_mem_erase hi)))

/-- Large steps of `rw_csmc` are rejected. -/
theorem rw_large {l : Filter ι} [l.IsCountablyGenerated] {δ : ι → Fin (n + 1) → ℝ} (hδ : ∀ t, Tendsto (fun s => δ s t) l atTop) (hd : 1 ≤ d)
    {resampling : Resampling Ex N} {mv : AncestorMove Ex N} (hR : ∀ key, CondResampling fun w i j => resampling key w i j true) (hmv : OddsMove mv) (key : Key)
    (xstar : Fin (n + 1) → Vec d) (b : Fin (n + 1) → Fin (N + 1)) (Gp : Fin n → G) {Γ0 : Vec d → ℝ} {Γ : Vec d → Vec d → G → ℝ} (c0 : Continuous Γ0)
    (cΓ : ∀ y, Continuous fun p : Vec d × Vec d => Γ p.1 p.2 y) (h0 : Tendsto Γ0 (cocompact _) atBot) (hΓ : ∀ t, VanishesFar Γ (Gp t)) (backward : Bool) (t : Fin (n + 1)) :
    Tendsto (fun s => moveProb (rw_kernel (fun _ => true) key xstar b Γ0 Γ Gp (δ s) resampling mv backward) t (b t)) l (𝓝 0) := by
  choose φ hφ hle using hΓ
  set M : ℝ := 1 + ∑ t : Fin n, Real.exp (φ t (xstar t.succ) - Γ (xstar t.castSucc) (xstar t.succ) (Gp t)) with hM
  have hM1 : 1 ≤ M := le_add_of_nonneg_right (sum_nonneg fun _ _ => (Real.exp_pos _).le)
  set xs : ι → AuxNoise N n d → Fin (n + 1) → Fin (N + 1) → Vec d := fun s p => auxParticles (rwU xstar (δ s) p.1) (auxStd (δ s)) p.2 b xstar with hxs
  have hxb : ∀ s p t, xs s p t (b t) = xstar t := fun s p t => atSet_same _ _ _
  have hstd : ∀ t, Tendsto (fun s => auxStd (δ s) t) l atTop := fun t =>
    Real.tendsto_sqrt_atTop.comp ((hδ t).const_mul_atTop (by norm_num))
  have hlim : ∀ᵐ p : AuxNoise N n d ∂((Measure.pi fun _ => gaussM d).prod (Measure.pi fun _ => Measure.pi fun _ => gaussM d)),
      Tendsto (fun s => M * farOdds Γ0 Γ Gp b (xs s p)) l (𝓝 0) := (noise_ne hd).mono fun p hp => by
    have := (farOdds_tendsto (l := l) h0 Gp (fun t => ⟨φ t, hφ t, fun x' x => hle t x' x⟩) b xstar (xs := fun s => xs s p) (fun s => hxb s p) fun t i hi => by
      have h1 := far_tendsto (hstd t) (xstar t) (hp t i)
      refine h1.congr fun s => ?_
      funext j
      show _ = atSet _ (b t) (xstar t) i j
      rw [atSet_ne _ _ hi]
      simp only [rwU, Pi.add_apply]
      ring).const_mul M
    rwa [mul_zero] at this
  have hmeas : ∀ s, Measurable fun p => M * farOdds Γ0 Γ Gp b (xs s p) := fun s => by
    refine (Continuous.mul continuous_const (farOdds_cont c0 cΓ Gp b ?_)).measurable
    refine auxParticles_cont ?_ continuous_snd _ _ _
    unfold rwU
    fun_prop
  have hbM : ∀ s p (t : Fin n) i, Real.exp (Γ (xs s p t.castSucc i) (xs s p t.succ (b t.succ)) (Gp t) -
      Γ (xs s p t.castSucc (b t.castSucc)) (xs s p t.succ (b t.succ)) (Gp t)) ≤ M := fun s p t i => by
    rw [hxb, hxb, hM]
    have h1 := single_le_sum (f := fun t : Fin n => Real.exp (φ t (xstar t.succ) - Γ (xstar t.castSucc) (xstar t.succ) (Gp t)))
      (fun _ _ => (Real.exp_pos _).le) (mem_univ t)
    have h2 : Real.exp (Γ (xs s p t.castSucc i) (xstar t.succ) (Gp t) - Γ (xstar t.castSucc) (xstar t.succ) (Gp t)) ≤
      Real.exp (φ t (xstar t.succ) - Γ (xstar t.castSucc) (xstar t.succ) (Gp t)) := Real.exp_le_exp.mpr (sub_le_sub_right (hle _ _ _) _)
    linarith
  have hfo : ∀ s p, 0 ≤ farOdds Γ0 Γ Gp b (xs s p) := fun s p => add_nonneg (odds_nonneg _ _)
    (sum_nonneg fun _ _ => sum_nonneg fun _ _ => sum_nonneg fun _ _ => (Real.exp_pos _).le)
  cases backward with
  | true =>
    simp only [rw_avg]
    have h := fun s p => auxTail_odds hR hmv (kb := splitKey key (n + 3) 2) (lw0 := fun i => Γ0 (xs s p 0 i) - maxA fun i => Γ0 (xs s p 0 i))
        (rw_odds Γ key Gp (xs s p) b) Γ Gp hM1 (hbM s p) t
    simp only [odds_sub] at h
    exact noise_far hmeas hlim (fun s a e => (h s (a, e)).1) fun s a e => (h s (a, e)).2
  | false =>
    simp only [rw_avg_scan]
    have h := fun s p => scanTail_odds hR hmv (kb := splitKey key (n + 3) 2) (lw0 := fun i => Γ0 (xs s p 0 i) - maxA fun i => Γ0 (xs s p 0 i))
        (rw_odds Γ key Gp (xs s p) b) t
    simp only [odds_sub] at h
    exact noise_far hmeas hlim (fun s a e => (h s (a, e)).1.trans (ENNReal.ofReal_le_ofReal (le_mul_of_one_le_left (hfo s (a, e)) hM1)))
      fun s a e => (h s (a, e)).2

end Verif
