import Verif.Lemmas.AuxRules
import Verif.Model.Mcmc
import Verif.Spec.Chain
import Verif.Core.KerSem
import Verif.Spec.Invariance

/-!
# Drivers: helper lemmas
-/

open scoped ENNReal
open MeasureTheory

namespace Verif
open Verif.Spec Verif.Model Verif.Poss

/-! ## Clipping -/

theorem clip_mem {x lo hi : ℝ} (h : lo ≤ hi) : lo ≤ clip x lo hi ∧ clip x lo hi ≤ hi :=
  ⟨le_min (le_max_right _ _) h, min_le_right _ _⟩

theorem clip_eq {x lo hi : ℝ} (h1 : lo ≤ x) (h2 : x ≤ hi) : clip x lo hi = x := by
  rw [clip, max_eq_left h1, min_eq_left h2]

theorem clip_mono {x y : ℝ} (lo hi : ℝ) (h : x ≤ y) : clip x lo hi ≤ clip y lo hi :=
  min_le_min (max_le_max h le_rfl) le_rfl

/-! ## History -/

/-- The history after `i` steps with flags `a 0, …, a (i-1)`. -/
def histOf (W : ℕ) (a : ℕ → ℝ) (i : ℕ) : Fin (W + 1) → Option ℝ :=
  fun j => if j.1 < i then some (a (i - 1 - j)) else none

theorem histOf_zero (W : ℕ) (a : ℕ → ℝ) : histOf W a 0 = nanHistory W := by
  funext j; simp [histOf, nanHistory]

theorem pushHistory_zero {W : ℕ} (h : Fin (W + 1) → Option ℝ) (v : Option ℝ) : pushHistory h v 0 = v := by
  simp [pushHistory]

theorem pushHistory_succ {W : ℕ} (h : Fin (W + 1) → Option ℝ) (v : Option ℝ) (j : Fin W) :
    pushHistory h v j.succ = h j.castSucc := by
  rw [pushHistory]
  rw [atSet_ne _ _ (Fin.succ_ne_zero j)]
  rfl

theorem push_histOf (W : ℕ) (a : ℕ → ℝ) (i : ℕ) :
    pushHistory (histOf W a i) (some (a i)) = histOf W a (i + 1) := by
  funext j
  refine Fin.cases ?_ (fun j => ?_) j
  · simp [pushHistory_zero, histOf]
  · rw [pushHistory_succ]
    simp only [histOf, Fin.val_castSucc, Fin.val_succ, Nat.add_lt_add_iff_right]
    by_cases h : j.1 < i
    · simp only [h, if_true]
      congr 2
      omega
    · simp only [h, if_false]

theorem histOf_congr {W : ℕ} {a b : ℕ → ℝ} {i : ℕ} (h : ∀ k < i, a k = b k) : histOf W a i = histOf W b i := by
  funext j
  unfold histOf
  by_cases hj : j.1 < i
  · simp only [hj, if_true]
    rw [h _ (by omega)]
  · simp only [hj, if_false]

theorem nanmean_histOf (W : ℕ) (a : ℕ → ℝ) {i : ℕ} (hi : 0 < i) :
    nanmean (histOf W a i) = some (lastMean a i (min i (W + 1))) := by
  have hs : ∀ j : Fin (W + 1), (histOf W a i j).isSome = decide (j.1 < i) := fun j => by
    unfold histOf; by_cases h : j.1 < i <;> simp [h]
  have hg : ∀ j : Fin (W + 1), (histOf W a i j).getD 0 = if j.1 < i then a (i - 1 - j) else 0 := fun j => by
    unfold histOf; by_cases h : j.1 < i <;> simp [h]
  have hc : (∑ j : Fin (W + 1), if (histOf W a i j).isSome then 1 else 0) = min i (W + 1) := by
    simp only [hs, decide_eq_true_eq]
    rw [Fin.sum_univ_eq_sum_range (fun j => if j < i then 1 else 0), Finset.sum_boole]
    have : (Finset.range (W + 1)).filter (fun j => j < i) = Finset.range (min i (W + 1)) := by
      ext j; simp only [Finset.mem_filter, Finset.mem_range]; omega
    rw [this, Finset.card_range]
    rfl
  have hsum : (∑ j : Fin (W + 1), (histOf W a i j).getD 0) = ∑ j ∈ Finset.range (min i (W + 1)), a (i - 1 - j) := by
    simp only [hg]
    rw [Fin.sum_univ_eq_sum_range (fun j => if j < i then a (i - 1 - j) else 0), ← Finset.sum_filter]
    have : (Finset.range (W + 1)).filter (fun j => j < i) = Finset.range (min i (W + 1)) := by
      ext j; simp only [Finset.mem_filter, Finset.mem_range]; omega
    rw [this]
  have hpos : min i (W + 1) ≠ 0 := by omega
  unfold nanmean
  simp only [hc, hsum, hpos, if_false]
  rfl

/-! ## Scans -/

/-- A scan without outputs, from its trace. -/
theorem scanM_traced {m : Type → Type} [Monad m] [LawfulMonad m] {C I : Type} (body : C → I → m (C × Unit)) {n : ℕ}
    (c : C) (inp : Fin n → I) :
    scanM body c inp = scanM (traced body) c inp >>= fun r => pure (r.1, fun _ => ()) := by
  refine scanM_map c (fun _ => ()) fun t c => ?_
  simp only [traced, bind_assoc, pure_bind]
  conv_lhs => rw [← bind_pure (body c (inp t))]

/-- Scans with equal bodies on carries that satisfy an invariant. -/
theorem scanM_congr_inv {m : Type → Type} [Monad m] [LawfulMonad m] {C I O α : Type} {body body' : C → I → m (C × O)}
    {n : ℕ} (inp : Fin n → I) (Inv : C → Prop) (P : C → I → m α) (F : C → I → α → C × O)
    (hb : ∀ t c, body c (inp t) = P c (inp t) >>= fun a => pure (F c (inp t) a))
    (hF : ∀ t c a, Inv c → Inv (F c (inp t) a).1)
    (hbb : ∀ t c, Inv c → body' c (inp t) = body c (inp t)) (c : C) (hc : Inv c) :
    scanM body' c inp = scanM body c inp := by
  induction n generalizing c with
  | zero => rfl
  | succ n ih =>
    rw [scanM_succ, scanM_succ, hbb 0 c hc, hb 0 c, bind_assoc, bind_assoc]
    congr 1
    funext a
    rw [pure_bind, pure_bind]
    rw [ih (tailA inp) (fun t c => hb t.succ c) (fun t c a => hF t.succ c a) (fun t c => hbb t.succ c) _
      (hF 0 c a hc)]

/-! ## Chains -/

/-- A scan whose carry is a projection of the state of a chain, and whose outputs are a function of the states
before and after each step. -/
theorem scanM_chain_proj {m : Type → Type} [Monad m] [LawfulMonad m] {S C I O : Type} (p : S → C)
    (step : Key → S → m S) (body : C → I → m (C × O)) {n : ℕ} (inp : Fin n → I) (keys : Fin n → Key) (out : S → S → O)
    (hb : ∀ t s, body (p s) (inp t) = step (keys t) s >>= fun s' => pure (p s', out s s')) (s : S) :
    scanM body (p s) inp = chain step s keys >>= fun tr =>
      pure (p (lastA tr), fun t => out (tr t.castSucc) (tr t.succ)) := by
  induction n generalizing s with
  | zero =>
    show pure (p s, Fin.elim0) = (pure fun _ => s) >>= _
    rw [pure_bind]
    congr 2
    funext t
    exact t.elim0
  | succ n ih =>
    rw [scanM_succ, hb 0 s]
    show _ = (step (keys 0) s >>= fun s' => chain step s' (tailA keys) >>= fun rest => pure (insert0 s rest)) >>= _
    simp only [bind_assoc, pure_bind]
    congr 1
    funext s'
    rw [ih (tailA inp) (tailA keys) (fun t s => hb t.succ s)]
    simp only [bind_assoc, pure_bind]
    -- the first entry of the chain
    have h0 : ∀ {n : ℕ} (s : S) (keys : Fin n → Key) {β : Type} (k k' : (Fin (n + 1) → S) → m β),
        (∀ tr, tr 0 = s → k tr = k' tr) → chain step s keys >>= k = chain step s keys >>= k' := by
      intro n
      cases n with
      | zero =>
        intro s keys β k k' h
        show (pure fun _ => s) >>= k = (pure fun _ => s) >>= k'
        rw [pure_bind, pure_bind]
        exact h _ rfl
      | succ n =>
        intro s keys β k k' h
        show (step (keys 0) s >>= fun s' => chain step s' (tailA keys) >>= fun rest => pure (insert0 s rest)) >>= k =
          (step (keys 0) s >>= fun s' => chain step s' (tailA keys) >>= fun rest => pure (insert0 s rest)) >>= k'
        simp only [bind_assoc, pure_bind]
        congr 1; funext s'; congr 1; funext rest
        exact h _ rfl
    refine h0 s' (tailA keys) _ _ fun tr htr => ?_
    congr 2
    funext t
    refine Fin.cases ?_ (fun u => ?_) t
    · show out s s' = out s (tr 0)
      rw [htr]
    · rfl

@[inherit_doc scanM_chain_proj]
theorem scanM_chain {m : Type → Type} [Monad m] [LawfulMonad m] {S I O : Type} (step : Key → S → m S)
    (body : S → I → m (S × O)) {n : ℕ} (inp : Fin n → I) (keys : Fin n → Key) (out : S → S → O)
    (hb : ∀ t s, body s (inp t) = step (keys t) s >>= fun s' => pure (s', out s s')) (s : S) :
    scanM body s inp = chain step s keys >>= fun tr =>
      pure (lastA tr, fun t => out (tr t.castSucc) (tr t.succ)) :=
  scanM_chain_proj id step body inp keys out hb s

end Verif
