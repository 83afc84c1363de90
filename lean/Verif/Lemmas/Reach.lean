import Verif.Lemmas.Minorize
import Verif.Lemmas.SecondOrder
import Verif.Spec.Reach

/-!
# The kernel of a conditional particle system reaches every set of positive measure

Same proof as for the lower bound of `Lemmas/Minorize`, but without bounds on the weights: `a ≤ ∞ * b` means that `a = 0`
whenever `b = 0`.
-/

open scoped ENNReal
open MeasureTheory ProbabilityTheory Finset

namespace Verif
open Verif.Spec Verif.Model

theorem le_top_mul {a b : ℝ≥0∞} (h : b ≠ 0) : a ≤ ∞ * b := by
  rw [ENNReal.top_mul h]
  exact le_top

theorem le_top_mul_iff {a b : ℝ≥0∞} : a ≤ ∞ * b ↔ (b = 0 → a = 0) := by
  refine ⟨fun h hb => ?_, fun h => ?_⟩
  · rw [hb, mul_zero] at h
    exact le_antisymm h bot_le
  · by_cases hb : b = 0
    · rw [h hb]
      exact bot_le
    · exact le_top_mul hb

theorem top_mul_top_mul (a : ℝ≥0∞) : ∞ * (∞ * a) = ∞ * a := by rw [← mul_assoc, ENNReal.top_mul_top]

variable {X V : Type} [MeasurableSpace X] [MeasurableSpace V] {N n : ℕ}

theorem IsKer.top_mono {β α : Type} [MeasurableSpace β] [MeasurableSpace α] {P : β → Ex α} (hP : IsKer P) (b : β) {f g : α → ℝ≥0∞}
    (hf : Measurable f) (hg : Measurable g) (h : ∀ a, f a ≤ ∞ * g a) : P b f ≤ ∞ * P b g := by
  rw [← hP.const_mul b ∞ hg]
  exact hP.mono b hf (hg.const_mul _) h

/-- The particles other than the reference can be anywhere, as far as their part `π` is concerned. -/
structure Sys.Free (S : Sys X N n) (π : X → V) (lam : Measure V) : Prop where
  q0 : ∀ b x i, i ≠ b → ∀ f, Measurable f → ∫⁻ x, f x ∂lam ≤ ∞ * S.Q0 b x (fun Xs => f (π (Xs i)))
  q : ∀ t Y b x i, i ≠ b → ∀ f, Measurable f → ∫⁻ x, f x ∂lam ≤ ∞ * S.Q t Y b x (fun Xs => f (π (Xs i)))

omit [MeasurableSpace X] in
theorem Sys.Free.init {S : Sys X N (n + 1)} {π : X → V} {lam : Measure V} (h : S.Free π lam) : S.init.Free π lam where
  q0 := h.q0
  q t := h.q t.castSucc

/-- Sum over all the paths through the particles that end in particle `k` (`backward`), or the genealogy of particle `k`. -/
noncomputable def Hist.all (π : X → V) (backward : Bool) : {n : ℕ} → Hist X N n → Fin (N + 1) → Ex (Fin (n + 1) → V)
  | 0, h, k, f => f fun _ => π (h.2 0 k)
  | n + 1, h, k, f =>
    if backward then ∑ l, h.init.all π backward l fun y => f (snocA y (π (lastA h.2 k)))
    else h.init.all π backward (lastA h.1 k) fun y => f (snocA y (π (lastA h.2 k)))

theorem Hist.all_ker {π : X → V} (hπ : Measurable π) (backward : Bool) {n : ℕ} :
    IsKer fun p : Hist X N n × Fin (N + 1) => p.1.all π backward p.2 := by
  induction n with
  | zero =>
    refine IsKer.pure (g := fun (p : Hist X N 0 × Fin (N + 1)) (_ : Fin 1) => π (p.1.2 0 p.2)) (measurable_pi_lambda _ fun _ => hπ.comp ?_)
    exact measurable_index (a := fun p : Hist X N 0 × Fin (N + 1) => p.1.2 0) (by fun_prop) (by fun_prop)
  | succ n ih =>
    have hx : Measurable fun p : Hist X N (n + 1) × Fin (N + 1) => π (lastA p.1.2 p.2) :=
      hπ.comp (measurable_index (a := fun p : Hist X N (n + 1) × Fin (N + 1) => lastA p.1.2) (by fun_prop) (by fun_prop))
    cases backward with
    | false =>
      have ha : Measurable fun p : Hist X N (n + 1) × Fin (N + 1) => (lastA p.1.1 : Anc N) p.2 :=
        measurable_index (a := fun p : Hist X N (n + 1) × Fin (N + 1) => (lastA p.1.1 : Anc N)) (by fun_prop) (by fun_prop)
      exact (ih.comp (g := fun p : Hist X N (n + 1) × Fin (N + 1) => (p.1.init, (lastA p.1.1 : Anc N) p.2)) (by fun_prop)).bind
        (F := fun p y => pure (snocA y (π ((lastA p.1.2 : PA X N) p.2)))) (IsKer.pure (measurable_snocA (by fun_prop) (hx.comp (by fun_prop))))
    | true =>
      have hc : IsKer fun _ : Hist X N (n + 1) × Fin (N + 1) => ((fun f => ∑ l, f l : Ex (Fin (N + 1)))) :=
        IsKer.const Measure.count fun f _ => by rw [lintegral_count, tsum_fintype]
      exact hc.bind (F := fun p l => p.1.init.all π true l >>= fun y => pure (snocA y (π ((lastA p.1.2 : PA X N) p.2))))
        ((ih.comp (g := fun p : (Hist X N (n + 1) × Fin (N + 1)) × Fin (N + 1) => (p.1.1.init, p.2)) (by fun_prop)).bind
        (F := fun p y => pure (snocA y (π ((lastA p.1.1.2 : PA X N) p.1.2)))) (IsKer.pure (measurable_snocA (by fun_prop) (hx.comp (by fun_prop)))))

omit [MeasurableSpace X] [MeasurableSpace V] in
theorem Hist.all_scan (π : X → V) {n : ℕ} (h : Hist X N n) (k : Fin (N + 1)) (f : (Fin (n + 1) → V) → ℝ≥0∞) :
    h.all π false k f = f fun t => π (h.tracex k t) := by
  induction n generalizing k with
  | zero => exact congrArg f (funext fun t => by rw [show t = 0 from Subsingleton.elim (α := Fin 1) t 0]; rfl)
  | succ n ih =>
    show h.init.all π false (lastA h.1 k) (fun y => f (snocA y (π (lastA h.2 k)))) = _
    rw [ih]
    refine congrArg f (funext fun t => ?_)
    refine Fin.lastCases ?_ (fun s => ?_) t
    · rw [snocA_last, Hist.tracex_last]
    · rw [snocA_castSucc]
      simp [Hist.tracex, Hist.trace, Hist.init]

omit [MeasurableSpace X] in
/-- Backward sampling can choose all the paths. -/
theorem Sys.bs_all {n : ℕ} (S : Sys X N n) (Γ : Fin n → X → X → ℝ) (h : Hist X N n) (k : Fin (N + 1)) (f : (Fin (n + 1) → X) → ℝ≥0∞) :
    h.all id true k f ≤ ∞ * S.bs Γ h k fun r => f r.1 := by
  induction n generalizing k with
  | zero => exact le_top_mul_iff.mpr fun h => h
  | succ n ih =>
    show ∑ l, h.init.all id true l (fun y => f (snocA y (lastA h.2 k))) ≤
      ∞ * ∑ l, catP (normalizeW fun i => S.init.lwLast h.init i + Γ (Fin.last n) (lastA h.init.2 i) (lastA h.2 k)) l *
        S.init.bs (initA Γ) h.init l fun r => f (snocA r.1 (lastA h.2 k))
    rw [mul_sum]
    refine sum_le_sum fun l _ => (ih S.init (initA Γ) h.init l _).trans ?_
    rw [catP_normalize, ← mul_assoc, ENNReal.top_mul (ENNReal.ofReal_pos.mpr (normalize_pos _ l)).ne']

omit [MeasurableSpace V] in
theorem Sys.bs2_all {n : ℕ} (S : Sys (V × V) N n) (Γ : Fin n → V × V → V → ℝ) (τ : V → ℝ) (h : Hist (V × V) N n) (k : Fin (N + 1))
    (f : (Fin (n + 1) → V) → ℝ≥0∞) : h.all Prod.snd true k f ≤ ∞ * S.bs2 Γ τ h k fun r => f r.1 := by
  induction n generalizing k τ with
  | zero => exact le_top_mul_iff.mpr fun h => h
  | succ n ih =>
    show ∑ l, h.init.all Prod.snd true l (fun y => f (snocA y (lastA h.2 k).2)) ≤
      ∞ * ∑ l, catP (normalizeW fun i => S.init.lwLast h.init i +
      Γ (Fin.last n) (lastA h.init.2 i) (lastA h.2 k).2 + τ (lastA h.init.2 i).2) l *
        S.init.bs2 (initA Γ) (fun y => Γ (Fin.last n) (y, (lastA h.init.2 l).2) (lastA h.2 k).2) h.init l fun r => f (snocA r.1 (lastA h.2 k).2)
    rw [mul_sum]
    refine sum_le_sum fun l _ => (ih S.init (initA Γ) (fun y => Γ (Fin.last n) (y, (lastA h.init.2 l).2) (lastA h.2 k).2) h.init l _).trans ?_
    rw [catP_normalize, ← mul_assoc, ENNReal.top_mul (ENNReal.ofReal_pos.mpr (normalize_pos _ l)).ne']

/-- One step, for scanning. -/
theorem Sys.OK.reach_scan {S : Sys X N (n + 1)} (hS : S.OK) {π : X → V} (hπ : Measurable π) {lam : Measure V} [SFinite lam]
    (hF : S.Free π lam) {i j : Fin (N + 1)} (xl : X)
    (h : Hist X N n) (hoff : ∀ l, l ≠ i → offspring (S.R (Fin.last n)) (S.init.wLast h) i j l ≠ 0)
    {f : Fin (N + 1) → V → ℝ≥0∞} (hf : ∀ l, Measurable (f l)) :
    ∑ l ∈ univ.erase i, ∫⁻ x', f l x' ∂lam ≤
      ∞ * S.R (Fin.last n) (S.init.wLast h) i j fun a => S.Q (Fin.last n) (take (lastA h.2) a) j xl fun Xs =>
        ∑ k ∈ univ.erase j, f (a k) (π (Xs k)) := by
  have e : ∀ a : Anc N, ∑ k ∈ univ.erase j, ∫⁻ x', f (a k) x' ∂lam ≤
      ∞ * S.Q (Fin.last n) (take (lastA h.2) a) j xl fun Xs => ∑ k ∈ univ.erase j, f (a k) (π (Xs k)) := fun a => by
    have h1 := (hS.Q_ker (Fin.last n)).sum (take (lastA h.2) a, j, xl) (univ.erase j) (f := fun k Xs => f (a k) (π (Xs k)))
      fun k _ => by have := hf (a k); fun_prop
    rw [h1, mul_sum]
    exact sum_le_sum fun k hk => hF.q (Fin.last n) (take (lastA h.2) a) j xl k (ne_of_mem_erase hk) (f (a k)) (hf _)
  have h2 : S.R (Fin.last n) (S.init.wLast h) i j (fun a => ∑ k ∈ univ.erase j, ∫⁻ x', f (a k) x' ∂lam) =
      ∑ l, (∫⁻ x', f l x' ∂lam) * offspring (S.R (Fin.last n)) (S.init.wLast h) i j l :=
    offspring_sum (hS.R_ok _) (S.init.wLast h) i j fun l => ∫⁻ x', f l x' ∂lam
  have h3 := (hS.R_ok (Fin.last n)).ker.top_mono (S.init.wLast h, i, j) (Measurable.of_discrete) (Measurable.of_discrete) e
  refine le_trans ?_ ((mul_le_mul_right h3 ∞).trans (top_mul_top_mul _).le)
  show _ ≤ ∞ * S.R (Fin.last n) (S.init.wLast h) i j (fun a => ∑ k ∈ univ.erase j, ∫⁻ x', f (a k) x' ∂lam)
  rw [h2, mul_sum]
  refine le_trans (sum_le_sum fun l hl => ?_) (sum_le_sum_of_subset (erase_subset i univ))
  refine le_top_mul_iff.mpr fun h0 => ?_
  exact (mul_eq_zero.mp h0).resolve_right (hoff l (ne_of_mem_erase hl))

/-- One step, for backward sampling. -/
theorem Sys.OK.reach_bs {S : Sys X N (n + 1)} (hS : S.OK) (hN : N ≠ 0) {π : X → V} (hπ : Measurable π) {lam : Measure V}
    (hF : S.Free π lam) {i j : Fin (N + 1)} (xl : X) (h : Hist X N n) {Ψ : V → ℝ≥0∞} (hΨ : Measurable Ψ) :
    ∫⁻ x', Ψ x' ∂lam ≤
      ∞ * S.R (Fin.last n) (S.init.wLast h) i j fun a => S.Q (Fin.last n) (take (lastA h.2) a) j xl fun Xs =>
        ∑ k ∈ univ.erase j, Ψ (π (Xs k)) := by
  -- one particle besides the reference
  obtain ⟨k, hk⟩ : ∃ k, k ≠ j := by
    obtain ⟨N, rfl⟩ := Nat.exists_eq_succ_of_ne_zero hN
    exact exists_ne j
  have h2 : ∀ a : Anc N, ∫⁻ x', Ψ x' ∂lam ≤ ∞ * S.Q (Fin.last n) (take (lastA h.2) a) j xl fun Xs => ∑ k ∈ univ.erase j, Ψ (π (Xs k)) := fun a => by
    refine (hF.q (Fin.last n) (take (lastA h.2) a) j xl k hk Ψ hΨ).trans (mul_le_mul_right ?_ _)
    refine (hS.Q_ker (Fin.last n)).mono (take (lastA h.2) a, j, xl) (by fun_prop) (by fun_prop) fun Xs => ?_
    exact single_le_sum (f := fun k => Ψ (π (Xs k))) (fun _ _ => bot_le) (mem_erase.mpr ⟨hk, mem_univ _⟩)
  have h3 := (hS.R_ok (Fin.last n)).ker.top_mono (S.init.wLast h, i, j) (Measurable.of_discrete) (Measurable.of_discrete) h2
  have h4 : S.R (Fin.last n) (S.init.wLast h) i j (fun _ => ∫⁻ x', Ψ x' ∂lam) = ∫⁻ x', Ψ x' ∂lam := by
    have hc := (hS.R_ok (Fin.last n)).ker.const_fun (S.init.wLast h, i, j) (∫⁻ x', Ψ x' ∂lam)
    refine hc.trans ?_
    exact (congrArg _ ((hS.R_ok (Fin.last n)).mass _ (normalize_isProb _) i j)).trans (mul_one _)
  rw [← h4]
  exact h3

/-- The trajectories that avoid the reference can be anywhere. -/
theorem Sys.OK.fwd_reach {n : ℕ} {S : Sys X N n} (hS : S.OK) (hN : N ≠ 0) {π : X → V} (hπ : Measurable π) {lam : Measure V}
    [SigmaFinite lam] (hF : S.Free π lam) (backward : Bool)
    (hoff : backward = false → ∀ t w, IsProb w → (∀ i, 0 < w i) → ∀ i j l, l ≠ i → offspring (S.R t) w i j l ≠ 0)
    (b : Fin (n + 1) → Fin (N + 1)) (x : Fin (n + 1) → X) {f : (Fin (n + 1) → V) → ℝ≥0∞} (hf : Measurable f) :
    ∫⁻ x, f x ∂(Measure.pi fun _ => lam) ≤ ∞ * S.fwd b x fun h => ∑ k ∈ univ.erase (lastA b), h.all π backward k f := by
  have hsel : ∀ {n : ℕ} (s : Finset (Fin (N + 1))) {f : (Fin (n + 1) → V) → ℝ≥0∞} (_ : Measurable f),
      Measurable fun h : Hist X N n => ∑ k ∈ s, h.all π backward k f := fun s _ hf => Finset.measurable_fun_sum _ fun k _ =>
    ((Hist.all_ker hπ backward).comp (g := fun h : Hist X N _ => (h, k)) (by fun_prop)).measurable' hf
  induction n with
  | zero =>
    obtain ⟨k, hk⟩ : ∃ k, k ≠ b 0 := by
      obtain ⟨N, rfl⟩ := Nat.exists_eq_succ_of_ne_zero hN
      exact exists_ne _
    rw [lintegral_pi_fin_one _ _ hf]
    refine (hF.q0 (b 0) (x 0) k hk (fun x => f fun _ => x) (by fun_prop)).trans (mul_le_mul_right ?_ _)
    show _ ≤ S.Q0 (b 0) (x 0) fun x0 => ∑ k ∈ univ.erase (b 0), f fun _ => π (x0 k)
    refine hS.Q0_ker.mono (b 0, x 0) (by fun_prop) (by fun_prop) fun Xs => ?_
    exact single_le_sum (f := fun k => f fun _ => π (Xs k)) (fun _ _ => bot_le) (mem_erase.mpr ⟨hk, mem_univ _⟩)
  | succ n ih =>
    let g : (Fin (n + 1) → V) → ℝ≥0∞ := fun y => ∫⁻ x', f (snocA y x') ∂lam
    have hg : Measurable g := Measurable.lintegral_prod_right' (f := fun p : (Fin (n + 1) → V) × V => f (snocA p.1 p.2)) (by fun_prop)
    let Φ : Hist X N (n + 1) → ℝ≥0∞ := fun h => ∑ k ∈ univ.erase (lastA b), h.all π backward k f
    have hΦ : Measurable Φ := hsel _ hf
    have hK : IsKer fun p : Hist X N n × Fin (N + 1) => p.1.all π backward p.2 := Hist.all_ker hπ backward
    have e1 : ∀ (h : Hist X N n) l, h.all π backward l g = ∫⁻ x', h.all π backward l (fun y => f (snocA y x')) ∂lam := fun h l =>
      hK.lintegral_swap (h, l) lam (f := fun r x' => f (snocA r x')) (by fun_prop)
    have hbm : ∀ (h : Hist X N n) l, Measurable fun x' => h.all π backward l (fun y => f (snocA y x')) := fun h l =>
      (hK.comp (g := fun _ : V => (h, l)) (by fun_prop)).measurable (f := fun x' r => f (snocA r x')) (by fun_prop)
    have hstep : ∀ h : Hist X N n, ∑ l ∈ univ.erase (b (Fin.last n).castSucc), h.all π backward l g ≤
        ∞ * S.R (Fin.last n) (S.init.wLast h) (b (Fin.last n).castSucc) (b (Fin.last (n + 1))) fun a =>
          S.Q (Fin.last n) (take (lastA h.2) a) (b (Fin.last (n + 1))) (x (Fin.last (n + 1))) fun Xs => Φ (h.snoc a Xs) := fun h => by
      have el : ∀ a Xs k, lastA (h.snoc a Xs).2 k = Xs k := fun a Xs k => by simp [Hist.snoc, lastA]
      have ea : ∀ a Xs k, lastA (h.snoc a Xs).1 k = a k := fun a Xs k => by simp [Hist.snoc, lastA]
      simp only [e1]
      cases backward with
      | true =>
        have h1 := hS.reach_bs hN hπ hF (i := b (Fin.last n).castSucc) (j := lastA b) (x (Fin.last (n + 1))) h
          (Ψ := fun x' => ∑ l, h.all π true l (fun y => f (snocA y x'))) (Finset.measurable_fun_sum _ fun l _ => hbm h l)
        have e : ∀ a Xs k, (h.snoc a Xs).all π true k f = ∑ l, h.all π true l (fun y => f (snocA y (π (Xs k)))) := fun a Xs k => by
          show (∑ l, (h.snoc a Xs).init.all π true l fun y => f (snocA y (π (lastA (h.snoc a Xs).2 k)))) = _
          simp only [Hist.init_snoc, el]
        simp only [Φ, e]
        refine le_trans (sum_le_sum_of_subset (erase_subset _ univ)) ?_
        rw [← lintegral_finsetSum univ fun l _ => hbm h l]
        exact h1
      | false =>
        have h1 := hS.reach_scan hπ hF (i := b (Fin.last n).castSucc) (j := lastA b) (x (Fin.last (n + 1))) h
          (fun l hl => hoff rfl _ _ (normalize_isProb _) (normalize_pos _) _ _ l hl) (f := fun l x' => h.all π false l (fun y => f (snocA y x')))
          (hbm h)
        have e : ∀ a Xs k, (h.snoc a Xs).all π false k f = h.all π false (a k) (fun y => f (snocA y (π (Xs k)))) := fun a Xs k => by
          show ((h.snoc a Xs).init.all π false (lastA (h.snoc a Xs).1 k) fun y => f (snocA y (π (lastA (h.snoc a Xs).2 k)))) = _
          simp only [Hist.init_snoc, el, ea]
        simp only [Φ, e]
        exact h1
    have hm2 : Measurable fun h => S.R (Fin.last n) (S.init.wLast h) (b (Fin.last n).castSucc) (b (Fin.last (n + 1))) fun a =>
          S.Q (Fin.last n) (take (lastA h.2) a) (b (Fin.last (n + 1))) (x (Fin.last (n + 1))) fun Xs => Φ (h.snoc a Xs) := by
      have hk := hS.step_ker (Fin.last n) (β := Hist X N n) (w := fun h => S.init.wLast h) (y := fun h => lastA h.2)
        (i := fun _ => b (Fin.last n).castSucc) (j := fun _ => b (Fin.last (n + 1))) (x := fun _ => x (Fin.last (n + 1)))
        hS.init.measurable_wLast (by fun_prop) (by fun_prop) (by fun_prop) (by fun_prop)
      exact hk.measurable (f := fun h r => Φ (h.snoc r.1 r.2)) (hΦ.comp (by fun_prop))
    have h3 := (hS.init.fwd_ker).top_mono (initA b, initA x) (hsel _ hg) hm2 hstep
    have h4 := ih hS.init hF.init (fun hb t => hoff hb t.castSucc) (initA b) (initA x) hg
    rw [lintegral_pi_snoc _ _ hf]
    exact h4.trans ((mul_le_mul_right h3 ∞).trans (top_mul_top_mul _).le)

/-- After the move of the last index. -/
theorem Sys.OK.move_reach {S : Sys X N n} (hS : S.OK) (hN : N ≠ 0) {π : X → V} (hπ : Measurable π) {lam : Measure V} [SigmaFinite lam]
    (hF : S.Free π lam) (backward : Bool)
    (hoff : backward = false → ∀ t w, IsProb w → (∀ i, 0 < w i) → ∀ i j l, l ≠ i → offspring (S.R t) w i j l ≠ 0)
    {move : (Fin (N + 1) → ℝ) → Fin (N + 1) → Ex (Fin (N + 1))} (hm : MoveKer move) {a : ℝ≥0∞} (ha : a ≠ 0) (hmove : MovesAway a move)
    (x : Fin (n + 1) → X) (b : Fin (n + 1) → Fin (N + 1)) {f : (Fin (n + 1) → V) → ℝ≥0∞} (hf : Measurable f)
    {sel : Hist X N n → Fin (N + 1) → Ex (Fin (n + 1) → V)} (hsel : IsKer fun p : Hist X N n × Fin (N + 1) => sel p.1 p.2)
    (hall : ∀ h k, h.all π backward k f ≤ ∞ * sel h k f) :
    ∫⁻ x, f x ∂(Measure.pi fun _ => lam) ≤ ∞ * S.fwd b x fun h => move (S.wLast h) (lastA b) fun k => sel h k f := by
  refine (hS.fwd_reach hN hπ hF backward hoff b x hf).trans ?_
  have hm1 : Measurable fun h : Hist X N n => ∑ k ∈ univ.erase (lastA b), h.all π backward k f := Finset.measurable_fun_sum _ fun k _ =>
    ((Hist.all_ker hπ backward).comp (g := fun h : Hist X N n => (h, k)) (by fun_prop)).measurable' hf
  have hm2 : Measurable fun h => move (S.wLast h) (lastA b) fun k => sel h k f := by
    refine (hm.comp (g := fun h : Hist X N n => (S.wLast h, lastA b)) (hS.measurable_wLast.prodMk measurable_const)).measurable
      (f := fun h k => sel h k f) ?_
    exact hsel.measurable' hf
  have h1 := (hS.fwd_ker).top_mono (b, x) hm1 hm2 fun h => by
    have h2 := hmove _ (normalize_isProb (S.lwLast h)) (normalize_pos _) (lastA b) fun k => sel h k f
    refine le_trans ?_ (mul_le_mul_right h2 ∞)
    rw [← mul_assoc, ENNReal.top_mul ha, mul_sum]
    refine sum_le_sum fun l _ => (hall h l).trans (le_top_mul_iff.mpr fun h0 => ?_)
    rw [(mul_eq_zero.mp h0).resolve_left (ENNReal.ofReal_pos.mpr (normalize_pos _ l)).ne', mul_zero]
  exact (mul_le_mul_right h1 ∞).trans (top_mul_top_mul _).le

/-- The kernel of an abstract conditional particle system reaches every set of positive measure. -/
theorem Sys.OK.kernel_reach {S : Sys X N n} (hS : S.OK) (hN : N ≠ 0) {lam : Measure X} [SigmaFinite lam] (hF : S.Free id lam)
    {Γ : Fin n → X → X → ℝ} (hΓ : ∀ t, Measurable fun p : X × X => Γ t p.1 p.2) (backward : Bool)
    (hoff : backward = false → ∀ t w, IsProb w → (∀ i, 0 < w i) → ∀ i j l, l ≠ i → offspring (S.R t) w i j l ≠ 0)
    {move : (Fin (N + 1) → ℝ) → Fin (N + 1) → Ex (Fin (N + 1))} (hm : MoveKer move) {a : ℝ≥0∞} (ha : a ≠ 0) (hmove : MovesAway a move)
    (x : Fin (n + 1) → X) (b : Fin (n + 1) → Fin (N + 1)) {f : (Fin (n + 1) → X) → ℝ≥0∞} (hf : Measurable f) :
    ∫⁻ x, f x ∂(Measure.pi fun _ => lam) ≤ ∞ * S.kernel Γ move backward x b fun r => f r.1 := by
  refine (hS.move_reach hN measurable_id hF backward hoff hm ha hmove x b hf (sel := S.sel Γ backward) (hS.sel_ker hΓ backward) fun h k => ?_).trans
    (mul_le_mul_right (le_of_eq ?_) _)
  · cases backward with
    | true => exact S.bs_all Γ h k f
    | false => exact (Hist.all_scan id h k f).le.trans (le_top_mul_iff.mpr fun h => h)
  · cases backward <;> rfl

/-- The same for models with memory two. -/
theorem Sys.OK.kernel2_reach {S : Sys (V × V) N n} (hS : S.OK) (hN : N ≠ 0) {lam : Measure V} [SigmaFinite lam] (hF : S.Free Prod.snd lam)
    {Γ : Fin n → V × V → V → ℝ} (hΓ : ∀ t, Measurable fun p : (V × V) × V => Γ t p.1 p.2) (backward : Bool)
    (hoff : backward = false → ∀ t w, IsProb w → (∀ i, 0 < w i) → ∀ i j l, l ≠ i → offspring (S.R t) w i j l ≠ 0)
    {move : (Fin (N + 1) → ℝ) → Fin (N + 1) → Ex (Fin (N + 1))} (hm : MoveKer move) {a : ℝ≥0∞} (ha : a ≠ 0) (hmove : MovesAway a move)
    (c : V) (x : Fin (n + 1) → V) (b : Fin (n + 1) → Fin (N + 1)) {f : (Fin (n + 1) → V) → ℝ≥0∞} (hf : Measurable f) :
    ∫⁻ x, f x ∂(Measure.pi fun _ => lam) ≤ ∞ * S.kernel2 c Γ move backward x b fun r => f r.1 := by
  have hb : IsKer fun p : Hist (V × V) N n × Fin (N + 1) => S.bs2 Γ (fun _ => 0) p.1 p.2 :=
    (hS.sysMeas.bs2_ker (Θ := Unit) (Γ := fun _ => Γ) (fun t => (hΓ t).comp (by fun_prop)) (τ := fun _ _ => 0) (by fun_prop)).comp
      (g := fun p : Hist (V × V) N n × Fin (N + 1) => ((), p.1, p.2)) (by fun_prop)
  have ht : ∀ k, Measurable fun h : Hist (V × V) N n => h.tracex k := fun k => by fun_prop
  let sel : Hist (V × V) N n → Fin (N + 1) → Ex (Fin (n + 1) → V) := fun h k =>
    if backward then S.bs2 Γ (fun _ => 0) h k >>= fun r => pure r.1 else pure fun t => (h.tracex k t).2
  have hsel : IsKer fun p : Hist (V × V) N n × Fin (N + 1) => sel p.1 p.2 := by
    cases backward with
    | true => exact hb.bind (IsKer.pure (g := fun p : (Hist (V × V) N n × Fin (N + 1)) × ((Fin (n + 1) → V) × (Fin (n + 1) → Fin (N + 1))) => p.2.1) (by fun_prop))
    | false =>
      refine IsKer.pure (g := fun (p : Hist (V × V) N n × Fin (N + 1)) t => (p.1.tracex p.2 t).2) ?_
      fun_prop
  refine (hS.move_reach hN measurable_snd hF backward hoff hm ha hmove (lift2 c x) b hf hsel fun h k => ?_).trans
    (mul_le_mul_right (le_of_eq ?_) _)
  · cases backward with
    | true => exact S.bs2_all Γ _ h k f
    | false => exact (Hist.all_scan Prod.snd h k f).le.trans (le_top_mul_iff.mpr fun h => h)
  · cases backward <;> rfl

end Verif
