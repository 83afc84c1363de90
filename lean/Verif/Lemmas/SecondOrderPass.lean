import Verif.Lemmas.SecondOrderNoise
import Verif.Model.AlCsmcS

/-!
# The passes of `al_csmc_s.py` and `atp_csmc_s.py` as passes of a system with memory two
-/

open scoped ENNReal
open MeasureTheory ProbabilityTheory

namespace Verif
open Verif.Spec Verif.Model

/-- A reversed scan, unrolled from the entry it treats first. -/
theorem scanRevM_snoc {m : Type → Type} [Monad m] [LawfulMonad m] {C I O : Type} {n : ℕ} (body : C → I → m (C × O))
    (c : C) (inp : Fin (n + 1) → I) :
    scanRevM body c inp = (do
      let r ← body c (lastA inp)
      let rs ← scanRevM body r.1 (initA inp)
      pure (rs.1, snocA rs.2 r.2)) := by
  have h1 : tailA (rev inp) = rev (initA inp) := by
    funext t
    simp only [tailA_apply, rev_apply, initA_apply, Fin.rev_succ]
  have h0 : rev inp 0 = lastA inp := by simp [lastA]
  unfold scanRevM
  rw [scanM_succ, h0, h1]
  simp only [bind_assoc, pure_bind, rev_insert0]

/-- A scan whose carry is transported along a map. -/
theorem scanM_simulate {m : Type → Type} [Monad m] [LawfulMonad m] {C C' I I' O : Type} {n : ℕ} (body : C → I → m (C × O))
    (body' : C' → I' → m (C' × O)) (φ : C → C') (inp : Fin n → I) (inp' : Fin n → I')
    (h : ∀ t c, body' (φ c) (inp' t) = body c (inp t) >>= fun r => pure (φ r.1, r.2)) (c : C) :
    scanM body' (φ c) inp' = scanM body c inp >>= fun r => pure (φ r.1, r.2) := by
  induction n generalizing c with
  | zero =>
    rw [scanM_zero, scanM_zero, pure_bind]
  | succ n ih =>
    rw [scanM_succ, scanM_succ, h 0]
    simp only [bind_assoc, pure_bind]
    congr 1
    funext r
    rw [ih (tailA inp) (tailA inp') (fun t c => h t.succ c)]
    simp only [bind_assoc, pure_bind]

section det
variable {V : Type} {N : ℕ}

/-- The history of a run whose particles are `xs`, and remember their parents. -/
structure Hist.Pairs {n : ℕ} (c : V) (xs : Fin (n + 1) → PA V N) (h : Hist (V × V) N n) : Prop where
  zero : ∀ i, h.2 0 i = (c, xs 0 i)
  succ : ∀ t i, h.2 t.succ i = (xs t.castSucc (h.1 t i), xs t.succ i)

theorem Hist.Pairs.snd {n : ℕ} {c : V} {xs : Fin (n + 1) → PA V N} {h : Hist (V × V) N n} (hh : h.Pairs c xs)
    (t : Fin (n + 1)) (i : Fin (N + 1)) : (h.2 t i).2 = xs t i := by
  refine Fin.cases ?_ (fun t => ?_) t
  · rw [hh.zero]
  · rw [hh.succ]

theorem Hist.Pairs.snoc {n : ℕ} {c : V} {xs : Fin (n + 2) → PA V N} {h : Hist (V × V) N n} (hh : h.Pairs c (initA xs))
    (a : Anc N) :
    (h.snoc a (fun i => ((take (lastA h.2) a i).2, lastA xs i))).Pairs c xs where
  zero i := by
    have := hh.zero i
    have e : (h.snoc a (fun i => ((take (lastA h.2) a i).2, lastA xs i))).2 0 = h.2 0 := 
      snocA_castSucc h.2 (fun i => ((take (lastA h.2) a i).2, lastA xs i)) 0
    rw [e, this]
    rfl
  succ t i := by
    refine Fin.lastCases ?_ (fun s => ?_) t
    · have e : (h.snoc a (fun i => ((take (lastA h.2) a i).2, lastA xs i))).2 (Fin.last n).succ =
          fun i => ((take (lastA h.2) a i).2, lastA xs i) := by
        rw [Fin.succ_last]; exact snocA_last _ _
      have e1 : (h.snoc a (fun i => ((take (lastA h.2) a i).2, lastA xs i))).1 (Fin.last n) = a := snocA_last _ _
      rw [e, e1]
      have := hh.snd (Fin.last n) (a i)
      simp only [take_apply]
      refine Prod.ext ?_ ?_
      · exact this
      · rfl
    · have e : (h.snoc a (fun i => ((take (lastA h.2) a i).2, lastA xs i))).2 s.castSucc.succ = h.2 s.succ := by
        rw [← Fin.castSucc_succ]; exact snocA_castSucc _ _ _
      have e1 : (h.snoc a (fun i => ((take (lastA h.2) a i).2, lastA xs i))).1 s.castSucc = h.1 s := snocA_castSucc _ _ _
      rw [e, e1, hh.succ]
      rfl

/-- If all particles are deterministic, the forward pass only produces histories with these particles. -/
theorem Sys.fwd_det2 {n : ℕ} (S : Sys (V × V) N n) (b : Fin (n + 1) → Fin (N + 1)) (z : Fin (n + 1) → V × V) (c : V)
    (xs : Fin (n + 1) → PA V N) (hQ0 : S.Q0 (b 0) (z 0) = pure (fun i => (c, xs 0 i)))
    (hQ : ∀ t Y, S.Q t Y (b t.succ) (z t.succ) = pure (fun i => ((Y i).2, xs t.succ i)))
    {f g : Hist (V × V) N n → ℝ≥0∞}
    (hfg : ∀ h : Hist (V × V) N n, h.Pairs c xs → f h = g h) : S.fwd b z f = S.fwd b z g := by
  induction n with
  | zero =>
    show S.Q0 (b 0) (z 0) _ = S.Q0 (b 0) (z 0) _
    rw [hQ0]
    exact hfg _ ⟨fun i => rfl, fun t => t.elim0⟩
  | succ n ih =>
    show S.init.fwd (initA b) (initA z) (fun k => S.R (Fin.last n) (S.init.wLast k) _ _ (fun a =>
        S.Q (Fin.last n) (take (lastA k.2) a) (b (Fin.last (n + 1))) (z (Fin.last (n + 1)))
          (fun Xs => f (k.snoc a Xs)))) =
      S.init.fwd (initA b) (initA z) (fun k => S.R (Fin.last n) (S.init.wLast k) _ _ (fun a =>
        S.Q (Fin.last n) (take (lastA k.2) a) (b (Fin.last (n + 1))) (z (Fin.last (n + 1)))
          (fun Xs => g (k.snoc a Xs))))
    refine ih S.init (initA b) (initA z) (initA xs) hQ0 (fun t Y => hQ t.castSucc Y) fun h hh => ?_
    refine Ex.congr_fun' _ fun a => ?_
    have := hQ (Fin.last n) (take (lastA h.2) a)
    rw [Fin.succ_last] at this
    rw [this]
    exact hfg _ (hh.snoc a)

theorem Hist.Pairs.trace_eq {n : ℕ} (h : Hist (V × V) N n) (k : Fin (N + 1)) :
    (Hist.trace (h.1, fun t i => (h.2 t i).2) k : Fin (n + 1) → Fin (N + 1)) = h.trace k := by
  induction n generalizing k with
  | zero => rfl
  | succ n ih =>
    show snocA (Hist.trace (Hist.init (h.1, fun t i => (h.2 t i).2)) (lastA h.1 k)) k =
      snocA (h.init.trace (lastA h.1 k)) k
    rw [← ih h.init]
    rfl

end det

section backward
variable {V : Type} {N : ℕ}

/-- The backward sampling kernel does not see additive constants of the transition log-densities. -/
theorem Sys.bs2_congr_const {n : ℕ} (S : Sys (V × V) N n) {Γ Γ' : Fin n → V × V → V → ℝ} {τ τ' : V → ℝ}
    (h : ∀ t, ∃ c, ∀ y x, Γ t y x = Γ' t y x + c) (hτ : ∃ c, ∀ y, τ y = τ' y + c) (k : Hist (V × V) N n)
    (i : Fin (N + 1)) : S.bs2 Γ τ k i = S.bs2 Γ' τ' k i := by
  induction n generalizing i τ τ' with
  | zero => rfl
  | succ n ih =>
    obtain ⟨c, hc⟩ := h (Fin.last n)
    obtain ⟨c', hc'⟩ := hτ
    have e1 : normalizeW (fun j => S.init.lwLast k.init j + Γ (Fin.last n) (lastA k.init.2 j) (lastA k.2 i).2 +
          τ (lastA k.init.2 j).2) =
        normalizeW (fun j => S.init.lwLast k.init j + Γ' (Fin.last n) (lastA k.init.2 j) (lastA k.2 i).2 +
          τ' (lastA k.init.2 j).2) := by
      refine normalize_congr_const ⟨c + c', fun j => ?_⟩
      rw [hc, hc']; ring
    have e2 := fun j => ih S.init (Γ := initA Γ) (Γ' := initA Γ')
      (τ := fun y => Γ (Fin.last n) (y, (lastA k.init.2 j).2) (lastA k.2 i).2)
      (τ' := fun y => Γ' (Fin.last n) (y, (lastA k.init.2 j).2) (lastA k.2 i).2)
      (fun t => h t.castSucc) ⟨c, fun y => hc _ _⟩ k.init j
    show (choice [] (normalizeW (fun j => S.init.lwLast k.init j + Γ (Fin.last n) (lastA k.init.2 j) (lastA k.2 i).2 +
          τ (lastA k.init.2 j).2)) >>= fun j => S.init.bs2 (initA Γ) _ k.init j >>= _) =
      (choice [] (normalizeW (fun j => S.init.lwLast k.init j +
        Γ' (Fin.last n) (lastA k.init.2 j) (lastA k.2 i).2 + τ' (lastA k.init.2 j).2)) >>= fun j =>
          S.init.bs2 (initA Γ') _ k.init j >>= _)
    rw [e1]
    simp only [e2]

/-- One step of backward sampling at time `t + 1`, given the values of times `t + 2` and `t + 3`. -/
noncomputable def bs2Body {n : ℕ} (Γ : Fin (n + 2) → V × V → V → ℝ) (h : Fin (n + 1) → PA (V × V) N)
    (lw : Fin (n + 1) → Fin (N + 1) → ℝ) (c : V × V) (t : Fin n) : Ex ((V × V) × (V × Fin (N + 1))) := do
  let i ← choice [] (normalizeW (fun i => Γ t.succ.succ ((h t.succ i).2, c.1) c.2 +
    Γ t.succ.castSucc (h t.succ i) c.1 + lw t.succ i))
  pure (((h t.succ i).2, c.1), ((h t.succ i).2, i))

/-- Backward sampling below the last two chosen values, as the code writes it: a reversed scan for the times
`n, …, 1`, and time `0` by hand. -/
theorem bs2_scan {n : ℕ} (S : Sys (V × V) N (n + 1)) (Γ : Fin (n + 2) → V × V → V → ℝ) (h : Hist (V × V) N (n + 1))
    (lw : Fin (n + 2) → Fin (N + 1) → ℝ) (hl : SameWeights lw (S.lws h)) (k : Fin (N + 1)) (xp2 : V) :
    S.bs2 (initA Γ) (fun y => lastA Γ (y, (lastA h.2 k).2) xp2) h k = (do
      let r ← scanRevM (bs2Body Γ (initA h.2) (initA lw)) ((lastA h.2 k).2, xp2) (fun t => t)
      let xo := snocA (snocA (fun t => (r.2 t).1) (lastA h.2 k).2) xp2
      let B0 ← (choice [] (normalizeW (fun i => Γ 0 (h.2 0 i) (xo 0) + Γ 1 ((h.2 0 i).2, xo 0) (xo 1) + lw 0 i)) : Ex _)
      pure (insert0 (h.2 0 B0).2 (initA xo), insert0 B0 (snocA (fun t => (r.2 t).2) k))) := by
  induction n generalizing k xp2 with
  | zero =>
    have e1 : normalizeW (fun i => S.init.lwLast h.init i + initA Γ (Fin.last 0) (lastA h.init.2 i) (lastA h.2 k).2 +
        lastA Γ ((lastA h.init.2 i).2, (lastA h.2 k).2) xp2) =
        normalizeW (fun i => Γ 0 (h.2 0 i) (lastA h.2 k).2 + Γ 1 ((h.2 0 i).2, (lastA h.2 k).2) xp2 + lw 0 i) := by
      obtain ⟨c, hc⟩ := hl 0
      refine normalize_congr_const ⟨-c, fun i => ?_⟩
      have h0 : lw 0 i = S.init.lwLast h.init i + c := by
        rw [hc i, S.lws_zero]; rfl
      rw [h0]
      have a1 : lastA h.init.2 = h.2 0 := rfl
      have a2 : initA Γ (Fin.last 0) = Γ 0 := rfl
      have a3 : lastA Γ = Γ 1 := rfl
      rw [a1, a2, a3]
      ring
    show (choice [] (normalizeW (fun i => S.init.lwLast h.init i +
        initA Γ (Fin.last 0) (lastA h.init.2 i) (lastA h.2 k).2 +
        lastA Γ ((lastA h.init.2 i).2, (lastA h.2 k).2) xp2)) >>= fun i =>
          (pure (snocA (fun _ => (h.2 0 i).2) (lastA h.2 k).2, snocA (fun _ => i) k) : Ex _)) = _
    rw [e1]
    show _ = (choice [] (normalizeW (fun i => Γ 0 (h.2 0 i) (lastA h.2 k).2 +
      Γ 1 ((h.2 0 i).2, (lastA h.2 k).2) xp2 + lw 0 i)) >>= fun i => _)
    congr 1
    funext i
    congr 1
    refine Prod.ext ?_ ?_
    · funext t
      refine Fin.cases rfl (fun t => ?_) t
      rw [Fin.fin_one_eq_zero t]
      rfl
    · funext t
      refine Fin.cases rfl (fun t => ?_) t
      rw [Fin.fin_one_eq_zero t]
      rfl
  | succ n ih =>
    have hl' : SameWeights (initA lw) (S.init.lws h.init) := by
      rw [← S.lws_init]
      exact fun t => hl t.castSucc
    have e1 : normalizeW (fun i => S.init.lwLast h.init i + initA Γ (Fin.last (n + 1)) (lastA h.init.2 i) (lastA h.2 k).2 +
        lastA Γ ((lastA h.init.2 i).2, (lastA h.2 k).2) xp2) =
        normalizeW (fun i => Γ (Fin.last n).succ.succ ((initA h.2 (Fin.last n).succ i).2, (lastA h.2 k).2) xp2 +
    Γ (Fin.last n).succ.castSucc (initA h.2 (Fin.last n).succ i) (lastA h.2 k).2 + initA lw (Fin.last n).succ i) := by
      obtain ⟨c, hc⟩ := hl' (Fin.last (n + 1))
      refine normalize_congr_const ⟨-c, fun i => ?_⟩
      have h3 := S.init.lws_last h.init
      have h4 : initA lw (Fin.last n).succ i = S.init.lwLast h.init i + c := by
        rw [← h3]
        exact hc i
      rw [h4]
      have a1 : lastA h.init.2 = initA h.2 (Fin.last n).succ := rfl
      have a2 : initA Γ (Fin.last (n + 1)) = Γ (Fin.last n).succ.castSucc := rfl
      have a3 : lastA Γ = Γ (Fin.last n).succ.succ := rfl
      rw [a1, a2, a3]
      ring
    have hih : ∀ i, _ := fun i => ih S.init (initA Γ) h.init (initA lw) hl' i (lastA h.2 k).2
    have hbody : (fun c t => bs2Body Γ (initA h.2) (initA lw) c (Fin.castSucc t)) =
        bs2Body (initA Γ) (initA h.init.2) (initA (initA lw)) := by
      funext c t
      rfl
    have hscan : ∀ c, scanRevM (bs2Body Γ (initA h.2) (initA lw)) c (initA fun t : Fin (n + 1) => t) =
        scanRevM (bs2Body (initA Γ) (initA h.init.2) (initA (initA lw))) c (fun t : Fin n => t) := by
      intro c
      unfold scanRevM
      congr 1
      have := scanM_simulate (m := Ex) (bs2Body (initA Γ) (initA h.init.2) (initA (initA lw)))
        (bs2Body Γ (initA h.2) (initA lw)) (fun c => c) (rev fun t : Fin n => t)
        (rev (initA fun t : Fin (n + 1) => t)) (fun t c => by
          rw [← hbody]
          exact (bind_pure _).symm) c
      rw [this]
      exact bind_pure _
    rw [scanRevM_snoc]
    simp only [bind_assoc, pure_bind, hscan]
    show (choice [] (normalizeW (fun i => S.init.lwLast h.init i +
        initA Γ (Fin.last (n + 1)) (lastA h.init.2 i) (lastA h.2 k).2 +
        lastA Γ ((lastA h.init.2 i).2, (lastA h.2 k).2) xp2)) >>= fun i =>
          S.init.bs2 (initA (initA Γ)) (fun y => initA Γ (Fin.last (n + 1)) (y, (lastA h.init.2 i).2) (lastA h.2 k).2)
            h.init i >>= fun r => (pure (snocA r.1 (lastA h.2 k).2, snocA r.2 k) : Ex _)) = _
    rw [e1]
    show _ = ((choice [] (normalizeW (fun i => Γ (Fin.last n).succ.succ ((initA h.2 (Fin.last n).succ i).2,
      (lastA h.2 k).2) xp2 + Γ (Fin.last n).succ.castSucc (initA h.2 (Fin.last n).succ i) (lastA h.2 k).2 +
        initA lw (Fin.last n).succ i)) >>= fun i => (pure _ : Ex _)) >>= fun r => _)
    rw [bind_assoc]
    congr 1
    funext i
    rw [pure_bind]
    have h5 := hih i
    have a4 : (lastA (initA Γ)) = initA Γ (Fin.last (n + 1)) := rfl
    rw [a4] at h5
    rw [h5]
    simp only [bind_assoc, pure_bind]
    show (scanRevM _ ((lastA h.init.2 i).2, (lastA h.2 k).2) _ >>= fun r => _) =
      (scanRevM _ ((lastA h.init.2 i).2, (lastA h.2 k).2) _ >>= fun r => _)
    congr 1
    funext r
    have hA : ∀ (X : Fin n → V × Fin (N + 1)) (q : V × Fin (N + 1)), (fun t => ((snocA X q) t).1) =
        snocA (fun t => (X t).1) q.1 := by
      intro X q
      funext t
      refine Fin.lastCases ?_ (fun s => ?_) t
      · simp only [snocA_last]
      · simp only [snocA_castSucc]
    have hB : ∀ (X : Fin n → V × Fin (N + 1)) (q : V × Fin (N + 1)), (fun t => ((snocA X q) t).2) =
        snocA (fun t => (X t).2) q.2 := by
      intro X q
      funext t
      refine Fin.lastCases ?_ (fun s => ?_) t
      · simp only [snocA_last]
      · simp only [snocA_castSucc]
    rw [hA, hB]
    set xo := snocA (snocA (fun t => (r.2 t).1) (lastA h.init.2 i).2) (lastA h.2 k).2 with hxo
    have b1 : (snocA (snocA (snocA (fun t => (r.2 t).1) (initA h.2 (Fin.last n).succ i).2) (lastA h.2 k).2) xp2) =
      snocA xo xp2 := rfl
    have b2 : (snocA xo xp2) 0 = xo 0 := snocA_castSucc _ _ 0
    have b3 : (snocA xo xp2) 1 = xo 1 := snocA_castSucc _ _ 1
    simp only [initA_snocA]
    congr 1
    funext B0
    congr 1
    refine Prod.ext ?_ ?_
    · rw [← insert0_snocA]
      have : snocA (initA xo) (lastA h.2 k).2 = xo := by
        rw [hxo, initA_snocA]
      rw [this]
      rfl
    · exact (insert0_snocA _ _ _).symm

end backward

section code
variable {N n d : ℕ}

/-- The transition log-densities that the backward sampling pass of the code works with. -/
def alsΓ {P0 P P1 : Type} (Gamma_tilde_t : Vec d → Vec d → Vec d → P → P → ℝ) (Gamma_params_t : Fin (n + 1) → P)
    (Gamma_tilde_1 : Vec d → Vec d → P0 → P1 → ℝ) (Gamma_params_1 : P0 × P1) :
    Fin (n + 1) → Vec d × Vec d → Vec d → ℝ :=
  insert0 (fun y x => Gamma_tilde_1 y.2 x Gamma_params_1.1 Gamma_params_1.2)
    (fun t y x => Gamma_tilde_t y.1 y.2 x (Gamma_params_t t.castSucc) (Gamma_params_t t.succ))

/-- The backward sampling pass of the code, given the values of the parents, is the one of the system. -/
theorem als_bs_eq {P0 P P1 : Type} (key : Key) (Gamma_tilde_t : Vec d → Vec d → Vec d → P → P → ℝ)
    (Gamma_params_t : Fin (n + 2) → P) (Gamma_tilde_1 : Vec d → Vec d → P0 → P1 → ℝ) (Gamma_params_1 : P0 × P1)
    (b : Fin (N + 1)) (log_ws : Fin (n + 3) → Fin (N + 1) → ℝ) (mv : AncestorMove Ex N)
    (S : Sys (Vec d × Vec d) N (n + 2)) (h : Hist (Vec d × Vec d) N (n + 2)) (hl : SameWeights log_ws (S.lws h)) :
    als_backward_sampling_pass key Gamma_tilde_t Gamma_params_t Gamma_tilde_1 Gamma_params_1 b
      (fun t i => (h.2 t i).2) (fun t i => (h.2 t.succ i).1) log_ws mv = (do
      let k ← moveIndex mv (lastA (splitKey key (n + 3))) (S.wLast h) b
      S.bs2 (alsΓ Gamma_tilde_t Gamma_params_t Gamma_tilde_1 Gamma_params_1) (fun _ => 0) h k) := by
  set Γ := alsΓ Gamma_tilde_t Gamma_params_t Gamma_tilde_1 Gamma_params_1 with hΓ
  have hw : normalizeW (lastA log_ws) = S.wLast h := by
    obtain ⟨c, hc⟩ := hl (Fin.last (n + 2))
    refine normalize_congr_const ⟨c, fun i => ?_⟩
    rw [← S.lws_last h]
    exact hc i
  have hl' : SameWeights (initA log_ws) (S.init.lws h.init) := by
    rw [← S.lws_init]
    exact fun t => hl t.castSucc
  have e1 : ∀ k, normalizeW (fun i => Gamma_tilde_t (h.2 (Fin.last (n + 1)).castSucc i).1
        (h.2 (Fin.last (n + 1)).castSucc i).2 (lastA h.2 k).2 (last2A Gamma_params_t) (lastA Gamma_params_t) +
          last2A log_ws i) =
      normalizeW (fun i => S.init.lwLast h.init i + Γ (Fin.last (n + 1)) (lastA h.init.2 i) (lastA h.2 k).2 + 0) := by
    intro k
    obtain ⟨c, hc⟩ := hl' (Fin.last (n + 1))
    refine normalize_congr_const ⟨c, fun i => ?_⟩
    have h4 : last2A log_ws i = S.init.lwLast h.init i + c := by
      rw [← S.init.lws_last h.init]
      exact hc i
    rw [h4]
    have h5 : Γ (Fin.last (n + 1)) (lastA h.init.2 i) (lastA h.2 k).2 =
        Gamma_tilde_t (h.2 (Fin.last (n + 1)).castSucc i).1 (h.2 (Fin.last (n + 1)).castSucc i).2 (lastA h.2 k).2
          (last2A Gamma_params_t) (lastA Gamma_params_t) := rfl
    rw [h5]
    ring
  funext f
  show mv (lastA (splitKey key (n + 3))) (normalizeW (lastA log_ws)) b (fun r => _) =
    mv (lastA (splitKey key (n + 3))) (S.wLast h) b (fun r => _)
  rw [hw]
  refine Ex.congr_fun' _ fun r => ?_
  set k := r.1 with hk
  show (choice [] (normalizeW (fun i => Gamma_tilde_t (h.2 (Fin.last (n + 1)).castSucc i).1
        (h.2 (Fin.last (n + 1)).castSucc i).2 (lastA h.2 k).2 (last2A Gamma_params_t) (lastA Gamma_params_t) +
          last2A log_ws i)) : Ex _) (fun j => _) =
    (choice [] (normalizeW (fun i => S.init.lwLast h.init i + Γ (Fin.last (n + 1)) (lastA h.init.2 i) (lastA h.2 k).2 + 0)) : Ex _)
      (fun j => _)
  rw [e1 k]
  refine Ex.congr_fun' _ fun j => ?_
  have hb := bs2_scan S.init Γ h.init (initA log_ws) hl' j (lastA h.2 k).2
  have hb' := congrArg (fun P : Ex _ => (P >>= fun r => pure (snocA r.1 (lastA h.2 k).2, snocA r.2 k)) f) hb
  refine Eq.trans ?_ hb'.symm
  have hscan := scanM_simulate (m := Ex) (bs2Body (N := N) Γ (initA h.init.2) (initA (initA log_ws)))
        (alsBsBody Gamma_tilde_t) (fun c => c) (rev fun t : Fin n => t)
        (rev fun t : Fin n => ({ key := tailA (initA (initA (splitKey key (n + 3)))) t
                                 xs_t_m_1 := initA (initA fun t i => (h.2 t.succ i).1) t
                                 xs_t := tailA (initA (initA fun t i => (h.2 t i).2)) t
                                 log_w_t := tailA (initA (initA log_ws)) t
                                 params_t := initA (initA Gamma_params_t) t
                                 params_t_p_1 := tailA (initA Gamma_params_t) t
                                 params_t_p_2 := tailA (tailA Gamma_params_t) t } : AlsBsInp P N d))
        (fun t c => rfl) ((h.2 (Fin.last (n + 1)).castSucc j).2, (lastA h.2 k).2)
  refine Eq.trans (b := ((scanRevM (alsBsBody Gamma_tilde_t) ((h.2 (Fin.last (n + 1)).castSucc j).2, (lastA h.2 k).2)
    (fun t : Fin n => ({ key := tailA (initA (initA (splitKey key (n + 3)))) t
                         xs_t_m_1 := initA (initA fun t i => (h.2 t.succ i).1) t
                         xs_t := tailA (initA (initA fun t i => (h.2 t i).2)) t
                         log_w_t := tailA (initA (initA log_ws)) t
                         params_t := initA (initA Gamma_params_t) t
                         params_t_p_1 := tailA (initA Gamma_params_t) t
                         params_t_p_2 := tailA (tailA Gamma_params_t) t } : AlsBsInp P N d)) : Ex _) >>= fun r =>
        choice [] (normalizeW (fun i =>
          Gamma_tilde_1 (h.2 0 i).2 (snocA (snocA (fun t => (r.2 t).1) (h.2 (Fin.last (n + 1)).castSucc j).2)
            (lastA h.2 k).2 0) Gamma_params_1.1 Gamma_params_1.2 +
          Gamma_tilde_t (h.2 0 i).2 (snocA (snocA (fun t => (r.2 t).1) (h.2 (Fin.last (n + 1)).castSucc j).2)
            (lastA h.2 k).2 0) (snocA (snocA (fun t => (r.2 t).1) (h.2 (Fin.last (n + 1)).castSucc j).2)
            (lastA h.2 k).2 1) (Gamma_params_t 0) (Gamma_params_t 1) + log_ws 0 i)) >>= fun B_0 =>
        (pure (insert0 (h.2 0 B_0).2 (snocA (snocA (fun t => (r.2 t).1) (h.2 (Fin.last (n + 1)).castSucc j).2)
            (lastA h.2 k).2), insert0 B_0 (snocA (snocA (fun t => (r.2 t).2) j) k)) : Ex _)) f) rfl ?_
  unfold scanRevM
  rw [hscan]
  simp only [bind_assoc, pure_bind]
  refine congrFun (congrArg _ (funext fun r => ?_)) f
  refine congrArg _ (funext fun B0 => ?_)
  refine congrArg _ (Prod.ext ?_ ?_)
  · rw [← insert0_snocA, initA_snocA]
    rfl
  · exact insert0_snocA _ _ _

end code

end Verif
