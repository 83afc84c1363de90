import Verif.Lemmas.AlsThree

/-!
# `al_csmc_s.kernel` with backward sampling: a lower bound on the probability of one execution
-/

open scoped ENNReal
open MeasureTheory ProbabilityTheory Finset

namespace Verif
open Verif.Spec Verif.Model

/-- The outcome `a` has probability at least `c`. -/
def Hits {α : Type} (c : ℝ≥0∞) (P : Ex α) (a : α) : Prop := ∀ F : α → ℝ≥0∞, c * F a ≤ P F

section
variable {α β C I O : Type}

theorem hits_pure (a : α) : Hits 1 (pure a : Ex α) a := fun F => (one_mul (F a)).le

theorem Hits.bind {c c' : ℝ≥0∞} {P : Ex α} {a : α} {Q : α → Ex β} {b : β} (h : Hits c P a) (h' : Hits c' (Q a) b) :
    Hits (c * c') (P >>= Q) b := fun F => by
  rw [mul_assoc]
  exact (mul_le_mul_right (h' F) c).trans (h fun a => Q a F)

theorem Hits.map {c : ℝ≥0∞} {P : Ex α} {a : α} (h : Hits c P a) (g : α → β) : Hits c (P >>= fun a => pure (g a)) (g a) := by
  have := h.bind (Q := fun a => (pure (g a) : Ex β)) (hits_pure (g a))
  rwa [mul_one] at this

theorem hits_scanM {n : ℕ} {body : C → I → Ex (C × O)} {inp : Fin n → I} {carry : Fin (n + 1) → C} {out : Fin n → O}
    {c : Fin n → ℝ≥0∞} (h : ∀ t, Hits (c t) (body (carry t.castSucc) (inp t)) (carry t.succ, out t)) :
    Hits (∏ t, c t) (scanM body (carry 0) inp) (carry (Fin.last n), out) := by
  induction n with
  | zero =>
    have : out = Fin.elim0 := funext fun i => i.elim0
    rw [this]
    exact hits_pure _
  | succ n ih =>
    rw [Fin.prod_univ_succ, scanM_succ]
    refine (h 0).bind ?_
    have h2 := (ih (inp := tailA inp) (carry := tailA carry) (out := tailA out) fun t => h t.succ).map fun rs => (rs.1, insert0 (out 0) rs.2)
    rwa [insert0_tailA] at h2

theorem hits_scanRevM {n : ℕ} {body : C → I → Ex (C × O)} {inp : Fin n → I} {carry : Fin (n + 1) → C} {out : Fin n → O}
    {c : Fin n → ℝ≥0∞} (h : ∀ t, Hits (c t) (body (carry t.succ) (inp t)) (carry t.castSucc, out t)) :
    Hits (∏ t, c t) (scanRevM body (carry (Fin.last n)) inp) (carry 0, out) := by
  have h1 := hits_scanM (body := body) (inp := rev inp) (carry := rev carry) (out := rev out) (c := rev c) fun t => by
    have := h t.rev
    simp only [rev_apply, Fin.rev_castSucc, Fin.rev_succ]
    exact this
  have h2 := h1.map fun r => (r.1, rev r.2)
  have e : ∏ t, rev c t = ∏ t, c t := Fintype.prod_equiv Fin.revPerm _ _ fun t => rfl
  rw [e] at h2
  simpa [scanRevM] using h2

end

variable {N n d : ℕ} {G : Type}

theorem GivesToHeavy.hits {R : (Fin (N + 1) → ℝ) → Fin (N + 1) → Fin (N + 1) → Ex (Fin (N + 1) → Fin (N + 1))} (hR : CondResampling R)
    (h : GivesToHeavy R) : ∃ c : ℝ≥0∞, c ≠ 0 ∧ ∀ lw : Fin (N + 1) → ℝ, ∀ i j k, 3 / 4 ≤ normalizeW lw k →
      Hits c (R (normalizeW lw) i j) (Function.update (fun _ => k) j i) := by
  obtain ⟨c, hc, h0⟩ := h
  exact ⟨c, hc, fun lw i j k hk F => hR.ker.ge_single (_, _, _) _ (h0 _ (normalize_isProb _) (normalize_pos _) i j k hk) F⟩

theorem choice_hits (key : Key) {lw : Fin (N + 1) → ℝ} {k : Fin (N + 1)} (hk : 3 / 4 ≤ normalizeW lw k) :
    Hits (ENNReal.ofReal (3 / 4)) (choice key (normalizeW lw) : Ex _) k := fun F => choice_ge key (normalize_isProb _) hk F

section fwd
variable (Gamma0 : Vec d → ℝ) (Gamma0_grad : Vec d → Vec d) (Gammat : Vec d → Vec d → G → ℝ)
  (Gammat_grad0 Gammat_grad1 : Vec d → Vec d → G → Vec d) (Gparams : Fin (n + 2) → G) (ells deltas : Fin (n + 3) → ℝ)
  (u : Fin (n + 3) → Vec d) (xs : Fin (n + 3) → Fin (N + 1) → Vec d) (k : Fin (N + 1))

/-- Parents at time zero when all but the frozen particle descend from particle `k`. -/
def longA (k : Fin (N + 1)) : Fin (N + 1) → Fin (N + 1) := Function.update (fun _ => k) 0 0

/-- Log-weights at time zero. -/
noncomputable def longW0 (i : Fin (N + 1)) : ℝ := alsG0Tilde Gamma0 Gamma0_grad (xs 0 i) (deltas 0) (ells 0) (u 0)

/-- Log-weights at time one. -/
noncomputable def longW1 (i : Fin (N + 1)) : ℝ :=
  alsG1Tilde Gamma0_grad Gammat Gammat_grad0 Gammat_grad1 (xs 0 (longA k i)) (xs 1 i) (alsParams1 deltas ells u Gparams).1
    (alsParams1 deltas ells u Gparams).2

/-- Log-weights at time `t + 2`, when all particles descend from the reference. -/
noncomputable def longW2 (t : Fin (n + 1)) (i : Fin (N + 1)) : ℝ :=
  alsGtTilde Gammat Gammat_grad0 Gammat_grad1 (xs t.castSucc.castSucc 0) (xs t.castSucc.succ 0) (xs t.succ.succ i)
    (alsParams deltas ells u Gparams t.castSucc) (alsParams deltas ells u Gparams t.succ)

/-- The result of the forward pass. -/
noncomputable def longFwd : AlsFwd N n d where
  xs := xs
  log_ws := insert0 (fun i => longW0 Gamma0 Gamma0_grad ells deltas u xs i - maxA fun i => longW0 Gamma0 Gamma0_grad ells deltas u xs i)
    (insert0 (longW1 Gamma0_grad Gammat Gammat_grad0 Gammat_grad1 Gparams ells deltas u xs k) fun t i =>
      longW2 Gammat Gammat_grad0 Gammat_grad1 Gparams ells deltas u xs t i -
        maxA fun i => longW2 Gammat Gammat_grad0 Gammat_grad1 Gparams ells deltas u xs t i)
  As := insert0 (longA k) fun _ _ => 0
  xs_m_1 := insert0 (fun _ => xs 0 0) fun t _ => xs t.castSucc.succ 0

theorem als_forward_hits (key : Key) {resampling : Resampling Ex N} (hR : ∀ key, CondResampling fun w i j => resampling key w i j true)
    (hG : ∀ key, GivesToHeavy fun w i j => resampling key w i j true) :
    ∃ c : ℝ≥0∞, c ≠ 0 ∧ ∀ u xs,
      3 / 4 ≤ normalizeW (longW0 Gamma0 Gamma0_grad ells deltas u xs) k →
      3 / 4 ≤ normalizeW (longW1 Gamma0_grad Gammat Gammat_grad0 Gammat_grad1 Gparams ells deltas u xs k) 0 →
      (∀ t, 3 / 4 ≤ normalizeW (longW2 Gammat Gammat_grad0 Gammat_grad1 Gparams ells deltas u xs t) 0) →
      Hits c (alsForward key (fun _ => 0) Gamma0 Gamma0_grad Gammat Gammat_grad0 Gammat_grad1 Gparams ells deltas resampling u xs)
        (longFwd Gamma0 Gamma0_grad Gammat Gammat_grad0 Gammat_grad1 Gparams ells deltas u xs k) := by
  choose c hc h using fun key => GivesToHeavy.hits (hR key) (hG key)
  refine ⟨c (keysResampling key (n + 2) 0) * ∏ t : Fin (n + 1), c (tailA (keysResampling key (n + 2)) t),
    mul_ne_zero (hc _) (prod_ne_zero_iff.mpr fun t _ => hc _), fun u xs h0 h1 h2 => ?_⟩
  unfold alsForward
  refine Hits.bind (a := longA k) (h _ _ 0 0 k ?_) ?_
  · rw [normalizeW_sub_const]
    exact h0
  have e0 : Function.update (fun _ : Fin (N + 1) => (0 : Fin (N + 1))) 0 0 = fun _ => 0 := Function.update_eq_self _ _
  set w1 := normalizeW (longW1 Gamma0_grad Gammat Gammat_grad0 Gammat_grad1 Gparams ells deltas u xs k) with hw1
  let carry : Fin (n + 2) → AlsCarry N d := insert0 ⟨w1, xs 1, take (xs 0) (longA k)⟩ fun t =>
    ⟨normalizeW fun i => longW2 Gammat Gammat_grad0 Gammat_grad1 Gparams ells deltas u xs t i -
        maxA fun i => longW2 Gammat Gammat_grad0 Gammat_grad1 Gparams ells deltas u xs t i, xs t.succ.succ, fun _ => xs t.castSucc.succ 0⟩
  have hw : ∀ t : Fin (n + 1), (∃ lw, (carry t.castSucc).w = normalizeW lw ∧ 3 / 4 ≤ normalizeW lw 0) ∧
      (carry t.castSucc).x1 = xs t.castSucc.succ ∧ (carry t.castSucc).x2 0 = xs t.castSucc.castSucc 0 := fun t => by
    refine Fin.cases ?_ (fun s => ?_) t
    · exact ⟨⟨_, rfl, h1⟩, rfl, rfl⟩
    · refine ⟨⟨_, rfl, ?_⟩, rfl, rfl⟩
      rw [normalizeW_sub_const]
      exact h2 _
  have hs := hits_scanM (body := alsBody Gammat Gammat_grad0 Gammat_grad1 resampling)
    (inp := alsInputs key (alsParams deltas ells u Gparams) xs fun _ => 0) (carry := carry)
    (out := fun t => (fun i => longW2 Gammat Gammat_grad0 Gammat_grad1 Gparams ells deltas u xs t i -
        maxA fun i => longW2 Gammat Gammat_grad0 Gammat_grad1 Gparams ells deltas u xs t i, fun _ => 0, fun _ => xs t.castSucc.succ 0))
    (c := fun t => c (tailA (keysResampling key (n + 2)) t)) fun t => by
      obtain ⟨⟨lw, e1, e2⟩, e3, e4⟩ := hw t
      unfold alsBody
      have h3 := h (tailA (keysResampling key (n + 2)) t) lw 0 0 0 e2
      rw [e0, ← e1] at h3
      have h4 := h3.map fun A_t => 
        let x_t_m_2 := take (carry t.castSucc).x2 A_t
        let x_t_m_1 := take (carry t.castSucc).x1 A_t
        let log_w_t : Fin (N + 1) → ℝ := fun i =>
          alsGtTilde Gammat Gammat_grad0 Gammat_grad1 (x_t_m_2 i) (x_t_m_1 i) (xs t.succ.succ i) (alsParams deltas ells u Gparams t.castSucc)
            (alsParams deltas ells u Gparams t.succ)
        let max_w := maxA log_w_t
        let log_w_t : Fin (N + 1) → ℝ := fun i => log_w_t i - max_w
        let w_t := normalizeW log_w_t
        ((⟨w_t, xs t.succ.succ, x_t_m_1⟩, (log_w_t, A_t, x_t_m_1)) : AlsCarry N d × _)
      simp only [take, e3, e4] at h4
      simp only [take, e3]
      exact h4
  exact hs.map fun r => _

end fwd

section bwd
variable {P0 P P1 : Type}

/-- The indices: particle `k` at times zero and one, then the reference. -/
def longIdx (k : Fin (N + 1)) : Fin (n + 4) → Fin (N + 1) := insert0 k (insert0 k fun _ => 0)

/-- The new trajectory. -/
def longNew (xs : Fin (n + 4) → Fin (N + 1) → Vec d) (k : Fin (N + 1)) : Fin (n + 4) → Vec d := fun t => xs t (longIdx k t)

theorem als_backward_hits (key : Key) (k : Fin (N + 1)) {mv : AncestorMove Ex N}
    (hm : ∀ key, MoveKer (moveIndex mv key)) (hH : ∀ key, KeepsHeavy (moveIndex mv key)) :
    ∃ c : ℝ≥0∞, c ≠ 0 ∧ ∀ (Gt : Vec d → Vec d → Vec d → P → P → ℝ) (Gp : Fin (n + 3) → P) (G1 : Vec d → Vec d → P0 → P1 → ℝ)
      (Gp1 : P0 × P1) (xs : Fin (n + 4) → Fin (N + 1) → Vec d) (xs_m_1 : Fin (n + 3) → Fin (N + 1) → Vec d)
      (log_ws : Fin (n + 4) → Fin (N + 1) → ℝ),
      3 / 4 ≤ normalizeW (log_ws (Fin.last (n + 3))) 0 →
      3 / 4 ≤ normalizeW (fun i => Gt (xs_m_1 (Fin.last (n + 1)).castSucc i) (xs (Fin.last (n + 2)).castSucc i) (xs (Fin.last (n + 3)) 0)
        (Gp (Fin.last (n + 1)).castSucc) (Gp (Fin.last (n + 2))) + log_ws (Fin.last (n + 2)).castSucc i) 0 →
      (∀ t : Fin (n + 1), 3 / 4 ≤ normalizeW (fun i => Gt (xs t.succ.castSucc.castSucc i) (xs t.succ.succ.castSucc 0)
          (xs t.succ.succ.succ 0) (Gp t.succ.castSucc) (Gp t.succ.succ) +
        Gt (xs_m_1 t.castSucc.castSucc i) (xs t.succ.castSucc.castSucc i) (xs t.succ.succ.castSucc 0) (Gp t.castSucc.castSucc)
          (Gp t.succ.castSucc) + log_ws t.succ.castSucc.castSucc i) (longIdx k t.succ.castSucc.castSucc)) →
      3 / 4 ≤ normalizeW (fun i => G1 (xs 0 i) (xs 1 k) Gp1.1 Gp1.2 + Gt (xs 0 i) (xs 1 k) (xs 2 0) (Gp 0) (Gp 1) + log_ws 0 i) k →
      Hits c (als_backward_sampling_pass key Gt Gp G1 Gp1 0 xs xs_m_1 log_ws mv) (longNew xs k, longIdx k) := by
  obtain ⟨c2, hc2, h2⟩ := hH (lastA (splitKey key (n + 4)))
  have hq : ENNReal.ofReal (3 / 4) ≠ 0 := by positivity
  refine ⟨c2 * (ENNReal.ofReal (3 / 4) * ((∏ _t : Fin (n + 1), ENNReal.ofReal (3 / 4)) * ENNReal.ofReal (3 / 4))),
    mul_ne_zero hc2 (mul_ne_zero hq (mul_ne_zero (prod_ne_zero_iff.mpr fun _ _ => hq) hq)),
    fun Gt Gp G1 Gp1 xs xs_m_1 log_ws g2 g1 g g0 => ?_⟩
  have e : als_backward_sampling_pass key Gt Gp G1 Gp1 0 xs xs_m_1 log_ws mv =
      (moveIndex mv (lastA (splitKey key (n + 4))) (normalizeW (lastA log_ws)) 0 >>= fun B_T => do
        let x_T := lastA xs B_T
        let B_T_m_1 ← choice (last2A (splitKey key (n + 4))) (normalizeW (fun i =>
          Gt (last2A xs_m_1 i) (last2A xs i) x_T (last2A Gp) (lastA Gp) + last2A log_ws i))
        let x_T_m_1 := last2A xs B_T_m_1
        let inps : Fin (n + 1) → AlsBsInp P N d := fun t =>
          { key := tailA (initA (initA (splitKey key (n + 4)))) t
            xs_t_m_1 := initA (initA xs_m_1) t
            xs_t := tailA (initA (initA xs)) t
            log_w_t := tailA (initA (initA log_ws)) t
            params_t := initA (initA Gp) t
            params_t_p_1 := tailA (initA Gp) t
            params_t_p_2 := tailA (tailA Gp) t }
        let r ← scanRevM (alsBsBody Gt) (x_T_m_1, x_T) inps
        let xs_out := snocA (snocA (fun t => (r.2 t).1) x_T_m_1) x_T
        let Bs := snocA (snocA (fun t => (r.2 t).2) B_T_m_1) B_T
        let B_0 ← choice (splitKey key (n + 4) 0) (normalizeW (fun i => G1 (xs 0 i) (xs_out 0) Gp1.1 Gp1.2 +
          Gt (xs 0 i) (xs_out 0) (xs_out 1) (Gp 0) (Gp 1) + log_ws 0 i))
        pure (insert0 (xs 0 B_0) xs_out, insert0 B_0 Bs) : Ex _) := rfl
  rw [e]
  refine Hits.bind (a := (0 : Fin (N + 1))) (fun F => (hm _).ge_single (_, _) 0 (h2 _ (normalize_isProb _) (normalize_pos _) 0 g2) F) ?_
  refine Hits.bind (a := (0 : Fin (N + 1))) (choice_hits _ g1) ?_
  have hi : ∀ t : Fin (n + 2), longIdx (n := n) k t.succ.succ = 0 := fun t => rfl
  have hs := hits_scanRevM (body := alsBsBody (m := Ex) (N := N) Gt) (inp := fun t : Fin (n + 1) => (
          { key := tailA (initA (initA (splitKey key (n + 4)))) t
            xs_t_m_1 := initA (initA xs_m_1) t
            xs_t := tailA (initA (initA xs)) t
            log_w_t := tailA (initA (initA log_ws)) t
            params_t := initA (initA Gp) t
            params_t_p_1 := tailA (initA Gp) t
            params_t_p_2 := tailA (tailA Gp) t } : AlsBsInp P N d))
    (carry := fun s : Fin (n + 2) => (longNew xs k s.castSucc.succ, longNew xs k s.succ.succ))
    (out := fun t => (longNew xs k t.succ.castSucc.castSucc, longIdx k t.succ.castSucc.castSucc))
    (c := fun _ => ENNReal.ofReal (3 / 4)) fun t => by
      have h4 := (choice_hits (tailA (initA (initA (splitKey key (n + 4)))) t) (g t)).map fun B_t =>
        ((xs t.succ.castSucc.castSucc B_t, longNew xs k t.succ.castSucc.succ), (xs t.succ.castSucc.castSucc B_t, B_t))
      exact h4
  refine Hits.bind hs ?_
  have hx : snocA (snocA (fun t : Fin (n + 1) => longNew xs k t.succ.castSucc.castSucc) (last2A xs 0)) (lastA xs 0) = tailA (longNew xs k) := by
    funext t
    refine Fin.lastCases ?_ (fun t => Fin.lastCases ?_ (fun t => ?_) t) t
    · rw [snocA_last]; rfl
    · rw [snocA_castSucc, snocA_last]; rfl
    · rw [snocA_castSucc, snocA_castSucc]; rfl
  have hb : snocA (snocA (fun t : Fin (n + 1) => longIdx (N := N) k t.succ.castSucc.castSucc) 0) 0 = tailA (longIdx k) := by
    funext t
    refine Fin.lastCases ?_ (fun t => Fin.lastCases ?_ (fun t => ?_) t) t
    · rw [snocA_last]; rfl
    · rw [snocA_castSucc, snocA_last]; rfl
    · rw [snocA_castSucc, snocA_castSucc]; rfl
  simp only [hx, hb]
  have h5 := (choice_hits (splitKey key (n + 4) 0) g0).map fun B_0 => (insert0 (xs 0 B_0) (tailA (longNew xs k)), insert0 B_0 (tailA (longIdx (n := n) k)))
  have e1 : insert0 (xs 0 k) (tailA (longNew (n := n) xs k)) = longNew xs k := insert0_tailA (longNew (n := n) xs k)
  have e2 : insert0 k (tailA (longIdx (n := n) k)) = longIdx k := insert0_tailA (longIdx (n := n) k)
  rw [e1, e2] at h5
  exact h5

end bwd

end Verif
