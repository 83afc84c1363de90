import Verif.Lemmas.ManyLoss
import Verif.Lemmas.Contract
import Verif.Props.Ergodic

/-!
# With many particles one step of conditional SMC is nearly an independent draw from the target (C92)
-/

open scoped ENNReal
open MeasureTheory Finset

namespace Verif.Props
open Verif Verif.Model Verif.Spec Matrix

variable {N n d : ℕ} {resampling last_step : String} {R : Resampling Ex N} {mv : AncestorMove Ex N}

/-- **C92** (resampling): with either scheme, a particle has on average at most `N + 1` times its weight as children besides the
reference's, and pairs of children are no more likely to share a parent than independent draws. -/
theorem C92_resampling (hR : sel_resampling resampling = .ok R) (key : Key) :
    FewOffspring (fun w i j => R key w i j true) ∧ PairsSpread (fun w i j => R key w i j true) := by
  unfold sel_resampling at hR
  split_ifs at hR with h1 h2 <;> cases hR
  · exact ⟨killing_few key, killing_pairs key⟩
  · exact ⟨multinomial_few key, multinomial_pairs key⟩

theorem sel_spread_bounds (hR : sel_resampling resampling = .ok R) {backward : Bool} (hb : resampling = "multinomial" ∨ backward = false) :
    spreadOf N resampling backward ≤ N ∧ N ≤ spreadOf N resampling backward + 1 := by
  unfold sel_resampling at hR
  unfold spreadOf
  split_ifs at hR with h1 h2
  · subst h1
    have hb' : backward = false := hb.resolve_left (by decide)
    subst hb'
    simp only [String.reduceEq, if_false, Bool.false_eq_true]
    exact ⟨by exact_mod_cast Nat.sub_le N 1, by exact_mod_cast (by omega : N ≤ N - 1 + 1)⟩
  · subst h2
    simp only [if_true]
    exact ⟨le_rfl, le_self_add⟩

section general
variable {X P G : Type} [MeasurableSpace X] (lam : Measure X) [SigmaFinite lam] {M : FK Ex X P G N} (hM : ProperFK lam M)
  {Mparams : Fin n → P} {Gparams : Fin n → G} {B : Fin (n + 1) → ℝ} (hB : BoundedFK lam M Mparams Gparams B)
  (hZ : ∫⁻ x, ENNReal.ofReal (Real.exp (pathLogDensity M.Gamma0 (fun t y x => M.Gammat y x (Gparams t)) x)) ∂(Measure.pi fun _ => lam) ≠ 0 ∧
    ∫⁻ x, ENNReal.ofReal (Real.exp (pathLogDensity M.Gamma0 (fun t y x => M.Gammat y x (Gparams t)) x)) ∂(Measure.pi fun _ => lam) ≠ ∞)
  (hR : sel_resampling resampling = .ok R) (hm : sel_last_step last_step = .ok mv) (backward : Bool)
  (hb : resampling = "multinomial" ∨ backward = false) (hN : 1 ≤ N)
include hM hB hZ hR hb hN

omit hb in
/-- One step with a last move that moves at least as often as the weights say. -/
theorem csmc_many_ge {mv : AncestorMove Ex N} (hk : ∀ key, MoveKer (moveIndex mv key)) (ha : ∀ key, MovesAway 1 (moveIndex mv key)) (key : Key)
    (x : Fin (n + 1) → X) (b : Fin (n + 1) → Fin (N + 1)) {f : (Fin (n + 1) → X) → ℝ≥0∞} (hf : Measurable f) :
    (2 * (N * ((N : ℝ≥0∞) + 1)⁻¹ * (spreadOf N resampling backward * ((N : ℝ≥0∞) + 1)⁻¹) ^ n) - 1) *
        (∫⁻ x, ENNReal.ofReal (Real.exp (pathLogDensity M.Gamma0 (fun t y x => M.Gammat y x (Gparams t)) x)) ∂(Measure.pi fun _ => lam) +
          2 * (n + 1) * ((N : ℝ≥0∞) + 1)⁻¹ * ∏ t, ENNReal.ofReal (Real.exp (B t)))⁻¹ *
      ∫⁻ y, ENNReal.ofReal (Real.exp (pathLogDensity M.Gamma0 (fun t y x => M.Gammat y x (Gparams t)) y)) * f y ∂(Measure.pi fun _ => lam) ≤
      ((csmc_kernel key x b M Mparams Gparams R mv backward true : Ex _) >>= fun r => pure (r.xs, r.Bs)) fun r => f r.1 := by
  have hS := sel_ok hR (last_step := "barker") (mv := fun key w k => barker_move key w k) rfl
  exact csmc_many key hM hN hB hS.cond (fun key => sel_spreads hR backward key) (fun key => (C92_resampling hR key).1)
    (fun key => (C92_resampling hR key).2) hk ha rfl hZ.1 hZ.2 x b hf

theorem csmc_many_tv {mv : AncestorMove Ex N} (hk : ∀ key, MoveKer (moveIndex mv key)) (hmass : ∀ key, MoveMass (moveIndex mv key))
    (ha : ∀ key, MovesAway 1 (moveIndex mv key)) (key : Key) (s : (Fin (n + 1) → X) × (Fin (n + 1) → Fin (N + 1))) :
    let logpi := pathLogDensity M.Gamma0 (fun t y x => M.Gammat y x (Gparams t))
    TVLe (manyErr N n B (∫⁻ x, ENNReal.ofReal (Real.exp (logpi x)) ∂(Measure.pi fun _ => lam)))
      (fun f => ((csmc_kernel key s.1 s.2 M Mparams Gparams R mv backward true : Ex _) >>= fun r => pure (r.xs, r.Bs)) fun r => f r.1)
      fun f => ∫⁻ x, f x ∂lawOf (Measure.pi fun _ => lam) logpi := by
  intro logpi
  have hS := sel_ok hR (last_step := "barker") (mv := fun key w k => barker_move key w k) rfl
  have hmr := (csmc_markov_relabels (N := N) lam key hM Mparams Gparams hS.cond hk backward).1 hmass
  have hl : Measurable logpi := measurable_pathLogDensity hM.Gamma0_meas fun _ => hM.Gammat_meas _
  have hP := lawOf_isProb hZ hl
  obtain ⟨h1, h2⟩ := sel_spread_bounds (N := N) hR hb
  have h := tvLe_of_ge hmr.ker s (hmr.mass s.1 s.2) measurable_fst (π := lawOf (Measure.pi fun _ => lam) logpi) fun f hf => by
    have h3 := csmc_many_ge lam hM hB hZ hR backward hN hk ha key s.1 s.2 hf
    rw [lintegral_lawOf hl hf, ← mul_assoc]
    refine le_trans (le_of_eq ?_) h3
    congr 1
    exact (mul_assoc _ (∫⁻ x, ENNReal.ofReal (Real.exp (logpi x)) ∂(Measure.pi fun _ => lam)) _).trans
      (by rw [ENNReal.mul_inv_cancel hZ.1 hZ.2, mul_one])
  intro f hf hf1
  obtain ⟨h4, h5⟩ := h f hf hf1
  have h6 := many_rate hN h1 h2 (n := n) (B := B) hZ.1 hZ.2
  exact ⟨h4.trans (by gcongr), h5.trans (by gcongr)⟩

include hm

/-- **C92** (one step): with `N + 1` particles, from every trajectory, reference indices and key, one step of `csmc.kernel` draws its
next trajectory from a law within `manyErr`, a constant over `N + 1`, of the target in total variation. -/
theorem C92_one_step (key : Key) (x : Fin (n + 1) → X) (b : Fin (n + 1) → Fin (N + 1)) :
    let logpi := pathLogDensity M.Gamma0 (fun t y x => M.Gammat y x (Gparams t))
    TVLe (manyErr N n B (∫⁻ x, ENNReal.ofReal (Real.exp (logpi x)) ∂(Measure.pi fun _ => lam)) + if last_step = "barker" then 0 else forceErr)
      (fun f => csmc_kernel key x b M Mparams Gparams R mv backward true fun r => f r.xs)
      fun f => ∫⁻ x, f x ∂lawOf (Measure.pi fun _ => lam) logpi := by
  intro logpi
  have hS := sel_ok hR hm
  unfold sel_last_step at hm
  split_ifs at hm with h1 h2 <;> cases hm
  · subst h1
    intro f hf hf1
    obtain ⟨h3, h4⟩ := csmc_many_tv lam hM hB hZ hR backward hb hN (mv := exactMove) (fun _ => liuMove_ker) (fun _ => liu_moveMass)
      (fun _ => liu_movesAway) key (x, b) f hf hf1
    obtain ⟨h5, h6⟩ := csmc_near key hM Mparams Gparams hS.cond forced_near backward x b (fun r => f r.1) (by fun_prop) fun r => hf1 _
    rw [if_neg (by decide)]
    exact ⟨h5.trans ((add_le_add h3 le_rfl).trans (le_of_eq (add_assoc _ _ _))),
      h4.trans ((add_le_add h6 le_rfl).trans (le_of_eq (by rw [add_assoc, add_comm forceErr]; rfl)))⟩
  · subst h2
    rw [if_pos rfl, add_zero]
    exact csmc_many_tv lam hM hB hZ hR backward hb hN (fun key => hS.ker key) (fun key => hS.mass key)
      (fun key => barker_movesAway key) key (x, b)

/-- **C92** (chains): state `i` of a chain is within `manyErr ^ i`, plus `i` times the rounding of `force_move`. -/
theorem C92_chain {T : ℕ} (keys : Fin T → Key) (i : Fin (T + 1)) (s : (Fin (n + 1) → X) × (Fin (n + 1) → Fin (N + 1))) :
    let logpi := pathLogDensity M.Gamma0 (fun t y x => M.Gammat y x (Gparams t))
    TVLe (manyErr N n B (∫⁻ x, ENNReal.ofReal (Real.exp (logpi x)) ∂(Measure.pi fun _ => lam)) ^ (i : ℕ) +
        i * if last_step = "barker" then 0 else forceErr)
      (fun f => chain (fun key s => csmc_kernel key s.1 s.2 M Mparams Gparams R mv backward true >>= fun r => pure (r.xs, r.Bs)) s keys
        fun tr => f (tr i).1)
      fun f => ∫⁻ x, f x ∂lawOf (Measure.pi fun _ => lam) logpi := by
  intro logpi
  have hS := sel_ok hR hm
  have hl : Measurable logpi := measurable_pathLogDensity hM.Gamma0_meas fun _ => hM.Gammat_meas _
  obtain ⟨b1, b2⟩ := sel_spread_bounds (N := N) hR hb
  have h6 := many_rate hN b1 b2 (n := n) (B := B) hZ.1 hZ.2
  have main : ∀ {mv : AncestorMove Ex N} (_ : ∀ key, MoveKer (moveIndex mv key)) (_ : ∀ key, MoveMass (moveIndex mv key))
      (_ : ∀ key, RotMove (moveIndex mv key)) (_ : ∀ key, MovesAway 1 (moveIndex mv key)) (_ : GoodMove mv),
      TVLe (manyErr N n B (∫⁻ x, ENNReal.ofReal (Real.exp (logpi x)) ∂(Measure.pi fun _ => lam)) ^ (i : ℕ))
        (fun f => chain (fun key s => csmc_kernel key s.1 s.2 M Mparams Gparams R mv backward true >>= fun r => pure (r.xs, r.Bs)) s keys
          fun tr => f (tr i).1)
        fun f => ∫⁻ x, f x ∂lawOf (Measure.pi fun _ => lam) logpi := fun {mv} hk hmass hrot ha hgood => by
    have hmr := fun key => csmc_markov_relabels (N := N) lam key hM Mparams Gparams hS.cond hk backward
    have h := indexed_chain_converges (ε := 0) hl hZ
      (step := fun key s => csmc_kernel key s.1 s.2 M Mparams Gparams R mv backward true >>= fun r => pure (r.xs, r.Bs))
      (fun key => (hmr key).1 hmass) (fun key => (hmr key).2 hS.rotR hrot)
      (fun key => (C15_C16_csmc_invariant lam key M hM Mparams Gparams R hS.cond mv hgood backward).near_zero)
      (fun key x b f hf => csmc_many_ge lam hM hB hZ hR backward hN hk ha key x b hf) keys i s
    intro f hf hf1
    obtain ⟨h4, h5⟩ := h f hf hf1
    rw [mul_zero, add_zero] at h4 h5
    exact ⟨h4.trans (by gcongr), h5.trans (by gcongr)⟩
  unfold sel_last_step at hm
  split_ifs at hm with h1 h2 <;> cases hm
  · subst h1
    have h3 := main (mv := exactMove) (fun _ => liuMove_ker) (fun _ => liu_moveMass) (fun _ => liu_rot) (fun _ => liu_movesAway) exactMove_good
    have hmk := fun key => (csmc_markov_relabels (N := N) lam key hM Mparams Gparams hS.cond hS.ker backward).1 hS.mass
    have hmk' := fun key => (csmc_markov_relabels (N := N) (mv := exactMove) lam key hM Mparams Gparams hS.cond (fun _ => liuMove_ker)
      backward).1 fun _ => liu_moveMass
    have h4 := chain_compare (fun key => (hmk key).ker) (fun key => (hmk' key).ker) (fun key s => (hmk key).mass s.1 s.2)
      (fun key s => (hmk' key).mass s.1 s.2) measurable_fst
      (fun key s => csmc_near key hM Mparams Gparams hS.cond forced_near backward s.1 s.2) keys i s
    rw [if_neg (by decide)]
    intro f hf hf1
    obtain ⟨c1, c2⟩ := h3 f hf hf1
    obtain ⟨c3, c4⟩ := h4 f hf hf1
    refine ⟨(c3.trans (add_le_add c1 le_rfl)).trans (le_of_eq (add_assoc _ _ _)), (c2.trans (add_le_add c4 le_rfl)).trans (le_of_eq ?_)⟩
    rw [add_assoc, add_comm ((i : ℕ) * forceErr : ℝ≥0∞)]
  · subst h2
    rw [if_pos rfl, mul_zero, add_zero]
    exact main hS.ker hS.mass hS.rot (fun key => barker_movesAway key) fun key => barker_moveInvariant key

/-- **C92** (`mcmc_utils.sampling_routine` with `csmc.kernel`): sample `k` of a run that keeps every `g`-th state. The second bound
does not grow with `k`. -/
theorem C92_csmc (key : Key) (x : Fin (n + 1) → X) (b : Fin (n + 1) → Fin (N + 1)) (n_samples g : ℕ) (k : Fin (strideLen n_samples g)) :
    let logpi := pathLogDensity M.Gamma0 (fun t y x => M.Gammat y x (Gparams t))
    let E := manyErr N n B (∫⁻ x, ENNReal.ofReal (Real.exp (logpi x)) ∂(Measure.pi fun _ => lam))
    let ε := if last_step = "barker" then 0 else forceErr
    TVLe (min (E ^ (k * g + 1 : ℕ) + (k * g + 1 : ℕ) * ε) (E + ε))
      (fun f => sampling_routine key x b (fun key s => csmc_kernel key s.1 s.2 M Mparams Gparams R mv backward true >>= fun r =>
        pure (r.xs, r.Bs)) n_samples g fun r => f (r.1 k))
      fun f => ∫⁻ x, f x ∂lawOf (Measure.pi fun _ => lam) logpi := by
  intro logpi E ε f hf hf1
  have hS := sel_ok hR hm
  have hmk := fun key => (csmc_markov_relabels (N := N) lam key hM Mparams Gparams hS.cond hS.ker backward).1 hS.mass
  obtain ⟨h1, h2⟩ := C92_chain lam hM hB hZ hR hm backward hb hN (splitKey key n_samples) ⟨k * g + 1, Nat.succ_lt_succ (strideLen_lt k)⟩
    (x, b) f hf hf1
  obtain ⟨h3, h4⟩ := chain_close (fun key => (hmk key).ker) (fun key s => (hmk key).mass s.1 s.2) measurable_fst
    (fun key s => C92_one_step lam hM hB hZ hR hm backward hb hN key s.1 s.2) (splitKey key n_samples) ⟨k * g, strideLen_lt k⟩ (x, b) f hf hf1
  have e := congrFun (C49_sampling (m := Ex) key x b (fun key s => csmc_kernel key s.1 s.2 M Mparams Gparams R mv backward true >>= fun r =>
    pure (r.xs, r.Bs)) n_samples g) fun r => f (r.1 k)
  have e1 := (le_of_eq e).trans h1
  have e2 := (le_of_eq e).trans h3
  have e3 := h2.trans (le_of_eq (congrArg (· + _) e.symm))
  have e4 := h4.trans (le_of_eq (congrArg (· + _) e.symm))
  rw [min_def]
  split_ifs
  · exact ⟨e1, e3⟩
  · exact ⟨e2, e4⟩

omit hb hm in
theorem csmc_many_any {mv : AncestorMove Ex N} (hk : ∀ key, MoveKer (moveIndex mv key)) (hmass : ∀ key, MoveMass (moveIndex mv key))
    (ha : ∀ key, MovesAway 1 (moveIndex mv key)) (key : Key) (s : (Fin (n + 1) → X) × (Fin (n + 1) → Fin (N + 1))) :
    let logpi := pathLogDensity M.Gamma0 (fun t y x => M.Gammat y x (Gparams t))
    TVLe (manyErrAny N n B (∫⁻ x, ENNReal.ofReal (Real.exp (logpi x)) ∂(Measure.pi fun _ => lam)))
      (fun f => ((csmc_kernel key s.1 s.2 M Mparams Gparams R mv backward true : Ex _) >>= fun r => pure (r.xs, r.Bs)) fun r => f r.1)
      fun f => ∫⁻ x, f x ∂lawOf (Measure.pi fun _ => lam) logpi := by
  intro logpi
  have hS := sel_ok hR (last_step := "barker") (mv := fun key w k => barker_move key w k) rfl
  have hmr := (csmc_markov_relabels (N := N) lam key hM Mparams Gparams hS.cond hk backward).1 hmass
  have hl : Measurable logpi := measurable_pathLogDensity hM.Gamma0_meas fun _ => hM.Gammat_meas _
  have hP := lawOf_isProb hZ hl
  obtain ⟨h1, h2⟩ := sel_spread_bounds (N := N) hR (backward := false) (Or.inr rfl)
  exact tvLe_of_le_add hmr.ker s (hmr.mass s.1 s.2) measurable_fst (π := lawOf (Measure.pi fun _ => lam) logpi) fun f hf hf1 =>
    csmc_many_loss key hM hN hB h1 h2 hS.cond (fun key => sel_spreads hR false key) (fun key => (C92_resampling hR key).1)
      (fun key => (C92_resampling hR key).2) hk ha rfl hZ.1 hZ.2 s.1 s.2 hf hf1

omit hb in
/-- **C92** (one step, all options): the same for every combination of resampling scheme, last move and backward pass, with
the bound `manyErrAny`, at most twice `manyErr`. -/
theorem C92_any_one_step (key : Key) (x : Fin (n + 1) → X) (b : Fin (n + 1) → Fin (N + 1)) :
    let logpi := pathLogDensity M.Gamma0 (fun t y x => M.Gammat y x (Gparams t))
    TVLe (manyErrAny N n B (∫⁻ x, ENNReal.ofReal (Real.exp (logpi x)) ∂(Measure.pi fun _ => lam)) + if last_step = "barker" then 0 else forceErr)
      (fun f => csmc_kernel key x b M Mparams Gparams R mv backward true fun r => f r.xs)
      fun f => ∫⁻ x, f x ∂lawOf (Measure.pi fun _ => lam) logpi := by
  intro logpi
  have hS := sel_ok hR hm
  unfold sel_last_step at hm
  split_ifs at hm with h1 h2 <;> cases hm
  · subst h1
    intro f hf hf1
    obtain ⟨h3, h4⟩ := csmc_many_any lam hM hB hZ hR backward hN (mv := exactMove) (fun _ => liuMove_ker) (fun _ => liu_moveMass)
      (fun _ => liu_movesAway) key (x, b) f hf hf1
    obtain ⟨h5, h6⟩ := csmc_near key hM Mparams Gparams hS.cond forced_near backward x b (fun r => f r.1) (by fun_prop) fun r => hf1 _
    rw [if_neg (by decide)]
    exact ⟨h5.trans ((add_le_add h3 le_rfl).trans (le_of_eq (add_assoc _ _ _))),
      h4.trans ((add_le_add h6 le_rfl).trans (le_of_eq (by rw [add_assoc, add_comm forceErr]; rfl)))⟩
  · subst h2
    rw [if_pos rfl, add_zero]
    exact csmc_many_any lam hM hB hZ hR backward hN (fun key => hS.ker key) (fun key => hS.mass key)
      (fun key => barker_movesAway key) key (x, b)

omit hb in
/-- **C92** (chains, all options): state `i + 1` of a chain is within `E * (2 * E) ^ i` for the bound `E` of one step, plus `i + 1` times
the rounding of `force_move`. -/
theorem C92_any_chain {T : ℕ} (keys : Fin T → Key) (i : Fin T) (s : (Fin (n + 1) → X) × (Fin (n + 1) → Fin (N + 1))) :
    let logpi := pathLogDensity M.Gamma0 (fun t y x => M.Gammat y x (Gparams t))
    let E := manyErrAny N n B (∫⁻ x, ENNReal.ofReal (Real.exp (logpi x)) ∂(Measure.pi fun _ => lam))
    TVLe (E * (2 * E) ^ (i : ℕ) + (i + 1 : ℕ) * if last_step = "barker" then 0 else forceErr)
      (fun f => chain (fun key s => csmc_kernel key s.1 s.2 M Mparams Gparams R mv backward true >>= fun r => pure (r.xs, r.Bs)) s keys
        fun tr => f (tr i.succ).1)
      fun f => ∫⁻ x, f x ∂lawOf (Measure.pi fun _ => lam) logpi := by
  intro logpi E
  have hS := sel_ok hR hm
  have hl : Measurable logpi := measurable_pathLogDensity hM.Gamma0_meas fun _ => hM.Gammat_meas _
  have hE : E ≠ ∞ := manyErrAny_ne_top N n B hZ.1
  have main : ∀ {mv : AncestorMove Ex N} (_ : ∀ key, MoveKer (moveIndex mv key)) (_ : ∀ key, MoveMass (moveIndex mv key))
      (_ : ∀ key, RotMove (moveIndex mv key)) (_ : ∀ key, MovesAway 1 (moveIndex mv key)) (_ : GoodMove mv),
      TVLe (E * (2 * E) ^ (i : ℕ))
        (fun f => chain (fun key s => csmc_kernel key s.1 s.2 M Mparams Gparams R mv backward true >>= fun r => pure (r.xs, r.Bs)) s keys
          fun tr => f (tr i.succ).1)
        fun f => ∫⁻ x, f x ∂lawOf (Measure.pi fun _ => lam) logpi := fun {mv} hk hmass hrot ha hgood => by
    have hmr := fun key => csmc_markov_relabels (N := N) lam key hM Mparams Gparams hS.cond hk backward
    have hrel := fun key => (hmr key).2 hS.rotR hrot
    exact indexed_chain_contracts hl hZ
      (step := fun key s => csmc_kernel key s.1 s.2 M Mparams Gparams R mv backward true >>= fun r => pure (r.xs, r.Bs))
      (fun key => (hmr key).1 hmass) hrel
      (fun key => (hrel key).invariant (C15_C16_csmc_invariant lam key M hM Mparams Gparams R hS.cond mv hgood backward)) hE
      (fun key s => csmc_many_any lam hM hB hZ hR backward hN hk hmass ha key s) keys i s
  unfold sel_last_step at hm
  split_ifs at hm with h1 h2 <;> cases hm
  · subst h1
    have h3 := main (mv := exactMove) (fun _ => liuMove_ker) (fun _ => liu_moveMass) (fun _ => liu_rot) (fun _ => liu_movesAway) exactMove_good
    have hmk := fun key => (csmc_markov_relabels (N := N) lam key hM Mparams Gparams hS.cond hS.ker backward).1 hS.mass
    have hmk' := fun key => (csmc_markov_relabels (N := N) (mv := exactMove) lam key hM Mparams Gparams hS.cond (fun _ => liuMove_ker)
      backward).1 fun _ => liu_moveMass
    have h4 := chain_compare (fun key => (hmk key).ker) (fun key => (hmk' key).ker) (fun key s => (hmk key).mass s.1 s.2)
      (fun key s => (hmk' key).mass s.1 s.2) measurable_fst
      (fun key s => csmc_near key hM Mparams Gparams hS.cond forced_near backward s.1 s.2) keys i.succ s
    rw [if_neg (by decide)]
    intro f hf hf1
    obtain ⟨c1, c2⟩ := h3 f hf hf1
    obtain ⟨c3, c4⟩ := h4 f hf hf1
    rw [Fin.val_succ] at c3 c4
    refine ⟨(c3.trans (add_le_add c1 le_rfl)).trans (le_of_eq (add_assoc _ _ _)), (c2.trans (add_le_add c4 le_rfl)).trans (le_of_eq ?_)⟩
    rw [add_assoc, add_comm (((i : ℕ) + 1 : ℕ) * forceErr : ℝ≥0∞)]
  · subst h2
    rw [if_pos rfl, mul_zero, add_zero]
    exact main hS.ker hS.mass hS.rot (fun key => barker_movesAway key) fun key => barker_moveInvariant key

omit hb in
/-- **C92** (runs, all options): every sample of a run. The second bound does not grow with `k`. -/
theorem C92_any_csmc (key : Key) (x : Fin (n + 1) → X) (b : Fin (n + 1) → Fin (N + 1)) (n_samples g : ℕ) (k : Fin (strideLen n_samples g)) :
    let logpi := pathLogDensity M.Gamma0 (fun t y x => M.Gammat y x (Gparams t))
    let E := manyErrAny N n B (∫⁻ x, ENNReal.ofReal (Real.exp (logpi x)) ∂(Measure.pi fun _ => lam))
    let ε := if last_step = "barker" then 0 else forceErr
    TVLe (min (E * (2 * E) ^ (k * g : ℕ) + (k * g + 1 : ℕ) * ε) (E + ε))
      (fun f => sampling_routine key x b (fun key s => csmc_kernel key s.1 s.2 M Mparams Gparams R mv backward true >>= fun r =>
        pure (r.xs, r.Bs)) n_samples g fun r => f (r.1 k))
      fun f => ∫⁻ x, f x ∂lawOf (Measure.pi fun _ => lam) logpi := by
  intro logpi E ε f hf hf1
  have hS := sel_ok hR hm
  have hmk := fun key => (csmc_markov_relabels (N := N) lam key hM Mparams Gparams hS.cond hS.ker backward).1 hS.mass
  obtain ⟨h1, h2⟩ := C92_any_chain lam hM hB hZ hR hm backward hN (splitKey key n_samples) ⟨k * g, strideLen_lt k⟩ (x, b) f hf hf1
  obtain ⟨h3, h4⟩ := chain_close (fun key => (hmk key).ker) (fun key s => (hmk key).mass s.1 s.2) measurable_fst
    (fun key s => C92_any_one_step lam hM hB hZ hR hm backward hN key s.1 s.2) (splitKey key n_samples) ⟨k * g, strideLen_lt k⟩ (x, b) f hf hf1
  have e := congrFun (C49_sampling (m := Ex) key x b (fun key s => csmc_kernel key s.1 s.2 M Mparams Gparams R mv backward true >>= fun r =>
    pure (r.xs, r.Bs)) n_samples g) fun r => f (r.1 k)
  have e1 := (le_of_eq e).trans h1
  have e2 := (le_of_eq e).trans h3
  have e3 := h2.trans (le_of_eq (congrArg (· + _) e.symm))
  have e4 := h4.trans (le_of_eq (congrArg (· + _) e.symm))
  rw [min_def]
  split_ifs
  · exact ⟨e1, e3⟩
  · exact ⟨e2, e4⟩

end general

/-- **C92** (limit): the bound vanishes as the number of particles grows. -/
theorem C92_limit (n : ℕ) (B : Fin (n + 1) → ℝ) {Z : ℝ≥0∞} (hZ : Z ≠ 0) :
    Filter.Tendsto (fun N => manyErr N n B Z) Filter.atTop (nhds 0) := manyErr_tendsto n B hZ

/-- **C92** (limit, all options). -/
theorem C92_any_limit (n : ℕ) (B : Fin (n + 1) → ℝ) {Z : ℝ≥0∞} (hZ : Z ≠ 0) :
    Filter.Tendsto (fun N => manyErrAny N n B Z) Filter.atTop (nhds 0) ∧ ∀ N, manyErrAny N n B Z ≤ 2 * manyErr N n B Z :=
  ⟨manyErrAny_tendsto n B hZ, fun N => manyErrAny_le_two N n B Z⟩

/-! ## The experiments -/

/-- **C92** (`experiments/lgssm_scaling`, `CSMC`). -/
theorem C92_lgssm {sigma : ℝ} (hs : 0 < sigma) (ys : Traj (n + 1) d) (hR : sel_resampling resampling = .ok R)
    (hm : sel_last_step last_step = .ok mv) (backward : Bool) (hb : resampling = "multinomial" ∨ backward = false) (hN : 1 ≤ N)
    (key : Key) (x : Traj (n + 1) d) (b : Fin (n + 1) → Fin (N + 1)) (n_samples g : ℕ) (k : Fin (strideLen n_samples g)) :
    let E := manyErr N n (fun _ => lgMaxLog d) (∫⁻ x, ENNReal.ofReal (Real.exp (lgTarget sigma ys x)) ∂trajVol (n + 1) d)
    let ε := if last_step = "barker" then 0 else forceErr
    TVLe (min (E ^ (k * g + 1 : ℕ) + (k * g + 1 : ℕ) * ε) (E + ε))
      (fun f => sampling_routine key x b (fun key s => outOf (lg_csmc_kernel ys sigma R mv backward key s.1 s.2)) n_samples g
        fun r => f (r.1 k))
      fun f => ∫⁻ x, f x ∂lawOf (trajVol (n + 1) d) (lgTarget sigma ys) := by
  have e := lgTarget_gamma ys hs
  have hZ := lgTarget_mass hs ys
  rw [← e] at hZ ⊢
  exact C92_csmc volume (C19_lgssm_proper ys hs) (lgFK_bounded ys hs) hZ hR hm backward hb hN key x b n_samples g k

/-- **C92** (`lgssm`, all options, among them the defaults `killing`, backward sampling and `forced`). -/
theorem C92_lgssm_all {sigma : ℝ} (hs : 0 < sigma) (ys : Traj (n + 1) d) (hR : sel_resampling resampling = .ok R)
    (hm : sel_last_step last_step = .ok mv) (backward : Bool) (hN : 1 ≤ N)
    (key : Key) (x : Traj (n + 1) d) (b : Fin (n + 1) → Fin (N + 1)) (n_samples g : ℕ) (k : Fin (strideLen n_samples g)) :
    let E := manyErrAny N n (fun _ => lgMaxLog d) (∫⁻ x, ENNReal.ofReal (Real.exp (lgTarget sigma ys x)) ∂trajVol (n + 1) d)
    let ε := if last_step = "barker" then 0 else forceErr
    TVLe (min (E * (2 * E) ^ (k * g : ℕ) + (k * g + 1 : ℕ) * ε) (E + ε))
      (fun f => sampling_routine key x b (fun key s => outOf (lg_csmc_kernel ys sigma R mv backward key s.1 s.2)) n_samples g
        fun r => f (r.1 k))
      fun f => ∫⁻ x, f x ∂lawOf (trajVol (n + 1) d) (lgTarget sigma ys) := by
  have e := lgTarget_gamma ys hs
  have hZ := lgTarget_mass hs ys
  rw [← e] at hZ ⊢
  exact C92_any_csmc volume (C19_lgssm_proper ys hs) (lgFK_bounded ys hs) hZ hR hm backward hN key x b n_samples g k

/-- **C92** (`lgssm`, any accuracy): with enough particles every sample of every run, from the first, has a law within any `δ` of the
posterior, plus the rounding of `force_move`, whatever the starting trajectory and the options. -/
theorem C92_lgssm_any {sigma : ℝ} (hs : 0 < sigma) (ys : Traj (n + 1) d) {δ : ℝ≥0∞} (hδ : δ ≠ 0) :
    ∃ N0, ∀ N, N0 ≤ N → ∀ (R : Resampling Ex N) (mv : AncestorMove Ex N), sel_resampling resampling = .ok R → sel_last_step last_step = .ok mv →
      ∀ (backward : Bool) (key : Key) (x : Traj (n + 1) d) (b : Fin (n + 1) → Fin (N + 1)) (n_samples g : ℕ)
      (k : Fin (strideLen n_samples g)),
      TVLe (δ + if last_step = "barker" then 0 else forceErr)
        (fun f => sampling_routine key x b (fun key s => outOf (lg_csmc_kernel (m := Ex) ys sigma R mv backward key s.1 s.2)) n_samples g
          fun r => f (r.1 k))
        fun f => ∫⁻ x, f x ∂lawOf (trajVol (n + 1) d) (lgTarget sigma ys) := by
  have hZ := lgTarget_mass (n := n) hs ys
  have h := manyErrAny_tendsto n (fun _ => lgMaxLog d) hZ.1
  obtain ⟨N0, hN0⟩ := Filter.eventually_atTop.mp (ENNReal.tendsto_nhds_zero.mp h δ (pos_iff_ne_zero.mpr hδ))
  refine ⟨max N0 1, fun N hN R mv hR hm backward key x b n_samples g k f hf hf1 => ?_⟩
  obtain ⟨h1, h2⟩ := C92_lgssm_all hs ys hR hm backward (le_of_max_le_right hN) key x b n_samples g k f hf hf1
  have h3 := fun c => (min_le_right c _).trans (add_le_add (hN0 N (le_of_max_le_left hN)) (le_refl (if last_step = "barker" then 0 else forceErr)))
  exact ⟨h1.trans (add_le_add le_rfl (h3 _)), h2.trans (add_le_add le_rfl (h3 _))⟩

section sv
variable {svd : Mat d d → SvdOut d} {tau : ℤ} {style : String} {target_stat : TargetStat} {backward : Bool}
  {make : Traj (n + 1) d → SvKernel Ex (n + 1) d}

/-- The bound for the stochastic volatility experiment. -/
noncomputable def svManyErr (N : ℕ) (tau : ℤ) (ys : Traj (n + 1) d) : ℝ≥0∞ :=
  manyErr N n (fun t => svMaxLog (ys t)) (∫⁻ x, ENNReal.ofReal (Real.exp (svSampled .CSMC tau ys x)) ∂trajVol (n + 1) d)

/-- The same for all options. -/
noncomputable def svManyErrAny (N : ℕ) (tau : ℤ) (ys : Traj (n + 1) d) : ℝ≥0∞ :=
  manyErrAny N n (fun t => svMaxLog (ys t)) (∫⁻ x, ENNReal.ofReal (Real.exp (svSampled .CSMC tau ys x)) ∂trajVol (n + 1) d)

/-- The bound does not depend on the normalisation of the densities. -/
theorem C92_scale (N n : ℕ) (B c : Fin (n + 1) → ℝ) (Z : ℝ≥0∞) :
    manyErr N n (fun t => B t + c t) (ENNReal.ofReal (Real.exp (∑ t, c t)) * Z) = manyErr N n B Z := by
  have e : ∏ t, ENNReal.ofReal (Real.exp (B t + c t)) =
      ENNReal.ofReal (Real.exp (∑ t, c t)) * ∏ t, ENNReal.ofReal (Real.exp (B t)) := by
    rw [Real.exp_sum, ENNReal.ofReal_prod_of_nonneg fun t _ => (Real.exp_pos _).le, ← prod_mul_distrib]
    exact prod_congr rfl fun t _ => by rw [Real.exp_add, mul_comm, ENNReal.ofReal_mul (Real.exp_pos _).le]
  rw [manyErr, manyErr, e, mul_left_comm, ENNReal.mul_div_mul_left _ _ (by simp [Real.exp_pos]) ENNReal.ofReal_ne_top]

/-- The same for the bound for all options. -/
theorem C92_any_scale (N n : ℕ) (B c : Fin (n + 1) → ℝ) (Z : ℝ≥0∞) :
    manyErrAny N n (fun t => B t + c t) (ENNReal.ofReal (Real.exp (∑ t, c t)) * Z) = manyErrAny N n B Z := by
  have e : ∏ t, ENNReal.ofReal (Real.exp (B t + c t)) =
      ENNReal.ofReal (Real.exp (∑ t, c t)) * ∏ t, ENNReal.ofReal (Real.exp (B t)) := by
    rw [Real.exp_sum, ENNReal.ofReal_prod_of_nonneg fun t _ => (Real.exp_pos _).le, ← prod_mul_distrib]
    exact prod_congr rfl fun t _ => by rw [Real.exp_add, mul_comm, ENNReal.ofReal_mul (Real.exp_pos _).le]
  rw [manyErrAny, manyErrAny, e, ENNReal.mul_div_mul_left _ _ (by simp [Real.exp_pos]) ENNReal.ofReal_ne_top]

theorem lawOf_add_const {X : Type} [MeasurableSpace X] {lam : Measure X} {l : X → ℝ} (hl : Measurable l) (c : ℝ) :
    lawOf lam (fun x => l x + c) = lawOf lam l := by
  refine Measure.ext_of_lintegral _ fun f hf => ?_
  have e : ∀ x, ENNReal.ofReal (Real.exp (l x + c)) = ENNReal.ofReal (Real.exp c) * ENNReal.ofReal (Real.exp (l x)) := fun x => by
    rw [Real.exp_add, mul_comm, ENNReal.ofReal_mul (Real.exp_pos _).le]
  have hc : ENNReal.ofReal (Real.exp c) ≠ 0 := by simp [Real.exp_pos]
  rw [lintegral_lawOf (hl.add_const c) hf, lintegral_lawOf hl hf]
  simp only [e, mul_assoc]
  rw [lintegral_const_mul' _ _ ENNReal.ofReal_ne_top, lintegral_const_mul' _ _ ENNReal.ofReal_ne_top,
    ENNReal.mul_inv (Or.inl hc) (Or.inl ENNReal.ofReal_ne_top), mul_mul_mul_comm, ENNReal.inv_mul_cancel hc ENNReal.ofReal_ne_top, one_mul]

/-- The Feynman-Kac model of the experiment has the posterior as its target, up to a constant. -/
theorem sv_many_target (ht : 0 < tau) (ys : Traj (n + 1) d) :
    let C := ENNReal.ofReal (Real.exp (∑ t : Fin (n + 1), svConst (svDynArgs tau d) t))
    let l := pathLogDensity (svFK (m := Ex) (N := N) ys (svDynArgs tau d)).Gamma0
      (fun t y x => (svFK (m := Ex) (N := N) ys (svDynArgs tau d)).Gammat y x (tailA ys t))
    (∫⁻ x, ENNReal.ofReal (Real.exp (l x)) ∂(Measure.pi fun _ => volume) =
      C * ∫⁻ x, ENNReal.ofReal (Real.exp (svSampled .CSMC tau ys x)) ∂trajVol (n + 1) d) ∧
    (∫⁻ x, ENNReal.ofReal (Real.exp (l x)) ∂(Measure.pi fun _ => volume) ≠ 0 ∧
      ∫⁻ x, ENNReal.ofReal (Real.exp (l x)) ∂(Measure.pi fun _ => volume) ≠ ∞) ∧
    lawOf (Measure.pi fun _ => volume) l = svPosterior .CSMC tau ys := by
  intro C l
  have hP := svDynArgs_P0 ht d
  have hQ := svDynArgs_Q ht d
  obtain ⟨hl, hZ⟩ := svSampled_mass .CSMC ht ys
  have e : l = fun x => svSampled .CSMC tau ys x + ∑ t : Fin (n + 1), svConst (svDynArgs tau d) t := funext fun x => svFK_path hP hQ ys x
  have eZ : ∫⁻ x, ENNReal.ofReal (Real.exp (l x)) ∂(Measure.pi fun _ => volume) =
      C * ∫⁻ x, ENNReal.ofReal (Real.exp (svSampled .CSMC tau ys x)) ∂trajVol (n + 1) d := by
    rw [← lintegral_const_mul' _ _ ENNReal.ofReal_ne_top, e]
    exact lintegral_congr fun x => by rw [Real.exp_add, mul_comm, ENNReal.ofReal_mul (Real.exp_pos _).le]
  have hc : C ≠ 0 := by simp [C, Real.exp_pos]
  refine ⟨eZ, ?_, ?_⟩
  · rw [eZ]
    exact ⟨mul_ne_zero hc hZ.1, ENNReal.mul_ne_top ENNReal.ofReal_ne_top hZ.2⟩
  · rw [e]
    exact lawOf_add_const hl _

/-- **C92** (`experiments/stochastic_volatility`, `CSMC`): if no observation is zero, then with any step size (it is unused) and
from every state, the samples are near the posterior. -/
theorem C92_sv (ht : 0 < tau) (hR : sel_resampling resampling = .ok R) (hm : sel_last_step last_step = .ok mv)
    (hb : resampling = "multinomial" ∨ backward = false) (hN : 1 ≤ N)
    (hk : SvType.CSMC.kernel_maker svd (svDynArgs tau d) style target_stat R mv backward = .ok make)
    {ys : Traj (n + 1) d} (hy : ∀ t j, ys t j ≠ 0) (delta : StepSize (n + 1)) (key : Key) (n_steps : ℕ) (k : Fin (strideLen n_steps 1))
    (s : (make ys).S) :
    TVLe (min (svManyErr N tau ys ^ (k + 1 : ℕ) + (k + 1 : ℕ) * svErr .CSMC last_step) (svManyErr N tau ys + svErr .CSMC last_step))
      (fun f => (make ys).experiment_all key s (fun k s => (make ys).kernel k s delta) n_steps fun r => f (r.1 k))
      fun f => ∫⁻ x, f x ∂svPosterior .CSMC tau ys := by
  have hP := svDynArgs_P0 ht d
  have hQ := svDynArgs_Q ht d
  simp only [SvType.kernel_maker, sv_get_csmc_kernel] at hk
  split_ifs at hk
  cases hk
  obtain ⟨eZ, hZ, eL⟩ := sv_many_target (N := N) ht ys
  have h := C92_csmc volume (C19_sv_proper ys hP hQ) (svFK_bounded hy hP hQ) hZ hR hm backward hb hN key s.1 s.2 n_steps 1 k
  have hE : svErr .CSMC last_step = if last_step = "barker" then 0 else forceErr := by simp [svErr]
  simp only [eZ, C92_scale, mul_one] at h
  rw [eL] at h
  rw [hE]
  exact h

/-- **C92** (`experiments/stochastic_volatility`, `CSMC`, all options): if no observation is zero, then with any step size (it is unused) and
from every state, the samples are near the posterior. -/
theorem C92_sv_all (ht : 0 < tau) (hR : sel_resampling resampling = .ok R) (hm : sel_last_step last_step = .ok mv)
    (hN : 1 ≤ N)
    (hk : SvType.CSMC.kernel_maker svd (svDynArgs tau d) style target_stat R mv backward = .ok make)
    {ys : Traj (n + 1) d} (hy : ∀ t j, ys t j ≠ 0) (delta : StepSize (n + 1)) (key : Key) (n_steps : ℕ) (k : Fin (strideLen n_steps 1))
    (s : (make ys).S) :
    TVLe (min (svManyErrAny N tau ys * (2 * svManyErrAny N tau ys) ^ (k : ℕ) + (k + 1 : ℕ) * svErr .CSMC last_step)
        (svManyErrAny N tau ys + svErr .CSMC last_step))
      (fun f => (make ys).experiment_all key s (fun k s => (make ys).kernel k s delta) n_steps fun r => f (r.1 k))
      fun f => ∫⁻ x, f x ∂svPosterior .CSMC tau ys := by
  have hP := svDynArgs_P0 ht d
  have hQ := svDynArgs_Q ht d
  simp only [SvType.kernel_maker, sv_get_csmc_kernel] at hk
  split_ifs at hk
  cases hk
  obtain ⟨eZ, hZ, eL⟩ := sv_many_target (N := N) ht ys
  have h := C92_any_csmc volume (C19_sv_proper ys hP hQ) (svFK_bounded hy hP hQ) hZ hR hm backward hN key s.1 s.2 n_steps 1 k
  have hE : svErr .CSMC last_step = if last_step = "barker" then 0 else forceErr := by simp [svErr]
  simp only [eZ, C92_any_scale, mul_one] at h
  rw [eL] at h
  rw [hE]
  exact h

/-- From single runs to the chains of `one_experiment`. -/
theorem sv_chains_of_runs (ht : 0 < tau) (hR : sel_resampling resampling = .ok R) (hm : sel_last_step last_step = .ok mv)
    (hk : SvType.CSMC.kernel_maker svd (svDynArgs tau d) style target_stat R mv backward = .ok make)
    {ys : Traj (n + 1) d} {delta : StepSize (n + 1)} {E : ℕ → ℝ≥0∞}
    (hA : ∀ (key : Key) (n_steps : ℕ) (k : Fin (strideLen n_steps 1)) (s : (make ys).S), TVLe (E k)
      (fun f => (make ys).experiment_all key s (fun k s => (make ys).kernel k s delta) n_steps fun r => f (r.1 k))
      fun f => ∫⁻ x, f x ∂svPosterior .CSMC tau ys) (s : (make ys).S) (burnin_key sample_key : Key)
    (burnin n_samples : ℕ) {M : ℕ} (i : Fin M) (k : Fin (strideLen n_samples 1)) :
    TVLe (E (burnin + k)) (fun f => sv_chains burnin_key sample_key (make ys) s delta burnin n_samples M fun c => f ((c i).1 k))
      fun f => ∫⁻ x, f x ∂svPosterior .CSMC tau ys := by
  have hch : ∃ Good : (make ys).S → Prop, ChainsOK (make ys) delta Good ∧ ∀ s, Good s := by
    simp only [SvType.kernel_maker, sv_get_csmc_kernel] at hk
    split_ifs at hk
    cases hk
    have hok := sv_csmc_ok ys (sel_ok hR hm) (svDynArgs_P0 ht d) (svDynArgs_Q ht d) backward
    exact ⟨_, csmcSv_chainsOK (fun key => hok.markov key) (fun key => hok.relabels key) hok.free, fun _ => trivial⟩
  obtain ⟨Good, hok, hg⟩ := hch
  obtain ⟨ν, hν, hlaw, hc⟩ := hok.law (hg s) burnin n_samples
  intro f hf hf1
  have hk' : k + burnin < strideLen (n_samples + burnin) 1 := by
    have := k.2
    simp only [strideLen] at this ⊢
    omega
  have e1 : sv_chains burnin_key sample_key (make ys) s delta burnin n_samples M (fun c => f ((c i).1 k)) = ∫⁻ r, f (r.1 k) ∂ν := by
    have h1 := hc M burnin_key sample_key (fun c => f ((c i).1 k)) (by fun_prop)
    refine h1.trans ?_
    have hp := measurePreserving_eval (fun _ : Fin M => ν) i
    exact hp.lintegral_comp (f := fun r : Run (strideLen n_samples 1) (n + 1) d => f (r.1 k)) (by fun_prop)
  have e2 : ∫⁻ r, f (r.1 k) ∂ν = (make ys).experiment_all [] s (fun k s => (make ys).kernel k s delta) (n_samples + burnin)
      fun r => f (r.1 ⟨k + burnin, hk'⟩) := hlaw [] (fun r => f (r.1 k)) (by fun_prop)
  have e3 := hA [] (n_samples + burnin) ⟨k + burnin, hk'⟩ s f hf hf1
  have e4 : burnin + (k : ℕ) = (k : ℕ) + burnin := by omega
  simp only [e1, e2, e4]
  exact e3

/-- **C92** (script): the chains of `one_experiment`, whatever the adaptation returned. -/
theorem C92_sv_chains (ht : 0 < tau) (hR : sel_resampling resampling = .ok R) (hm : sel_last_step last_step = .ok mv)
    (hb : resampling = "multinomial" ∨ backward = false) (hN : 1 ≤ N)
    (hk : SvType.CSMC.kernel_maker svd (svDynArgs tau d) style target_stat R mv backward = .ok make)
    {ys : Traj (n + 1) d} (hy : ∀ t j, ys t j ≠ 0) (delta : StepSize (n + 1)) (s : (make ys).S) (burnin_key sample_key : Key)
    (burnin n_samples : ℕ) {M : ℕ} (i : Fin M) (k : Fin (strideLen n_samples 1)) :
    TVLe (min (svManyErr N tau ys ^ (burnin + k + 1 : ℕ) + (burnin + k + 1 : ℕ) * svErr .CSMC last_step)
        (svManyErr N tau ys + svErr .CSMC last_step))
      (fun f => sv_chains burnin_key sample_key (make ys) s delta burnin n_samples M fun c => f ((c i).1 k))
      fun f => ∫⁻ x, f x ∂svPosterior .CSMC tau ys := by
  have h := sv_chains_of_runs (E := fun k => min (svManyErr N tau ys ^ (k + 1 : ℕ) + (k + 1 : ℕ) * svErr .CSMC last_step)
        (svManyErr N tau ys + svErr .CSMC last_step)) ht hR hm hk (C92_sv ht hR hm hb hN hk hy delta) s burnin_key sample_key burnin n_samples i k
  exact h

/-- **C92** (script, all options). -/
theorem C92_sv_chains_all (ht : 0 < tau) (hR : sel_resampling resampling = .ok R) (hm : sel_last_step last_step = .ok mv)
    (hN : 1 ≤ N)
    (hk : SvType.CSMC.kernel_maker svd (svDynArgs tau d) style target_stat R mv backward = .ok make)
    {ys : Traj (n + 1) d} (hy : ∀ t j, ys t j ≠ 0) (delta : StepSize (n + 1)) (s : (make ys).S) (burnin_key sample_key : Key)
    (burnin n_samples : ℕ) {M : ℕ} (i : Fin M) (k : Fin (strideLen n_samples 1)) :
    TVLe (min (svManyErrAny N tau ys * (2 * svManyErrAny N tau ys) ^ (burnin + k : ℕ) + (burnin + k + 1 : ℕ) * svErr .CSMC last_step)
        (svManyErrAny N tau ys + svErr .CSMC last_step))
      (fun f => sv_chains burnin_key sample_key (make ys) s delta burnin n_samples M fun c => f ((c i).1 k))
      fun f => ∫⁻ x, f x ∂svPosterior .CSMC tau ys := by
  have h := sv_chains_of_runs (E := fun k => min (svManyErrAny N tau ys * (2 * svManyErrAny N tau ys) ^ k +
    (k + 1 : ℕ) * svErr .CSMC last_step) (svManyErrAny N tau ys + svErr .CSMC last_step)) ht hR hm hk
    (C92_sv_all ht hR hm hN hk hy delta) s burnin_key sample_key burnin n_samples i k
  exact h

/-- **C92** (stochastic volatility, any accuracy): with enough particles all samples of all chains, from the first, have laws within
any `δ` of the posterior, plus the rounding of `force_move`, whatever the options. -/
theorem C92_sv_any (ht : 0 < tau) {ys : Traj (n + 1) d} (hy : ∀ t j, ys t j ≠ 0) {δ : ℝ≥0∞} (hδ : δ ≠ 0) :
    ∃ N0, ∀ N, N0 ≤ N → ∀ (R : Resampling Ex N) (mv : AncestorMove Ex N), sel_resampling resampling = .ok R → sel_last_step last_step = .ok mv →
      ∀ make : Traj (n + 1) d → SvKernel Ex (n + 1) d,
      SvType.CSMC.kernel_maker (N := N) svd (svDynArgs tau d) style target_stat R mv backward = .ok make →
      ∀ (delta : StepSize (n + 1)) (s : (make ys).S) (burnin_key sample_key : Key) (burnin n_samples M : ℕ) (i : Fin M)
        (k : Fin (strideLen n_samples 1)),
      TVLe (δ + svErr .CSMC last_step)
        (fun f => sv_chains burnin_key sample_key (make ys) s delta burnin n_samples M fun c => f ((c i).1 k))
        fun f => ∫⁻ x, f x ∂svPosterior .CSMC tau ys := by
  have hZ := (svSampled_mass .CSMC ht ys).2
  have h := manyErrAny_tendsto n (fun t => svMaxLog (ys t)) hZ.1
  obtain ⟨N0, hN0⟩ := Filter.eventually_atTop.mp (ENNReal.tendsto_nhds_zero.mp h δ (pos_iff_ne_zero.mpr hδ))
  refine ⟨max N0 1, fun N hN R mv hR hm make hk delta s bk sk burnin n_samples M i k f hf hf1 => ?_⟩
  obtain ⟨h1, h2⟩ := C92_sv_chains_all ht hR hm (le_of_max_le_right hN) hk hy delta s bk sk burnin n_samples i k f hf hf1
  have h3 := fun c => (min_le_right c _).trans (add_le_add (hN0 N (le_of_max_le_left hN)) (le_refl (svErr .CSMC last_step)))
  exact ⟨h1.trans (add_le_add le_rfl (h3 _)), h2.trans (add_le_add le_rfl (h3 _))⟩

end sv

/-! ## Examples -/

/-- `lgssm` with multinomial resampling, backward sampling and `force_move`: with a million particles the bound is finite and the
first sample of a run started anywhere is near the posterior. -/
example (ys x : Traj 5 2) : TVLe (manyErr 999999 4 (fun _ => lgMaxLog 2)
      (∫⁻ x, ENNReal.ofReal (Real.exp (lgTarget 1 ys x)) ∂trajVol 5 2) + forceErr)
    (fun f => sampling_routine [7] x (fun _ => 0) (fun key s => outOf (lg_csmc_kernel (m := Ex) (N := 999999) ys 1
      (fun key w i j c => multinomial key w i j c) (fun key w k => force_move key w k) true key s.1 s.2)) 10 1 fun r => f (r.1 ⟨0, by decide⟩))
    fun f => ∫⁻ x, f x ∂lawOf (trajVol 5 2) (lgTarget 1 ys) := by
  intro f hf hf1
  obtain ⟨h1, h2⟩ := C92_lgssm (N := 999999) (resampling := "multinomial") (last_step := "forced") one_pos ys rfl rfl true (Or.inl rfl)
    (by norm_num) [7] x (fun _ => 0) 10 1 ⟨0, by decide⟩ f hf hf1
  rw [if_neg (by decide)] at h1 h2
  exact ⟨h1.trans (add_le_add le_rfl (min_le_right _ _)), h2.trans (add_le_add le_rfl (min_le_right _ _))⟩

/-- The defaults of the script: `killing`, backward sampling and `force_move`, with 32 particles and 25 time steps. -/
example (ys x : Traj 25 10) :
    let E := manyErrAny 31 24 (fun _ => lgMaxLog 10) (∫⁻ x, ENNReal.ofReal (Real.exp (lgTarget 1 ys x)) ∂trajVol 25 10)
    TVLe (E * (2 * E) ^ 9 + (10 : ℕ) * forceErr)
    (fun f => sampling_routine [7] x (fun _ => 0) (fun key s => outOf (lg_csmc_kernel (m := Ex) (N := 31) ys 1
      (fun key w i j c => killing key w i j c) (fun key w k => force_move key w k) true key s.1 s.2)) 10 1 fun r => f (r.1 ⟨9, by decide⟩))
    fun f => ∫⁻ x, f x ∂lawOf (trajVol 25 10) (lgTarget 1 ys) := by
  have h := C92_lgssm_all (N := 31) (resampling := "killing") (last_step := "forced") one_pos ys rfl rfl true
    (by norm_num) [7] x (fun _ => 0) 10 1 ⟨9, by decide⟩
  intro E f hf hf1
  obtain ⟨h1, h2⟩ := h f hf hf1
  rw [if_neg (by decide)] at h1 h2
  exact ⟨h1.trans (add_le_add le_rfl (min_le_left _ _)), h2.trans (add_le_add le_rfl (min_le_left _ _))⟩

/-- The bound is small: two time steps, weights at most the mass of the target, and 1399 particles give at most `1 / 140`. -/
example : manyErr 1399 1 (fun _ => 0) 1 = 1 / 140 := by
  have e : manyErr 1399 1 (fun _ => 0) 1 = ENNReal.ofReal (10 / 1400) := by
    rw [manyErr, ENNReal.ofReal_div_of_pos (by norm_num)]
    simp only [Real.exp_zero, ENNReal.ofReal_one, prod_const_one, div_one, mul_one, Nat.cast_one]
    norm_num
  rw [e, show (10 : ℝ) / 1400 = 1 / 140 by norm_num, ENNReal.ofReal_div_of_pos (by norm_num)]
  norm_num

/-- The stochastic volatility script with `killing`, no backward sampling and `barker`. -/
example (x : Traj 50 30) : ∃ make, SvType.kernel_maker (m := Ex) (N := 31) (n := 49) (diagSvd 30) .CSMC (svDynArgs 10 30) "bootstrap"
    (.level 0.5) (fun key w i j c => killing key w i j c) (fun key w k => barker_move key w k) false = .ok make ∧
    TVLe (svManyErr (n := 49) (d := 30) 31 10 (fun _ _ => 1))
      (fun f => sv_chains [1] [2] (make fun _ _ => 1) ((make fun _ _ => 1).init x) (.scalar 0.01) 2500 10000 4
        fun c => f ((c 3).1 ⟨0, by decide⟩))
      fun f => ∫⁻ x, f x ∂svPosterior .CSMC 10 fun _ _ => 1 := by
  have hR : sel_resampling (N := 31) (m := Ex) "killing" = .ok fun key w i j c => killing key w i j c := rfl
  have hm : sel_last_step (N := 31) (m := Ex) "barker" = .ok fun key w k => barker_move key w k := rfl
  refine ⟨_, rfl, ?_⟩
  have h := C92_sv_chains (n := 49) (d := 30) (svd := diagSvd 30) (tau := 10) (style := "bootstrap") (target_stat := .level 0.5)
    (backward := false) (by norm_num) hR hm (Or.inr rfl) (by norm_num) rfl (ys := fun _ _ => 1) (fun _ _ => one_ne_zero) (.scalar 0.01)
    (x, fun _ => 0) [1] [2] 2500 10000 (M := 4) 3 ⟨0, by decide⟩
  intro f hf hf1
  obtain ⟨h1, h2⟩ := h f hf hf1
  have e : svErr .CSMC "barker" = 0 := by simp [svErr]
  simp only [e, mul_zero, add_zero] at h1 h2
  exact ⟨h1.trans (add_le_add le_rfl (min_le_right _ _)), h2.trans (add_le_add le_rfl (min_le_right _ _))⟩

end Verif.Props
