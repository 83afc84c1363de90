import Verif.Lemmas.Proposal
import Verif.Lemmas.ScanRules
import Verif.Props.Resampling

/-!
# C12 - C18: `csmc.kernel`
-/

open scoped ENNReal
open MeasureTheory Finset

namespace Verif.Props
open Verif Verif.Model Verif.Spec Verif.Poss

variable {X P G : Type} {N n : ℕ}

/-- Multinomial and killing resampling pin the reference. -/
theorem pins_multinomial : Pins (N := N) (fun key w i j c => multinomial key w i j c) :=
  fun key w i j => C01_multinomial_pin key w i j

theorem pins_killing : Pins (N := N) (fun key w i j c => killing key w i j c) :=
  fun key w i j => C01_killing_pin key w i j

/-! ## C12: the forward pass retains the reference -/

/-- C12: after the conditional forward pass, particle `b_star[t]` of time `t` is `x_star[t]`, and the
ancestor of particle `b_star[t+1]` is `b_star[t]`. -/
theorem C12_forward_retains (key : Key) (xstar : Fin (n + 1) → X) (bstar : Fin (n + 1) → Fin (N + 1))
    (M : FK Poss X P G N) (Mparams : Fin n → P) (Gparams : Fin n → G) (resampling : Resampling Poss N)
    (hR : Pins resampling) :
    Always (forward_pass key xstar bstar M Mparams Gparams resampling true) (fun F =>
      (∀ t, F.xs t (bstar t) = xstar t) ∧ ∀ t : Fin n, F.As t (bstar t.succ) = bstar t.castSucc) := by
  refine always_bind' fun x0 => ?_
  refine always_bind (always_scanM_forall _ _
    (fun t o => o.2.1 (bstar t.succ) = bstar t.castSucc ∧ o.2.2 (bstar t.succ) = xstar t.succ) ?_) ?_
  · intro t c
    refine always_bind (hR _ _ _ _) fun A hA => always_bind' fun Xs => always_pure ⟨hA, ?_⟩
    simp [fwdInputs]
  · intro r hr
    refine always_pure ⟨fun t => ?_, fun t => (hr t).1⟩
    refine Fin.cases ?_ (fun s => ?_) t
    · simp
    · simpa using (hr s).2

/-! ## C13: the output is assembled from the particle system -/

/-- C13 (scanning): the trajectory is the genealogy of the selected particle. -/
theorem C13_scanning_genealogy (key : Key) (As : Fin n → Fin (N + 1) → Fin (N + 1)) (b : Fin (N + 1))
    (xs : Fin (n + 1) → Fin (N + 1) → X) (lw : Fin (N + 1) → ℝ) (mv : AncestorMove Poss N) :
    Always (backward_scanning_pass key As b xs lw mv) (fun r =>
      (∀ t, r.1 t = xs t (r.2 t)) ∧ ∀ t : Fin n, r.2 t.castSucc = As t (r.2 t.succ)) := by
  refine always_bind' fun r => always_pure ?_
  have h := bscan_eq (N := N) (X := X) (As, xs) r.1
  simp only at h
  have h1 : ∀ {n : ℕ} (h : Hist X N n) (k : Fin (N + 1)) (t : Fin n),
      h.trace k t.castSucc = h.1 t (h.trace k t.succ) := by
    intro n h
    induction n with
    | zero => exact fun k t => t.elim0
    | succ n ih =>
      intro k t
      have e : h.trace k = snocA (h.init.trace (lastA h.1 k)) k := rfl
      rw [e, snocA_castSucc]
      refine Fin.lastCases ?_ (fun s => ?_) t
      · rw [Fin.succ_last, snocA_last]
        have : h.init.trace (lastA h.1 k) (Fin.last n) = lastA h.1 k := by
          cases n with
          | zero => rfl
          | succ n => exact snocA_last _ _
        rw [this]; rfl
      · rw [ih, ← Fin.castSucc_succ, snocA_castSucc]; rfl
  constructor
  · intro t
    have h2 := congrFun h.1 t
    have h3 := congrFun h.2 t
    refine h2.trans ?_
    rw [Hist.tracex, ← h3]
  · intro t
    have h3 := congrFun h.2 t.castSucc
    have h4 := congrFun h.2 t.succ
    refine h3.trans ((h1 _ _ _).trans ?_)
    rw [← h4]

/-- C13 (sampling): the trajectory is made of the selected particles. -/
theorem C13_sampling_assembled (key : Key) (Gam : X → X → G → ℝ) (Gparams : Fin n → G) (b : Fin (N + 1))
    (xs : Fin (n + 1) → Fin (N + 1) → X) (log_ws : Fin (n + 1) → Fin (N + 1) → ℝ)
    (mv : AncestorMove Poss N) (conditional : Bool) :
    Always (backward_sampling_pass key Gam Gparams b xs log_ws mv conditional) (fun r =>
      ∀ t, r.1 t = xs t (r.2 t)) := by
  have key_step : ∀ B_T : Fin (N + 1), Always (do
      let r ← (scanM (bsBody Gam) (lastA xs B_T)
        (fun t => (initA (splitKey key (n + 1)) t, revInit xs t, revInit log_ws t, rev Gparams t)) : Poss _)
      pure (rev (insert0 (lastA xs B_T) (fun t => (r.2 t).1)), rev (insert0 B_T (fun t => (r.2 t).2))))
      (fun r => ∀ t, r.1 t = xs t (r.2 t)) := by
    intro B_T
    refine always_bind (always_scanM_forall _ _ (fun t o => o.1 = revInit xs t o.2) ?_) fun r hr => ?_
    · intro t c
      exact always_bind' fun B => always_pure rfl
    · refine always_pure fun t => ?_
      refine Fin.lastCases ?_ (fun s => ?_) t
      · simp only [rev_insert0_last]; rfl
      · simp only [rev_insert0_castSucc]
        rw [hr s.rev]
        simp [revInit]
  cases conditional with
  | true => exact always_bind' fun r => key_step r.1
  | false => exact always_bind' fun r => key_step r.1

/-- C13 for the whole kernel: whatever property of the particle system holds after the forward pass, the
returned trajectory is read off a particle system with that property at the returned indices (and follows
its genealogy when `backward = False`). -/
theorem C13_kernel_assembled (key : Key) (xstar : Fin (n + 1) → X) (bstar : Fin (n + 1) → Fin (N + 1))
    (M : FK Poss X P G N) (Mparams : Fin n → P) (Gparams : Fin n → G) (resampling : Resampling Poss N)
    (mv : AncestorMove Poss N) (backward conditional : Bool) (Q : FwdOut X N n → Prop)
    (hQ : Always (forward_pass key xstar bstar M Mparams Gparams resampling conditional) Q) :
    Always (csmc_kernel key xstar bstar M Mparams Gparams resampling mv backward conditional) (fun r =>
      ∃ F, Q F ∧ r.log_ws = F.log_ws ∧ (∀ t, r.xs t = F.xs t (r.Bs t)) ∧
        (backward = false → ∀ t : Fin n, r.Bs t.castSucc = F.As t (r.Bs t.succ))) := by
  refine always_bind hQ fun F hF => ?_
  cases backward with
  | true =>
    refine always_bind (C13_sampling_assembled _ _ _ _ _ _ _ _) fun r hr => always_pure ?_
    exact ⟨F, hF, rfl, hr, fun h => absurd h (by simp)⟩
  | false =>
    refine always_bind (C13_scanning_genealogy _ _ _ _ _ _) fun r hr => always_pure ?_
    exact ⟨F, hF, rfl, hr.1, fun _ => hr.2⟩

/-! ## C14: flags are sound -/

/-- C14: an unchanged index means an unchanged state; without backward sampling an unchanged last index
means that nothing changed. -/
theorem C14_flags_sound (key : Key) (xstar : Fin (n + 1) → X) (bstar : Fin (n + 1) → Fin (N + 1))
    (M : FK Poss X P G N) (Mparams : Fin n → P) (Gparams : Fin n → G) (resampling : Resampling Poss N)
    (hR : Pins resampling) (mv : AncestorMove Poss N) (backward : Bool) :
    Always (csmc_kernel key xstar bstar M Mparams Gparams resampling mv backward true) (fun r =>
      (∀ t, r.Bs t = bstar t → r.xs t = xstar t) ∧
        (backward = false → lastA r.Bs = lastA bstar → r.Bs = bstar ∧ r.xs = xstar)) := by
  refine always_mono (C13_kernel_assembled key xstar bstar M Mparams Gparams resampling mv backward true _
    (C12_forward_retains key xstar bstar M Mparams Gparams resampling hR)) ?_
  rintro r ⟨F, ⟨hx, hA⟩, -, hr, hg⟩
  have h1 : ∀ t, r.Bs t = bstar t → r.xs t = xstar t := fun t ht => by rw [hr t, ht, hx t]
  refine ⟨h1, fun hb hl => ?_⟩
  have h2 : r.Bs = bstar := by
    funext t
    refine Fin.reverseInduction (motive := fun t => r.Bs t = bstar t) hl (fun s hs => ?_) t
    rw [hg hb s, hs, hA s]
  exact ⟨h2, funext fun t => h1 t (congrFun h2 t)⟩

/-! ## C15, C16: invariance -/

/-- C15, C16: `csmc.kernel` leaves the target invariant, for both backward passes, for every conditional
resampling scheme and every ancestor move that leaves the final weights invariant. -/
theorem C15_C16_csmc_invariant [MeasurableSpace X] (lam : Measure X) [SigmaFinite lam] (key : Key)
    (M : FK Ex X P G N) (hM : ProperFK lam M) (Mparams : Fin n → P) (Gparams : Fin n → G)
    (resampling : Resampling Ex N)
    (hR : ∀ key, CondResampling (fun w i j => resampling key w i j true))
    (mv : AncestorMove Ex N) (hmv : ∀ key, MoveInvariant (fun w k => do
      let r ← mv key w k
      pure r.1)) (backward : Bool) :
    LeavesInvariant lam (pathLogDensity M.Gamma0 (fun t y x => M.Gammat y x (Gparams t)))
      (fun x b => do
        let r ← csmc_kernel key x b M Mparams Gparams resampling mv backward true
        pure (r.xs, r.Bs)) := by
  obtain ⟨c0, c, hS⟩ := csmcDSys_OK (lam := lam) key Mparams Gparams hM hR
  have hd : (csmcDSys lam key M Mparams Gparams resampling c0 c).Density lam
      (fun t y x => M.Gammat y x (Gparams t)) := ⟨fun t => hM.Gammat_meas _, fun t y f hf => rfl⟩
  have h := hS.kernel_invariant hM.Gamma0_meas (fun f hf => rfl) hd
    (hmv (if backward then lastA (splitKey (splitKey key 3 2) (n + 1)) else splitKey key 3 2)) backward
  have e : ∀ x b, _ = _ := fun x b => csmc_kernel_eq key M Mparams Gparams resampling mv backward
    (fun f => ∫⁻ x, ENNReal.ofReal (Real.exp (M.Gamma0 x)) * f x ∂lam)
    (fun t y f => ∫⁻ x, ENNReal.ofReal (Real.exp (M.Gammat y x (Gparams t))) * f x ∂lam)
    (tilt c0 (M.M0_rvs (splitKey key 3 0)))
    (fun t Y => tilt (c t) (M.Mt_rvs (splitKey (splitKey (splitKey key 3 1) n t) 2 0) Y (Mparams t))) x b
  intro f hf
  simp only [e]
  exact h f hf

/-- C15: backward scanning, with killing resampling and the Barker move. -/
theorem C15_csmc_scanning_invariant [MeasurableSpace X] (lam : Measure X) [SigmaFinite lam] (key : Key)
    (M : FK Ex X P G N) (hM : ProperFK lam M) (Mparams : Fin n → P) (Gparams : Fin n → G) :
    LeavesInvariant lam (pathLogDensity M.Gamma0 (fun t y x => M.Gammat y x (Gparams t)))
      (fun x b => do
        let r ← csmc_kernel key x b M Mparams Gparams (fun key w i j c => killing key w i j c)
          (fun key w k => barker_move key w k) false true
        pure (r.xs, r.Bs)) :=
  C15_C16_csmc_invariant lam key M hM Mparams Gparams _ (fun key => killing_condResampling key) _
    (fun key => barker_moveInvariant key) false

/-- C15: backward scanning, with multinomial resampling and the Barker move. -/
theorem C15_csmc_scanning_invariant_multinomial [MeasurableSpace X] (lam : Measure X) [SigmaFinite lam]
    (key : Key) (M : FK Ex X P G N) (hM : ProperFK lam M) (Mparams : Fin n → P) (Gparams : Fin n → G) :
    LeavesInvariant lam (pathLogDensity M.Gamma0 (fun t y x => M.Gammat y x (Gparams t)))
      (fun x b => do
        let r ← csmc_kernel key x b M Mparams Gparams (fun key w i j c => multinomial key w i j c)
          (fun key w k => barker_move key w k) false true
        pure (r.xs, r.Bs)) :=
  C15_C16_csmc_invariant lam key M hM Mparams Gparams _ (fun key => multinomial_condResampling key) _
    (fun key => barker_moveInvariant key) false

/-- C16: backward sampling, with killing resampling and the Barker move. -/
theorem C16_csmc_sampling_invariant [MeasurableSpace X] (lam : Measure X) [SigmaFinite lam] (key : Key)
    (M : FK Ex X P G N) (hM : ProperFK lam M) (Mparams : Fin n → P) (Gparams : Fin n → G) :
    LeavesInvariant lam (pathLogDensity M.Gamma0 (fun t y x => M.Gammat y x (Gparams t)))
      (fun x b => do
        let r ← csmc_kernel key x b M Mparams Gparams (fun key w i j c => killing key w i j c)
          (fun key w k => barker_move key w k) true true
        pure (r.xs, r.Bs)) :=
  C15_C16_csmc_invariant lam key M hM Mparams Gparams _ (fun key => killing_condResampling key) _
    (fun key => barker_moveInvariant key) true

/-- C16: backward sampling, with multinomial resampling and the Barker move. -/
theorem C16_csmc_sampling_invariant_multinomial [MeasurableSpace X] (lam : Measure X) [SigmaFinite lam]
    (key : Key) (M : FK Ex X P G N) (hM : ProperFK lam M) (Mparams : Fin n → P) (Gparams : Fin n → G) :
    LeavesInvariant lam (pathLogDensity M.Gamma0 (fun t y x => M.Gammat y x (Gparams t)))
      (fun x b => do
        let r ← csmc_kernel key x b M Mparams Gparams (fun key w i j c => multinomial key w i j c)
          (fun key w k => barker_move key w k) true true
        pure (r.xs, r.Bs)) :=
  C15_C16_csmc_invariant lam key M hM Mparams Gparams _ (fun key => multinomial_condResampling key) _
    (fun key => barker_moveInvariant key) true

/-- A model meeting the hypotheses of C15 and C16: a Gaussian random walk in dimension `d`, observed through
the potential `x ↦ -|x - y|^4`, with bootstrap proposals. -/
noncomputable def exampleFK (d N : ℕ) : FK Ex (Fin d → ℝ) Unit (Fin d → ℝ) N where
  M0_rvs key := do
    let e ← normal2 key (N + 1) d
    pure (fun i => 0 + (1 : Matrix (Fin d) (Fin d) ℝ).mulVec (e i))
  M0_logpdf Xs i := stdLogpdf (Xs i)
  Gamma0 x := stdLogpdf x
  Mt_rvs key Y _ := do
    let e ← normal2 key (N + 1) d
    pure (fun i => Y i + (1 : Matrix (Fin d) (Fin d) ℝ).mulVec (e i))
  Mt_logpdf Y Xs _ i := stdLogpdf (Xs i - Y i)
  Gammat y x o := stdLogpdf (x - y) - (∑ i, (x i - o i) ^ 2) ^ 2

theorem exampleFK_proper (d N : ℕ) : ProperFK volume (exampleFK d N) where
  Gamma0_meas := measurable_stdLogpdf
  Gammat_meas g := by
    unfold exampleFK
    exact (measurable_stdLogpdf.comp (by fun_prop)).sub (by fun_prop)
  init := ⟨stdLogpdf, 0, fun _ _ => (add_zero _).symm, fun key => by
    have h := gauss_samplesFrom (k := N + 1) (d := d) (L := 1) (by simp) (fun _ => 0) key
    have e : (fun (_ : Fin (N + 1)) (x : Fin d → ℝ) => stdLogpdf x) = fun _ x =>
        stdLogpdf ((1 : Matrix (Fin d) (Fin d) ℝ)⁻¹.mulVec (x - 0)) -
          Real.log |(1 : Matrix (Fin d) (Fin d) ℝ).det| := by simp
    rw [← e] at h
    exact h⟩
  step _ := ⟨fun y x => stdLogpdf (x - y), 0, measurable_stdLogpdf.comp (by fun_prop),
    fun _ _ _ => (add_zero _).symm,
    fun key => ⟨IsKer.bind (IsKer.normal2 _ _ _) (IsKer.pure (by fun_prop)), fun Ys => by
      have h := gauss_samplesFrom (k := N + 1) (d := d) (L := 1) (by simp) Ys key
      have e : (fun (i : Fin (N + 1)) (x : Fin d → ℝ) => stdLogpdf (x - Ys i)) = fun i x =>
          stdLogpdf ((1 : Matrix (Fin d) (Fin d) ℝ)⁻¹.mulVec (x - Ys i)) -
            Real.log |(1 : Matrix (Fin d) (Fin d) ℝ).det| := by simp
      rw [← e] at h
      exact h⟩⟩

/-- The hypotheses of C15 and C16 are met by a concrete model. -/
example (y : Fin 7 → Fin 2 → ℝ) := C16_csmc_sampling_invariant (n := 7) volume [] (exampleFK 2 25)
  (exampleFK_proper 2 25) (fun _ => ()) y

/-! ## C17: unconditional SMC -/

/-- C17: with `conditional = False` and backward sampling, the supplied trajectory and indices do not
matter: it is the same program, hence the same output for every key. -/
theorem C17_unconditional_ignores {m : Type → Type} [RandM m] (key : Key)
    (xstar xstar' : Fin (n + 1) → X) (bstar bstar' : Fin (n + 1) → Fin (N + 1)) (M : FK m X P G N)
    (Mparams : Fin n → P) (Gparams : Fin n → G) (resampling : Resampling m N)
    (hR : ∀ key w i j i' j', resampling key w i j false = resampling key w i' j' false)
    (mv mv' : AncestorMove m N) :
    csmc_kernel key xstar bstar M Mparams Gparams resampling mv true false =
      csmc_kernel key xstar' bstar' M Mparams Gparams resampling mv' true false := by
  have h1 : forward_pass key xstar bstar M Mparams Gparams resampling false =
      forward_pass key xstar' bstar' M Mparams Gparams resampling false := by
    unfold forward_pass
    simp only [Bool.false_eq_true, if_false]
    congr 1
    funext x0
    rw [scanM_congr (inp' := fwdInputs (splitKey key 3 1) xstar' bstar' Mparams Gparams)]
    intro t c
    unfold fwdBody
    simp only [Bool.false_eq_true, if_false, fwdInputs]
    rw [hR]
  unfold csmc_kernel
  rw [h1]
  rfl

/-- Both resampling functions ignore the indices when `conditional = False`. -/
theorem C17_resampling_ignores {m : Type → Type} [RandM m] (key : Key) (w : Fin (N + 1) → ℝ)
    (i j i' j' : Fin (N + 1)) :
    (multinomial key w i j false : m _) = multinomial key w i' j' false ∧
      (killing key w i j false : m _) = killing key w i' j' false := ⟨rfl, rfl⟩

/-! ## C18: additive constants -/

/-- The model with constants added to the log-potentials; the constant of time `t` is an extra parameter. -/
def shiftFK {m : Type → Type} (M : FK m X P G N) (c0 : ℝ) : FK m X P (G × ℝ) N :=
  { M with
    Gamma0 := fun x => M.Gamma0 x + c0
    Gammat := fun y x g => M.Gammat y x g.1 + g.2 }

/-- C18: adding constants to the log-potentials does not change the program: same trajectory, indices and
log-weights for every key. -/
theorem C18_csmc_additive_constants {m : Type → Type} [RandM m] (key : Key) (xstar : Fin (n + 1) → X)
    (bstar : Fin (n + 1) → Fin (N + 1)) (M : FK m X P G N) (Mparams : Fin n → P) (Gparams : Fin n → G)
    (resampling : Resampling m N) (mv : AncestorMove m N) (backward conditional : Bool)
    (c0 : ℝ) (c : Fin n → ℝ) :
    csmc_kernel key xstar bstar (shiftFK M c0) Mparams (fun t => (Gparams t, c t)) resampling mv backward
        conditional =
      csmc_kernel key xstar bstar M Mparams Gparams resampling mv backward conditional := by
  have h1 : forward_pass key xstar bstar (shiftFK M c0) Mparams (fun t => (Gparams t, c t)) resampling
      conditional = forward_pass key xstar bstar M Mparams Gparams resampling conditional := by
    unfold forward_pass
    simp only [shiftFK]
    congr 1
    funext x0
    have e0 : ∀ x0 : Fin (N + 1) → X, normalizeLog (fun i => M.Gamma0 (x0 i) + c0 - M.M0_logpdf x0 i) =
        normalizeLog (fun i => M.Gamma0 (x0 i) - M.M0_logpdf x0 i) := by
      intro x0
      rw [← normalizeLog_add_const (fun i => M.Gamma0 (x0 i) - M.M0_logpdf x0 i) c0]
      congr 1; funext i; ring
    rw [e0]
    rw [scanM_congr (body' := fwdBody M resampling conditional)
      (inp' := fwdInputs (splitKey key 3 1) xstar bstar Mparams Gparams)]
    intro t cr
    unfold fwdBody
    simp only [fwdInputs]
    congr 1
    funext A
    congr 1
    funext Xs
    have et : ∀ Y Xs : Fin (N + 1) → X, normalizeLog (fun i => M.Gammat (Y i) (Xs i) (Gparams t) + c t -
        M.Mt_logpdf Y Xs (Mparams t) i) =
        normalizeLog (fun i => M.Gammat (Y i) (Xs i) (Gparams t) - M.Mt_logpdf Y Xs (Mparams t) i) := by
      intro Y Xs
      rw [← normalizeLog_add_const (fun i => M.Gammat (Y i) (Xs i) (Gparams t) -
        M.Mt_logpdf Y Xs (Mparams t) i) (c t)]
      congr 1; funext i; ring
    rw [et]
  unfold csmc_kernel
  rw [h1]
  congr 1
  funext F
  have h2 : (backward_sampling_pass F.key_backward (shiftFK M c0).Gammat (fun t => (Gparams t, c t))
      (lastA bstar) F.xs F.log_ws mv conditional) =
      backward_sampling_pass F.key_backward M.Gammat Gparams (lastA bstar) F.xs F.log_ws mv
        conditional := by
    have h3 : ∀ (x : X) (keys : Fin n → Key), (scanM (bsBody (shiftFK M c0).Gammat) x (fun t =>
        (keys t, revInit F.xs t, revInit F.log_ws t, rev (fun t => (Gparams t, c t)) t)) : m _) =
        scanM (bsBody M.Gammat) x (fun t =>
          (keys t, revInit F.xs t, revInit F.log_ws t, rev Gparams t)) := by
      intro x keys
      refine scanM_congr _ fun t x => ?_
      unfold bsBody
      simp only [shiftFK, rev_apply, maxA_add_const]
      have h4 : ∀ a b : ℝ, a + c t.rev - (b + c t.rev) = a - b := fun a b => by ring
      simp only [h4]
    unfold backward_sampling_pass
    cases conditional <;> simp only [h3]
  rw [h2]

end Verif.Props
