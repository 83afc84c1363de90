import Verif.Lemmas.MargCsmc
import Verif.Lemmas.AuxRules
import Verif.Props.Csmc

/-!
# C12, C14, C18, C20, C21, C23, C24: `rw_csmc`, `al_csmc_f`, `l_csmc_f`
-/

open scoped ENNReal
open MeasureTheory

namespace Verif.Props
open Verif Verif.Model Verif.Spec Verif.Poss

variable {X G : Type} {N n d : ℕ}

/-! ## C12: the reference trajectory is retained -/

/-- C12 (`rw_csmc`, `al_csmc_f`, `l_csmc_f`): in the particle array, particle `b_star[t]` of time `t` is
`x_star[t]`. -/
theorem C12_aux_particles (aux_vars : Fin (n + 1) → Vec d) (std : Fin (n + 1) → ℝ)
    (eps : Fin (n + 1) → Fin (N + 1) → Vec d) (bstar : Fin (n + 1) → Fin (N + 1)) (xstar : Fin (n + 1) → Vec d)
    (t : Fin (n + 1)) : auxParticles aux_vars std eps bstar xstar t (bstar t) = xstar t := by
  simp [auxParticles]

/-- C12 (`rw_csmc`): the ancestor of particle `b_star[t+1]` is `b_star[t]`. -/
theorem C12_rw_ancestors {X : Type} (Gammat : X → X → G → ℝ) (resampling : Resampling Poss N)
    (hR : Pins resampling) (key : Key) (params : Fin n → G) (xs : Fin (n + 1) → Fin (N + 1) → X)
    (bstar : Fin (n + 1) → Fin (N + 1)) (c : (Fin (N + 1) → ℝ) × (Fin (N + 1) → X)) :
    Always (scanM (rwBody Gammat resampling) c (auxInputs key params xs bstar)) (fun r =>
      ∀ t : Fin n, (r.2 t).2 (bstar t.succ) = bstar t.castSucc) := by
  refine always_scanM_forall _ _ (fun t (o : (Fin (N + 1) → ℝ) × (Fin (N + 1) → Fin (N + 1))) => o.2 (bstar t.succ) = bstar t.castSucc) fun t c => ?_
  exact always_bind (hR _ _ _ _) fun A hA => always_pure hA

/-- C12 (`al_csmc_f`): the ancestor of particle `b_star[t+1]` is `b_star[t]`. -/
theorem C12_al_ancestors (Gammat : Vec d → Vec d → G → ℝ) (Gammat_grad : Vec d → Vec d → G → Vec d)
    (resampling : Resampling Poss N)
    (hR : Pins resampling) (key : Key) (params : Fin n → AlParams G d) (xs : Fin (n + 1) → Fin (N + 1) → Vec d)
    (bstar : Fin (n + 1) → Fin (N + 1)) (c : (Fin (N + 1) → ℝ) × (Fin (N + 1) → Vec d)) :
    Always (scanM (alBody Gammat Gammat_grad resampling) c (auxInputs key params xs bstar)) (fun r =>
      ∀ t : Fin n, (r.2 t).2 (bstar t.succ) = bstar t.castSucc) := by
  refine always_scanM_forall _ _ (fun t (o : (Fin (N + 1) → ℝ) × (Fin (N + 1) → Fin (N + 1))) => o.2 (bstar t.succ) = bstar t.castSucc) fun t c => ?_
  exact always_bind (hR _ _ _ _) fun A hA => always_pure hA

/-- C12 (`l_csmc_f`): the ancestor of particle `b_star[t+1]` is `b_star[t]`. -/
theorem C12_l_ancestors (Gammat : Vec d → Vec d → G → ℝ) (Gammat_grad : Vec d → Vec d → G → Vec d)
    (resampling : Resampling Poss N)
    (hR : Pins resampling) (key : Key) (params : Fin n → LParams G d) (xs : Fin (n + 1) → Fin (N + 1) → Vec d)
    (bstar : Fin (n + 1) → Fin (N + 1)) (c : (Fin (N + 1) → ℝ) × (Fin (N + 1) → Vec d)) :
    Always (scanM (lBody Gammat Gammat_grad resampling) c (auxInputs key params xs bstar)) (fun r =>
      ∀ t : Fin n, (r.2 t).2 (bstar t.succ) = bstar t.castSucc) := by
  refine always_scanM_forall _ _ (fun t (o : (Fin (N + 1) → ℝ) × (Fin (N + 1) → Fin (N + 1))) => o.2 (bstar t.succ) = bstar t.castSucc) fun t c => ?_
  exact always_bind (hR _ _ _ _) fun A hA => always_pure hA

/-! ## C14: flags are sound -/

/-- An unchanged index means an unchanged state; without backward sampling an unchanged last index means
that nothing changed. -/
def FlagsSound (xstar : Fin (n + 1) → X) (bstar : Fin (n + 1) → Fin (N + 1)) (backward : Bool)
    (r : KOut X N n) : Prop :=
  (∀ t, r.Bs t = bstar t → r.xs t = xstar t) ∧
    (backward = false → lastA r.Bs = lastA bstar → r.Bs = bstar ∧ r.xs = xstar)

/-- The backward passes over a particle system that retains the reference. -/
theorem aux_pass_flags {I : Type} (xstar : Fin (n + 1) → X) (b : Fin (n + 1) → Fin (N + 1))
    (xs : Fin (n + 1) → Fin (N + 1) → X) (hx : ∀ t, xs t (b t) = xstar t)
    (body : (Fin (N + 1) → ℝ) × (Fin (N + 1) → X) → I →
      Poss (((Fin (N + 1) → ℝ) × (Fin (N + 1) → X)) × ((Fin (N + 1) → ℝ) × (Fin (N + 1) → Fin (N + 1)))))
    (inp : Fin n → I) (c : (Fin (N + 1) → ℝ) × (Fin (N + 1) → X))
    (hA : Always (scanM body c inp) (fun r => ∀ t : Fin n, (r.2 t).2 (b t.succ) = b t.castSucc))
    (lw0 : Fin (N + 1) → ℝ) (kb : Key) (Gam : X → X → G → ℝ) (p : Fin n → G) (mv : AncestorMove Poss N)
    (backward : Bool) :
    Always (do
      let r ← scanM body c inp
      let log_ws := insert0 lw0 (fun t => (r.2 t).1)
      let As := fun t => (r.2 t).2
      let q ← if backward then
          backward_sampling_pass kb Gam p (lastA b) xs log_ws mv true
        else
          backward_scanning_pass kb As (lastA b) xs (lastA log_ws) mv
      pure { xs := q.1, Bs := q.2, log_ws := log_ws }) (FlagsSound xstar b backward) := by
  refine always_bind hA fun r hr => ?_
  cases backward with
  | true =>
    refine always_bind (C13_sampling_assembled _ _ _ _ _ _ _ _) fun q hq => always_pure ⟨?_, ?_⟩
    · intro t ht
      have h1 : q.2 t = b t := ht
      show q.1 t = xstar t
      rw [hq t, h1, hx t]
    · simp
  | false =>
    refine always_bind (C13_scanning_genealogy _ _ _ _ _ _) fun q hq => always_pure ?_
    have h1 : ∀ t, q.2 t = b t → q.1 t = xstar t := fun t ht => by rw [hq.1 t, ht, hx t]
    refine ⟨h1, fun _ hl => ?_⟩
    have h2 : q.2 = b := by
      funext t
      refine Fin.reverseInduction (motive := fun t => q.2 t = b t) hl (fun s hs => ?_) t
      rw [hq.2 s, hs, hr s]
    exact ⟨h2, funext fun t => h1 t (congrFun h2 t)⟩

/-- C14 for `rw_csmc.kernel`, whatever values count as finite. -/
theorem C14_rw_flags_sound (isfinite : Vec d → Bool) (key : Key) (xstar : Fin (n + 1) → Vec d)
    (bstar : Fin (n + 1) → Fin (N + 1)) (Gamma0 : Vec d → ℝ) (Gammat : Vec d → Vec d → G → ℝ)
    (Gparams : Fin n → G) (ells : Fin (n + 1) → ℝ) (resampling : Resampling Poss N) (hR : Pins resampling)
    (mv : AncestorMove Poss N) (backward : Bool) :
    Always (rw_kernel isfinite key xstar bstar Gamma0 Gammat Gparams ells resampling mv backward)
      (FlagsSound xstar bstar backward) := by
  have h : Always (rw_core key xstar bstar Gamma0 Gammat Gparams ells resampling mv backward)
      (FlagsSound xstar bstar backward) := by
    refine always_bind' fun eps_aux => always_bind' fun eps_xs => ?_
    cases backward <;> exact aux_pass_flags xstar bstar (auxParticles (fun t j => xstar t j + eps_aux t j * auxStd ells t)
      (auxStd ells) eps_xs bstar xstar) (C12_aux_particles _ _ _ _ _) _ _ _
      (C12_rw_ancestors Gammat resampling hR key _ _ bstar _) _ _ _ _ mv _
  refine always_bind h fun r hr => always_pure ?_
  unfold rwGuard
  by_cases hf : ∀ t, isfinite (r.xs t) = true
  · simpa [hf] using hr
  · simp only [hf, decide_false, Bool.not_false, if_true]
    exact ⟨fun _ _ => rfl, fun _ _ => ⟨rfl, rfl⟩⟩

/-- C14 for `al_csmc_f.kernel`. -/
theorem C14_al_flags_sound (key : Key) (xstar : Fin (n + 1) → Vec d)
    (bstar : Fin (n + 1) → Fin (N + 1)) (Gamma0 : Vec d → ℝ) (Gamma0_grad : Vec d → Vec d)
    (Gammat : Vec d → Vec d → G → ℝ) (Gammat_grad : Vec d → Vec d → G → Vec d)
    (Gparams : Fin n → G) (ells deltas : Fin (n + 1) → ℝ) (resampling : Resampling Poss N)
    (hR : Pins resampling) (mv : AncestorMove Poss N) (backward : Bool) :
    Always (al_kernel key xstar bstar Gamma0 Gamma0_grad Gammat Gammat_grad Gparams ells deltas resampling mv
      backward) (FlagsSound xstar bstar backward) := by
  refine always_bind' fun eps_aux => always_bind' fun eps_xs => ?_
  cases backward <;> exact aux_pass_flags xstar bstar (auxParticles (auxVars Gamma0_grad Gammat_grad Gparams deltas (auxStd ells)
    xstar eps_aux) (auxStd ells) eps_xs bstar xstar) (C12_aux_particles _ _ _ _ _) _ _ _
    (C12_al_ancestors Gammat Gammat_grad resampling hR key _ _ bstar _) _ _ _ _ mv _

/-- C14 for `l_csmc_f.kernel`. -/
theorem C14_l_flags_sound (key : Key) (xstar : Fin (n + 1) → Vec d)
    (bstar : Fin (n + 1) → Fin (N + 1)) (Gamma0 : Vec d → ℝ) (Gamma0_grad : Vec d → Vec d)
    (Gammat : Vec d → Vec d → G → ℝ) (Gammat_grad : Vec d → Vec d → G → Vec d)
    (Gparams : Fin n → G) (ells deltas : Fin (n + 1) → ℝ) (resampling : Resampling Poss N)
    (hR : Pins resampling) (mv : AncestorMove Poss N) (backward : Bool) :
    Always (l_kernel key xstar bstar Gamma0 Gamma0_grad Gammat Gammat_grad Gparams ells deltas resampling mv
      backward) (FlagsSound xstar bstar backward) := by
  refine always_bind' fun eps_aux => always_bind' fun eps_xs => ?_
  cases backward <;> exact aux_pass_flags xstar bstar (auxParticles (auxVars Gamma0_grad Gammat_grad Gparams deltas (auxStd ells)
    xstar eps_aux) (auxStd ells) eps_xs bstar xstar) (C12_aux_particles _ _ _ _ _) _ _ _
    (C12_l_ancestors Gammat Gammat_grad resampling hR key _ _ bstar _) _ _ _ _ mv _

/-- The hypotheses of C14 are met by both resampling functions. -/
example (x : Fin 5 → Vec 2) (b : Fin 5 → Fin 26) := C14_al_flags_sound [] x b (fun x => -x 0 ^ 2)
  (fun x j => if j = 0 then -2 * x 0 else 0) (fun y x (_ : Unit) => -(x 1 - y 0) ^ 2)
  (fun y x _ j => if j = 1 then -2 * (x 1 - y 0) else 0) (fun _ => ()) (fun _ => 1) (fun _ => 1)
  _ pins_killing (fun key w k => barker_move key w k) true

/-! ## C18: additive constants -/

/-- C18 (`rw_csmc`): adding constants to the log-potentials does not change the program. -/
theorem C18_rw_additive_constants {m : Type → Type} [RandM m] (isfinite : Vec d → Bool) (key : Key)
    (xstar : Fin (n + 1) → Vec d) (bstar : Fin (n + 1) → Fin (N + 1)) (Gamma0 : Vec d → ℝ)
    (Gammat : Vec d → Vec d → G → ℝ) (Gparams : Fin n → G) (ells : Fin (n + 1) → ℝ)
    (resampling : Resampling m N) (mv : AncestorMove m N) (backward : Bool) (c0 : ℝ) (c : Fin n → ℝ) :
    rw_kernel isfinite key xstar bstar (fun x => Gamma0 x + c0) (fun y x (g : G × ℝ) => Gammat y x g.1 + g.2)
        (fun t => (Gparams t, c t)) ells resampling mv backward =
      rw_kernel isfinite key xstar bstar Gamma0 Gammat Gparams ells resampling mv backward := by
  have h0 : ∀ xs : Fin (N + 1) → Vec d, (fun i => Gamma0 (xs i) + c0 - maxA fun i => Gamma0 (xs i) + c0) =
      fun i => Gamma0 (xs i) - maxA fun i => Gamma0 (xs i) := fun xs => maxA_congr_const ⟨c0, fun i => rfl⟩
  have hs : ∀ (cr : (Fin (N + 1) → ℝ) × (Fin (N + 1) → Vec d)) xs,
      (scanM (rwBody (fun y x (g : G × ℝ) => Gammat y x g.1 + g.2) resampling) cr
        (auxInputs key (fun t => (Gparams t, c t)) xs bstar) : m _) =
      scanM (rwBody Gammat resampling) cr (auxInputs key Gparams xs bstar) := by
    intro cr xs
    refine scanM_congr _ fun t cr => ?_
    unfold rwBody
    simp only [auxInputs, normalizeLog_add_const (fun i => Gammat _ _ (Gparams t)) (c t)]
  have hb : ∀ kb xs lw, (backward_sampling_pass kb (fun y x (g : G × ℝ) => Gammat y x g.1 + g.2)
      (fun t => (Gparams t, c t)) (lastA bstar) xs lw mv true) =
      backward_sampling_pass kb Gammat Gparams (lastA bstar) xs lw mv true := fun kb xs lw =>
    backward_sampling_congr kb _ xs mv true (fun t x => ⟨c t, fun y => rfl⟩) fun t => ⟨0, fun i => by simp⟩
  unfold rw_kernel rw_core
  simp only [h0, hs, hb]

/-! ## C20: the finite guard of `rw_csmc` -/

/-- C20: the guard, for values of any kind: if anything selected is non-finite, the result is exactly
`(x_star, b_star)`; otherwise nothing is changed. -/
theorem C20_guard (isfinite : X → Bool) (xstar : Fin (n + 1) → X) (bstar : Fin (n + 1) → Fin (N + 1))
    (r : KOut X N n) :
    ((∃ t, isfinite (r.xs t) = false) → (rwGuard isfinite xstar bstar r).xs = xstar ∧
      (rwGuard isfinite xstar bstar r).Bs = bstar) ∧
    ((∀ t, isfinite (r.xs t) = true) → rwGuard isfinite xstar bstar r = r) ∧
    ((∀ t, isfinite (xstar t) = true) → ∀ t, isfinite ((rwGuard isfinite xstar bstar r).xs t) = true) := by
  unfold rwGuard
  refine ⟨fun ⟨t, ht⟩ => ?_, fun h => by simp [h], fun h t => ?_⟩
  · have : ¬ ∀ t, isfinite (r.xs t) = true := fun h => by simp [h t] at ht
    simp [this]
  · by_cases hf : ∀ t, isfinite (r.xs t) = true
    · simp [hf]
    · simp [hf, h]

/-- C20: the trajectory returned by `rw_csmc.kernel` is finite if the reference is. -/
theorem C20_rw_finite (isfinite : Vec d → Bool) (key : Key) (xstar : Fin (n + 1) → Vec d)
    (hx : ∀ t, isfinite (xstar t) = true)
    (bstar : Fin (n + 1) → Fin (N + 1)) (Gamma0 : Vec d → ℝ) (Gammat : Vec d → Vec d → G → ℝ)
    (Gparams : Fin n → G) (ells : Fin (n + 1) → ℝ) (resampling : Resampling Poss N)
    (mv : AncestorMove Poss N) (backward : Bool) :
    Always (rw_kernel isfinite key xstar bstar Gamma0 Gammat Gparams ells resampling mv backward)
      (fun r => ∀ t, isfinite (r.xs t) = true) :=
  always_bind' fun r => always_pure ((C20_guard isfinite xstar bstar r).2.2 hx)

/-- The guard at work on a trajectory whose second state is not finite. -/
example : rwGuard (fun o : Option ℕ => o.isSome) (fun _ => some 3) (fun _ => (1 : Fin 4))
    { xs := fun t : Fin 2 => if t = 0 then some 5 else none, Bs := fun _ => 2, log_ws := fun _ _ => 0 } =
    { xs := fun _ => some 3, Bs := fun _ => 1, log_ws := fun _ _ => 0 } := by
  simp [rwGuard]

/-! ## C21: Particle-RWM is invariant -/

/-- C21: `rw_csmc.kernel` leaves the target invariant, for both backward passes, every conditional resampling
scheme and every ancestor move that leaves the final weights invariant (all numbers are finite). -/
theorem C21_rw_invariant (key : Key) {Gamma0 : Vec d → ℝ} {Gammat : Vec d → Vec d → G → ℝ} (Gparams : Fin n → G)
    {ells : Fin (n + 1) → ℝ} {resampling : Resampling Ex N} {mv : AncestorMove Ex N}
    (h0 : Measurable Gamma0) (h : ∀ g, Measurable fun p : Vec d × Vec d => Gammat p.1 p.2 g)
    (hells : ∀ t, 0 < ells t) (hR : ∀ key, CondResampling (fun w i j => resampling key w i j true))
    (hmv : ∀ key, MoveInvariant (fun w k => do
      let r ← mv key w k
      pure r.1)) (backward : Bool) :
    LeavesInvariant volume (pathLogDensity Gamma0 (fun t y x => Gammat y x (Gparams t)))
      (fun x b => do
        let r ← rw_kernel (fun _ => true) key x b Gamma0 Gammat Gparams ells resampling mv backward
        pure (r.xs, r.Bs)) := by
  refine (margSys_invariant (N := N) (φ0 := fun _ => 0) (φ := fun _ _ _ => 0) (s := auxStd ells)
    (Γ := fun t y x => Gammat y x (Gparams t))
    (R := auxR key resampling) h0 (fun t => h (Gparams t)) (by fun_prop) (fun t => by fun_prop) (auxStd_pos hells)
    (fun t => hR _) (hmv (auxMoveKey key n backward)) backward).congr fun x b f hf => ?_
  exact rw_kernel_eq key x b Gparams backward h0 h hells hR (fun key => (hmv key).ker) f hf

/-- C21 with killing or multinomial resampling and the Barker move. -/
theorem C21_rw_invariant_killing_barker (key : Key) {Gamma0 : Vec d → ℝ} {Gammat : Vec d → Vec d → G → ℝ}
    (Gparams : Fin n → G) {ells : Fin (n + 1) → ℝ} (h0 : Measurable Gamma0)
    (h : ∀ g, Measurable fun p : Vec d × Vec d => Gammat p.1 p.2 g) (hells : ∀ t, 0 < ells t) (backward : Bool) :
    LeavesInvariant (N := N) volume (pathLogDensity Gamma0 (fun t y x => Gammat y x (Gparams t)))
      (fun x b => do
        let r ← rw_kernel (fun _ => true) key x b Gamma0 Gammat Gparams ells
          (fun key w i j c => killing key w i j c) (fun key w k => barker_move key w k) backward
        pure (r.xs, r.Bs)) :=
  C21_rw_invariant key Gparams h0 h hells (fun key => killing_condResampling key)
    (fun key => barker_moveInvariant key) backward

theorem C21_rw_invariant_multinomial_barker (key : Key) {Gamma0 : Vec d → ℝ} {Gammat : Vec d → Vec d → G → ℝ}
    (Gparams : Fin n → G) {ells : Fin (n + 1) → ℝ} (h0 : Measurable Gamma0)
    (h : ∀ g, Measurable fun p : Vec d × Vec d => Gammat p.1 p.2 g) (hells : ∀ t, 0 < ells t) (backward : Bool) :
    LeavesInvariant (N := N) volume (pathLogDensity Gamma0 (fun t y x => Gammat y x (Gparams t)))
      (fun x b => do
        let r ← rw_kernel (fun _ => true) key x b Gamma0 Gammat Gparams ells
          (fun key w i j c => multinomial key w i j c) (fun key w k => barker_move key w k) backward
        pure (r.xs, r.Bs)) :=
  C21_rw_invariant key Gparams h0 h hells (fun key => multinomial_condResampling key)
    (fun key => barker_moveInvariant key) backward

/-- A concrete target (a random walk observed in Gaussian noise) meeting the hypotheses of C21. -/
example (y : Fin 9 → ℝ) := C21_rw_invariant_killing_barker (N := 25) (n := 9) (d := 2) []
  (Gamma0 := fun x => -(x 0 ^ 2 + x 1 ^ 2)) (Gammat := fun y x (o : ℝ) => -(x 0 - y 0) ^ 2 - (x 1 - y 1) ^ 2 - (x 0 - o) ^ 2)
  y (ells := fun t => 1 + t) (by fun_prop) (fun g => by fun_prop) (fun t => by positivity) true

/-! ## C23: Particle-MALA is invariant -/

/-- C23: `l_csmc_f.kernel` leaves the target invariant, for any step sizes `deltas` and any measurable functions
in the role of the gradients. -/
theorem C23_l_invariant (key : Key) {Gamma0 : Vec d → ℝ} {Gamma0_grad : Vec d → Vec d}
    {Gammat : Vec d → Vec d → G → ℝ} {Gammat_grad : Vec d → Vec d → G → Vec d} (Gparams : Fin n → G)
    {ells : Fin (n + 1) → ℝ} (deltas : Fin (n + 1) → ℝ) {resampling : Resampling Ex N} {mv : AncestorMove Ex N}
    (h0 : Measurable Gamma0) (h : ∀ g, Measurable fun p : Vec d × Vec d => Gammat p.1 p.2 g)
    (hg0 : Measurable Gamma0_grad) (hg : ∀ g, Measurable fun p : Vec d × Vec d => Gammat_grad p.1 p.2 g)
    (hells : ∀ t, 0 < ells t) (hR : ∀ key, CondResampling (fun w i j => resampling key w i j true))
    (hmv : ∀ key, MoveInvariant (fun w k => do
      let r ← mv key w k
      pure r.1)) (backward : Bool) :
    LeavesInvariant volume (pathLogDensity Gamma0 (fun t y x => Gammat y x (Gparams t)))
      (fun x b => do
        let r ← l_kernel key x b Gamma0 Gamma0_grad Gammat Gammat_grad Gparams ells deltas resampling mv backward
        pure (r.xs, r.Bs)) := by
  have hgt : ∀ t : Fin n, Measurable fun p : Vec d × Vec d => fun j => 0.5 * deltas (Fin.succ t) *
      Gammat_grad p.1 p.2 (Gparams t) j := fun t => by
    have := hg (Gparams t)
    fun_prop
  refine (margSys_invariant (N := N) (φ0 := fun x j => 0.5 * deltas 0 * Gamma0_grad x j)
    (φ := fun t y x j => 0.5 * deltas t.succ * Gammat_grad y x (Gparams t) j) (s := auxStd ells)
    (Γ := fun t y x => Gammat y x (Gparams t))
    (R := auxR key resampling) h0 (fun t => h (Gparams t)) (by fun_prop) hgt (auxStd_pos hells)
    (fun t => hR _) (hmv (auxMoveKey key n backward)) backward).congr fun x b f hf => ?_
  exact l_kernel_eq key x b Gparams deltas backward h0 h hg0 hg hells hR (fun key => (hmv key).ker) f hf

/-- C23 with killing resampling and the Barker move. -/
theorem C23_l_invariant_killing_barker (key : Key) {Gamma0 : Vec d → ℝ} {Gamma0_grad : Vec d → Vec d}
    {Gammat : Vec d → Vec d → G → ℝ} {Gammat_grad : Vec d → Vec d → G → Vec d} (Gparams : Fin n → G)
    {ells : Fin (n + 1) → ℝ} (deltas : Fin (n + 1) → ℝ)
    (h0 : Measurable Gamma0) (h : ∀ g, Measurable fun p : Vec d × Vec d => Gammat p.1 p.2 g)
    (hg0 : Measurable Gamma0_grad) (hg : ∀ g, Measurable fun p : Vec d × Vec d => Gammat_grad p.1 p.2 g)
    (hells : ∀ t, 0 < ells t) (backward : Bool) :
    LeavesInvariant (N := N) volume (pathLogDensity Gamma0 (fun t y x => Gammat y x (Gparams t)))
      (fun x b => do
        let r ← l_kernel key x b Gamma0 Gamma0_grad Gammat Gammat_grad Gparams ells deltas
          (fun key w i j c => killing key w i j c) (fun key w k => barker_move key w k) backward
        pure (r.xs, r.Bs)) :=
  C23_l_invariant key Gparams deltas h0 h hg0 hg hells (fun key => killing_condResampling key)
    (fun key => barker_moveInvariant key) backward

/-- C23 with multinomial resampling and the Barker move. -/
theorem C23_l_invariant_multinomial_barker (key : Key) {Gamma0 : Vec d → ℝ} {Gamma0_grad : Vec d → Vec d}
    {Gammat : Vec d → Vec d → G → ℝ} {Gammat_grad : Vec d → Vec d → G → Vec d} (Gparams : Fin n → G)
    {ells : Fin (n + 1) → ℝ} (deltas : Fin (n + 1) → ℝ)
    (h0 : Measurable Gamma0) (h : ∀ g, Measurable fun p : Vec d × Vec d => Gammat p.1 p.2 g)
    (hg0 : Measurable Gamma0_grad) (hg : ∀ g, Measurable fun p : Vec d × Vec d => Gammat_grad p.1 p.2 g)
    (hells : ∀ t, 0 < ells t) (backward : Bool) :
    LeavesInvariant (N := N) volume (pathLogDensity Gamma0 (fun t y x => Gammat y x (Gparams t)))
      (fun x b => do
        let r ← l_kernel key x b Gamma0 Gamma0_grad Gammat Gammat_grad Gparams ells deltas
          (fun key w i j c => multinomial key w i j c) (fun key w k => barker_move key w k) backward
        pure (r.xs, r.Bs)) :=
  C23_l_invariant key Gparams deltas h0 h hg0 hg hells (fun key => multinomial_condResampling key)
    (fun key => barker_moveInvariant key) backward

/-- A concrete target with its gradients meeting the hypotheses of C23. -/
example (y : Fin 9 → ℝ) := C23_l_invariant_killing_barker (N := 25) (n := 9) (d := 1) []
  (Gamma0 := fun x => -(x 0 ^ 2)) (Gamma0_grad := fun x _ => -2 * x 0)
  (Gammat := fun y x (o : ℝ) => -(x 0 - y 0) ^ 2 - (x 0 - o) ^ 2)
  (Gammat_grad := fun y x (o : ℝ) _ => -2 * (x 0 - y 0) - 2 * (x 0 - o))
  y (ells := fun t => 1 + t) (fun t => 2 + t) (by fun_prop) (fun g => by fun_prop) (by fun_prop)
  (fun g => by fun_prop) (fun t => by positivity) true

/-! ## C24: zero gradient steps -/

/-- Trajectory and indices of the output. -/
def xB {m : Type → Type} [Monad m] {X : Type} (P : m (KOut X N n)) :
    m ((Fin (n + 1) → X) × (Fin (n + 1) → Fin (N + 1))) := do
  let r ← P
  pure (r.xs, r.Bs)

theorem normalizeLog_sub_max (g : Fin (N + 1) → ℝ) : normalizeLog (fun i => g i - maxA g) = normalizeLog g := by
  have := normalizeLog_add_const g (-maxA g)
  simpa only [sub_eq_add_neg] using this

theorem rw_core_xB {m : Type → Type} [RandM m] [LawfulMonad m] (key : Key) (xstar : Fin (n + 1) → Vec d)
    (bstar : Fin (n + 1) → Fin (N + 1)) (Gamma0 : Vec d → ℝ) (Gammat : Vec d → Vec d → G → ℝ)
    (Gparams : Fin n → G) (ells : Fin (n + 1) → ℝ) (resampling : Resampling m N) (mv : AncestorMove m N)
    (backward : Bool) : xB (rw_kernel (fun _ => true) key xstar bstar Gamma0 Gammat Gparams ells resampling mv
      backward) = xB (rw_core key xstar bstar Gamma0 Gammat Gparams ells resampling mv backward) := by
  have hg : ∀ r : KOut (Vec d) N n, rwGuard (fun _ => true) xstar bstar r = r := by
    intro r
    simp [rwGuard]
  simp only [rw_kernel, hg, bind_pure]

theorem auxVars_zero (Gamma0_grad : Vec d → Vec d) (Gammat_grad : Vec d → Vec d → G → Vec d) (Gparams : Fin n → G)
    (s : Fin (n + 1) → ℝ) (x e : Fin (n + 1) → Vec d) :
    auxVars Gamma0_grad Gammat_grad Gparams (fun _ => 0) s x e = fun t j => x t j + e t j * s t := by
  funext t j
  simp [auxVars, mul_comm]

/-- C24: with `deltas = 0`, `al_csmc_f.kernel` and `rw_csmc.kernel` are the same random computation of the
trajectory and the indices, for every key and in every (lawful) interpretation of the draws. -/
theorem C24_al_eq_rw {m : Type → Type} [RandM m] [LawfulMonad m] (key : Key) (xstar : Fin (n + 1) → Vec d)
    (bstar : Fin (n + 1) → Fin (N + 1)) (Gamma0 : Vec d → ℝ) (Gamma0_grad : Vec d → Vec d)
    (Gammat : Vec d → Vec d → G → ℝ) (Gammat_grad : Vec d → Vec d → G → Vec d)
    (Gparams : Fin n → G) (ells : Fin (n + 1) → ℝ) (resampling : Resampling m N) (mv : AncestorMove m N)
    (backward : Bool) :
    xB (al_kernel key xstar bstar Gamma0 Gamma0_grad Gammat Gammat_grad Gparams ells (fun _ => 0) resampling mv
      backward) =
    xB (rw_kernel (fun _ => true) key xstar bstar Gamma0 Gammat Gparams ells resampling mv backward) := by
  rw [rw_core_xB]
  unfold xB al_kernel rw_core
  simp only [bind_assoc, auxVars_zero]
  refine congrArg (Bind.bind _) ?_
  funext eps_aux
  refine congrArg (Bind.bind _) ?_
  funext eps_xs
  set u : Fin (n + 1) → Vec d := fun t j => xstar t j + eps_aux t j * auxStd ells t
  set xs := auxParticles u (auxStd ells) eps_xs bstar xstar
  have hG0 : ∀ x (ell : ℝ) (u : Vec d), alG0Tilde Gamma0 Gamma0_grad x 0 ell u = Gamma0 x := by
    intro x ell u
    simp only [alG0Tilde, alGamma0Tilde, mul_zero, zero_mul, sub_zero, sumSq]
    have : ∀ j, (u j - x j) ^ 2 = (x j - u j) ^ 2 := fun j => by ring
    simp only [this]
    ring
  have hGt : ∀ y x ell u g, alGtTilde Gammat Gammat_grad y x ⟨0, ell, u, g⟩ = Gammat y x g := by
    intro y x ell u g
    simp only [alGtTilde, alGammatTilde, mul_zero, zero_mul, sub_zero, sumSq]
    have : ∀ j, (u j - x j) ^ 2 = (x j - u j) ^ 2 := fun j => by ring
    simp only [this]
    ring
  have h := (aux_pass_congr bstar xs (alBody Gammat Gammat_grad resampling) (rwBody Gammat resampling)
    (auxInputs key (fun t => (⟨0, ells t.succ, u t.succ, Gparams t⟩ : AlParams G d)) xs bstar)
    (auxInputs key Gparams xs bstar) (by
      intro t c
      unfold alBody rwBody
      simp only [bind_assoc, pure_bind, auxInputs, hGt]
      refine congrArg (Bind.bind _) ?_
      funext A
      have hw : ∀ g : Fin (N + 1) → ℝ, normalizeW (fun i => g i - maxA g) = fun i => Real.exp (normalizeLog g i) :=
        fun g => by funext i; rw [normalizeW, normalizeLog_sub_max]
      rw [normalizeLog_sub_max, hw])
    (lw0 := fun i => alG0Tilde Gamma0 Gamma0_grad (xs 0 i) 0 (ells 0) (u 0) -
      maxA fun i => alG0Tilde Gamma0 Gamma0_grad (xs 0 i) 0 (ells 0) (u 0))
    (lw0' := fun i => Gamma0 (xs 0 i) - maxA fun i => Gamma0 (xs 0 i)) ⟨0, fun i => by simp only [hG0, add_zero]⟩
    (splitKey key (n + 3) 2) (Gam := alGammatTilde Gammat Gammat_grad)
    (p := fun t => (⟨0, ells t.succ, u t.succ, Gparams t⟩ : AlParams G d)) (Gam' := Gammat) (p' := Gparams)
    (fun t x => ⟨sumSq (fun j => u t.succ j - x j) / ells t.succ, fun y => by
      simp only [alGammatTilde, mul_zero, zero_mul, sub_zero]
      ring⟩) mv backward).symm
  cases backward
  · simp only [Bool.false_eq_true, if_false, bind_assoc, pure_bind] at h ⊢
    exact h
  · simp only [if_true, bind_assoc, pure_bind] at h ⊢
    exact h

/-- C24: with `deltas = 0`, `l_csmc_f.kernel` and `rw_csmc.kernel` are the same random computation of the
trajectory and the indices. -/
theorem C24_l_eq_rw {m : Type → Type} [RandM m] [LawfulMonad m] (key : Key) (xstar : Fin (n + 1) → Vec d)
    (bstar : Fin (n + 1) → Fin (N + 1)) (Gamma0 : Vec d → ℝ) (Gamma0_grad : Vec d → Vec d)
    (Gammat : Vec d → Vec d → G → ℝ) (Gammat_grad : Vec d → Vec d → G → Vec d)
    (Gparams : Fin n → G) (ells : Fin (n + 1) → ℝ) (resampling : Resampling m N) (mv : AncestorMove m N)
    (backward : Bool) :
    xB (l_kernel key xstar bstar Gamma0 Gamma0_grad Gammat Gammat_grad Gparams ells (fun _ => 0) resampling mv
      backward) =
    xB (rw_kernel (fun _ => true) key xstar bstar Gamma0 Gammat Gparams ells resampling mv backward) := by
  rw [rw_core_xB]
  unfold xB l_kernel rw_core
  simp only [bind_assoc, auxVars_zero]
  refine congrArg (Bind.bind _) ?_
  funext eps_aux
  refine congrArg (Bind.bind _) ?_
  funext eps_xs
  set u : Fin (n + 1) → Vec d := fun t j => xstar t j + eps_aux t j * auxStd ells t
  set xs := auxParticles u (auxStd ells) eps_xs bstar xstar
  have hG0 : ∀ x (ell : ℝ) (u : Vec d), lGamma0Tilde N Gamma0 Gamma0_grad x u 0 ell = Gamma0 x := by
    intro x ell u
    simp [lGamma0Tilde, lHphi, sumSq]
  have hGt : ∀ y x ell u g, lGammatTilde N Gammat Gammat_grad y x ⟨u, 0, ell, g⟩ = Gammat y x g := by
    intro y x ell u g
    simp [lGammatTilde, lHphi, sumSq]
  have h := (aux_pass_congr bstar xs (lBody Gammat Gammat_grad resampling) (rwBody Gammat resampling)
    (auxInputs key (fun t => (⟨meanP (xs t.succ), 0, ells t.succ, Gparams t⟩ : LParams G d)) xs bstar)
    (auxInputs key Gparams xs bstar) (by
      intro t c
      unfold lBody rwBody
      simp only [bind_assoc, pure_bind, auxInputs, hGt]
      refine congrArg (Bind.bind _) ?_
      funext A
      have hw : ∀ g : Fin (N + 1) → ℝ, normalizeW (fun i => g i - maxA g) = fun i => Real.exp (normalizeLog g i) :=
        fun g => by funext i; rw [normalizeW, normalizeLog_sub_max]
      rw [normalizeLog_sub_max, hw])
    (lw0 := fun i => lGamma0Tilde N Gamma0 Gamma0_grad (xs 0 i) (meanP (xs 0)) 0 (ells 0) -
      maxA fun i => lGamma0Tilde N Gamma0 Gamma0_grad (xs 0 i) (meanP (xs 0)) 0 (ells 0))
    (lw0' := fun i => Gamma0 (xs 0 i) - maxA fun i => Gamma0 (xs 0 i)) ⟨0, fun i => by simp only [hG0, add_zero]⟩
    (splitKey key (n + 3) 2) (Gam := Gammat) (p := Gparams) (Gam' := Gammat) (p' := Gparams)
    (fun t x => ⟨0, fun y => by simp⟩) mv backward).symm
  cases backward
  · simp only [Bool.false_eq_true, if_false, bind_assoc, pure_bind] at h ⊢
    exact h
  · simp only [if_true, bind_assoc, pure_bind] at h ⊢
    exact h

end Verif.Props
