import Verif.Lemmas.Keys
import Verif.Model.LCsmcF
import Verif.Model.MultiTry
import Verif.Model.Mcmc

/-!
# C52: every PRNG key is consumed at most once
-/

namespace Verif.Props
open Verif Verif.Model Verif.Spec

variable {X P G : Type} {N n d T : ℕ}

/-- Sets of child indices used below. -/
theorem within_child {α : Type} {Q : Poss α} {key : Key} {num : ℕ} {i : Fin num}
    (h : Within Q {splitKey key num i}) : Within Q (splitSet key {i.1}) := h.to_splitSet

/-- **C52** (`multinomial`). -/
theorem C52_multinomial (key : Key) (w : Fin (N + 1) → ℝ) (i j : Fin (N + 1)) (c : Bool) :
    FreshKeys key (multinomial key w i j c) := by
  rw [within_iff]
  cases c <;> exact (within_choices _ _ _).bind_pure

/-- **C52** (`killing`). -/
theorem C52_killing (key : Key) (w : Fin (N + 1) → ℝ) (i j : Fin (N + 1)) (c : Bool) :
    FreshKeys key (killing key w i j c) := by
  rw [within_iff]
  refine Within.of_splitSet (I := {0} ∪ ({1} ∪ {2})) ?_
  refine (within_child (within_uniforms _ _)).bind_split (fun us => ?_) (by simp)
  refine (within_child (within_choices _ _ _)).bind_split (fun repl => ?_) (by simp)
  cases c
  · exact within_pure _ _
  · exact (within_child (within_choice _ _)).bind_pure

/-- **C52** (`force_move`). -/
theorem C52_force_move (key : Key) (w : Fin (N + 1) → ℝ) (k : Fin (N + 1)) :
    FreshKeys key (force_move key w k) := by
  rw [within_iff]
  refine Within.of_splitSet (I := {0} ∪ {1}) ?_
  refine (within_child (within_choice _ _)).bind_split (fun i => ?_) (by simp)
  exact (within_child (within_uniform _)).bind_pure

/-- **C52** (`barker_move`). -/
theorem C52_barker_move (key : Key) (w : Fin (N + 1) → ℝ) (k : Fin (N + 1)) :
    FreshKeys key (barker_move key w k) := by
  rw [within_iff]
  exact (within_choice _ _).bind_pure

/-- A resampling function that respects the discipline. -/
def FreshResampling (resampling : Resampling Poss N) : Prop :=
  ∀ key w i j c, FreshKeys key (resampling key w i j c)

/-- An ancestor move that respects the discipline. -/
def FreshMove (move : AncestorMove Poss N) : Prop := ∀ key w k, FreshKeys key (move key w k)

theorem backward_sampling_within (key : Key) (Gamma_func : X → X → G → ℝ)
    (Gparams : Fin n → G) (b_star_T : Fin (N + 1)) (xs : Fin (n + 1) → Fin (N + 1) → X)
    (log_ws : Fin (n + 1) → Fin (N + 1) → ℝ) {move : AncestorMove Poss N} (hm : FreshMove move)
    (conditional : Bool) :
    Within (backward_sampling_pass key Gamma_func Gparams b_star_T xs log_ws move conditional) {key} := by
  refine Within.of_splitSet (I := {n} ∪ Set.range fun t : Fin n => t.1) ?_
  have hdisj : ∀ i ∈ ({n} : Set ℕ), i ∉ Set.range fun t : Fin n => t.1 := by
    rintro i hi ⟨t, ht⟩
    rw [Set.mem_singleton_iff.mp hi] at ht
    exact absurd t.2 (by simp [ht])
  cases conditional
  · refine Within.bind_split (within_child (i := Fin.last n) (within_iff.mp (C52_barker_move _ _ _)))
      (fun r => Within.bind_pure ?_) hdisj
    exact within_scanM_split _ _ key _ Fin.val_injective fun t c => (within_choice _ _).bind_pure
  · refine Within.bind_split (within_child (i := Fin.last n) (within_iff.mp (hm _ _ _)))
      (fun r => Within.bind_pure ?_) hdisj
    exact within_scanM_split _ _ key _ Fin.val_injective fun t c => (within_choice _ _).bind_pure

theorem backward_scanning_within (key : Key) (As : Fin n → Fin (N + 1) → Fin (N + 1))
    (b_star_T : Fin (N + 1)) (xs : Fin (n + 1) → Fin (N + 1) → X) (log_w_T : Fin (N + 1) → ℝ)
    {move : AncestorMove Poss N} (hm : FreshMove move) :
    Within (backward_scanning_pass key As b_star_T xs log_w_T move) {key} :=
  (within_iff.mp (hm _ _ _)).bind_pure

/-- **C52** (`csmc.kernel`, conditional or not, both backward passes). -/
theorem C52_csmc (key : Key) (xstar : Fin (n + 1) → X) (bstar : Fin (n + 1) → Fin (N + 1))
    (M : FK Poss X P G N) (Mparams : Fin n → P) (Gparams : Fin n → G) {resampling : Resampling Poss N}
    {move : AncestorMove Poss N} (hM0 : ∀ key, FreshKeys key (M.M0_rvs key))
    (hMt : ∀ key x p, FreshKeys key (M.Mt_rvs key x p)) (hr : FreshResampling resampling) (hm : FreshMove move)
    (backward conditional : Bool) :
    FreshKeys key (csmc_kernel key xstar bstar M Mparams Gparams resampling move backward conditional) := by
  rw [within_iff]
  refine Within.of_splitSet (I := {0} ∪ ({1} ∪ {2})) ?_
  have hfwd : (csmc_kernel key xstar bstar M Mparams Gparams resampling move backward conditional) =
      (M.M0_rvs (splitKey key 3 0) >>= fun x0 =>
        let x0 := if conditional then atSet x0 (bstar 0) (xstar 0) else x0
        let log_w0 : Fin (N + 1) → ℝ := fun i => M.Gamma0 (x0 i) - M.M0_logpdf x0 i
        let log_w0 := normalizeLog log_w0
        let w0 : Fin (N + 1) → ℝ := fun i => Real.exp (log_w0 i)
        scanM (fwdBody M resampling conditional) (w0, x0)
          (fwdInputs (splitKey key 3 1) xstar bstar Mparams Gparams) >>= fun r =>
        let F : FwdOut X N n := { As := fun t => (r.2 t).2.1
                                  key_backward := splitKey key 3 2
                                  log_ws := insert0 log_w0 (fun t => (r.2 t).1)
                                  xs := insert0 x0 (fun t => (r.2 t).2.2) }
        (if backward then
          backward_sampling_pass F.key_backward M.Gammat Gparams (lastA bstar) F.xs F.log_ws move conditional
        else
          backward_scanning_pass F.key_backward F.As (lastA bstar) F.xs (lastA F.log_ws) move) >>= fun r =>
        pure { xs := r.1, Bs := r.2, log_ws := F.log_ws }) := by
    cases backward <;> simp only [csmc_kernel, forward_pass, bind_assoc, pure_bind] <;> rfl
  rw [hfwd]
  refine (within_child (within_iff.mp (hM0 _))).bind_split (fun x0 => ?_) (by simp)
  refine Within.bind_split ?_ (fun r => ?_) (by simp)
  · refine within_child (num := 3) (i := 1) ?_
    refine Within.of_splitSet (I := Set.range fun t : Fin n => t.1) ?_
    refine within_scanM_split _ _ _ _ Fin.val_injective fun t c => ?_
    refine Within.of_splitSet (I := {1} ∪ {0}) ?_
    refine (within_child (num := 2) (i := 1) (within_iff.mp (hr _ _ _ _ _))).bind_split (fun A => ?_) (by simp)
    exact (within_child (num := 2) (i := 0) (within_iff.mp (hMt _ _ _))).bind_pure
  · refine Within.bind_pure (within_ite ?_ ?_)
    · exact within_child (num := 3) (i := 2) (backward_sampling_within _ _ _ _ _ _ hm _)
    · exact within_child (num := 3) (i := 2) (backward_scanning_within _ _ _ _ _ hm)

/-- The backward step of the kernels whose particles are drawn in advance. -/
theorem backward_within (key : Key) (Gamma_func : X → X → G → ℝ) (Gparams : Fin n → G) (b : Fin (N + 1))
    (xs : Fin (n + 1) → Fin (N + 1) → X) (log_ws : Fin (n + 1) → Fin (N + 1) → ℝ)
    (As : Fin n → Fin (N + 1) → Fin (N + 1)) {move : AncestorMove Poss N} (hm : FreshMove move) (backward : Bool) :
    Within (if backward then backward_sampling_pass key Gamma_func Gparams b xs log_ws move true
      else backward_scanning_pass key As b xs (lastA log_ws) move) {key} :=
  within_ite (backward_sampling_within _ _ _ _ _ _ hm _) (backward_scanning_within _ _ _ _ _ hm)

theorem keysResampling_eq (key : Key) (n : ℕ) (t : Fin n) : keysResampling key n t = key.child (t.1 + 3) := rfl

/-- The four groups of children of the key used by the kernels whose particles are drawn in advance. -/
theorem aux_within {α β γ δ : Type} {key : Key} {P1 : Poss α} {P2 : α → Poss β} {P3 : α → β → Poss γ}
    {P4 : α → β → γ → Poss δ} (h1 : Within P1 {splitKey key (n + 3) 1})
    (h2 : ∀ a, Within (P2 a) {splitKey key (n + 3) 0})
    (h3 : ∀ a b, Within (P3 a b) (splitSet key (Set.range fun t : Fin n => t.1 + 3)))
    (h4 : ∀ a b c, Within (P4 a b c) {splitKey key (n + 3) 2}) :
    Within (P1 >>= fun a => P2 a >>= fun b => P3 a b >>= fun c => P4 a b c) {key} := by
  have h1' : Within P1 (splitSet key {1}) := h1.to_splitSet
  have h2' : ∀ a, Within (P2 a) (splitSet key {0}) := fun a => (h2 a).to_splitSet
  have e2 : ((2 : Fin (n + 3)) : ℕ) = 2 := by
    show 2 % (n + 3) = 2
    exact Nat.mod_eq_of_lt (by omega)
  have h4' : ∀ a b c, Within (P4 a b c) (splitSet key {2}) := fun a b c => by
    have := (h4 a b c).to_splitSet
    rwa [e2] at this
  refine Within.of_splitSet (I := {1} ∪ ({0} ∪ ((Set.range fun t : Fin n => t.1 + 3) ∪ {2}))) ?_
  refine h1'.bind_split (fun a => (h2' a).bind_split (fun b => (h3 a b).bind_split (fun c => h4' a b c) ?_) ?_) ?_
  · rintro _ ⟨t, rfl⟩ h
    have h' : t.1 + 3 = 2 := Set.mem_singleton_iff.mp h
    omega
  · intro i hi h
    rw [Set.mem_singleton_iff.mp hi] at h
    rcases h with ⟨t, ht⟩ | h
    · simp at ht
    · simp at h
  · intro i hi h
    rw [Set.mem_singleton_iff.mp hi] at h
    rcases h with h | ⟨t, ht⟩ | h
    · simp at h
    · simp at ht
    · simp at h

/-- **C52** (`rw_csmc.kernel`). -/
theorem C52_rw (isfinite : Vec d → Bool) (key : Key) (xstar : Fin (n + 1) → Vec d) (bstar : Fin (n + 1) → Fin (N + 1))
    (Gamma0 : Vec d → ℝ) (Gammat : Vec d → Vec d → G → ℝ) (Gparams : Fin n → G) (ells : Fin (n + 1) → ℝ)
    {resampling : Resampling Poss N} {move : AncestorMove Poss N} (hr : FreshResampling resampling)
    (hm : FreshMove move) (backward : Bool) :
    FreshKeys key (rw_kernel isfinite key xstar bstar Gamma0 Gammat Gparams ells resampling move backward) := by
  rw [within_iff]
  refine Within.bind_pure ?_
  refine aux_within (within_normal2 _ _ _) (fun _ => within_normal3 _ _ _ _) (fun _ _ => ?_) (fun _ _ _ => ?_)
  · exact within_scanM_split _ _ key _ (fun t t' h => Fin.ext (by simpa using h)) fun t c =>
      (within_iff.mp (hr _ _ _ _ _)).bind_pure
  · cases backward
    · exact (backward_scanning_within _ _ _ _ _ hm).bind_pure
    · exact (backward_sampling_within _ _ _ _ _ _ hm _).bind_pure

/-- **C52** (`al_csmc_f.kernel`). -/
theorem C52_al (key : Key) (xstar : Fin (n + 1) → Vec d) (bstar : Fin (n + 1) → Fin (N + 1))
    (Gamma0 : Vec d → ℝ) (Gamma0_grad : Vec d → Vec d) (Gammat : Vec d → Vec d → G → ℝ)
    (Gammat_grad : Vec d → Vec d → G → Vec d) (Gparams : Fin n → G) (ells deltas : Fin (n + 1) → ℝ)
    {resampling : Resampling Poss N} {move : AncestorMove Poss N} (hr : FreshResampling resampling)
    (hm : FreshMove move) (backward : Bool) :
    FreshKeys key (al_kernel key xstar bstar Gamma0 Gamma0_grad Gammat Gammat_grad Gparams ells deltas resampling
      move backward) := by
  rw [within_iff]
  refine aux_within (within_normal2 _ _ _) (fun _ => within_normal3 _ _ _ _) (fun _ _ => ?_) (fun _ _ _ => ?_)
  · exact within_scanM_split _ _ key _ (fun t t' h => Fin.ext (by simpa using h)) fun t c =>
      (within_iff.mp (hr _ _ _ _ _)).bind_pure
  · cases backward
    · exact (backward_scanning_within _ _ _ _ _ hm).bind_pure
    · exact (backward_sampling_within _ _ _ _ _ _ hm _).bind_pure

/-- **C52** (`l_csmc_f.kernel`). -/
theorem C52_l (key : Key) (xstar : Fin (n + 1) → Vec d) (bstar : Fin (n + 1) → Fin (N + 1))
    (Gamma0 : Vec d → ℝ) (Gamma0_grad : Vec d → Vec d) (Gammat : Vec d → Vec d → G → ℝ)
    (Gammat_grad : Vec d → Vec d → G → Vec d) (Gparams : Fin n → G) (ells deltas : Fin (n + 1) → ℝ)
    {resampling : Resampling Poss N} {move : AncestorMove Poss N} (hr : FreshResampling resampling)
    (hm : FreshMove move) (backward : Bool) :
    FreshKeys key (l_kernel key xstar bstar Gamma0 Gamma0_grad Gammat Gammat_grad Gparams ells deltas resampling
      move backward) := by
  rw [within_iff]
  refine aux_within (within_normal2 _ _ _) (fun _ => within_normal3 _ _ _ _) (fun _ _ => ?_) (fun _ _ _ => ?_)
  · exact within_scanM_split _ _ key _ (fun t t' h => Fin.ext (by simpa using h)) fun t c =>
      (within_iff.mp (hr _ _ _ _ _)).bind_pure
  · cases backward
    · exact (backward_scanning_within _ _ _ _ _ hm).bind_pure
    · exact (backward_sampling_within _ _ _ _ _ _ hm _).bind_pure

/-! ## Multi-try kernels -/

theorem selectVG_within (key : Key) (lw : Fin (N + 1) → ℝ) (samples : Fin (N + 1) → Traj T d)
    (vals : Fin (N + 1) → ℝ) (grads : Fin (N + 1) → Traj T d) :
    Within (selectVG key lw samples vals grads) {key} :=
  (within_iff.mp (C52_force_move _ _ _)).bind_pure

/-- **C52** (`mala.kernel`). -/
theorem C52_mala (key : Key) (s : VGState T d) (delta : ℝ) (log_pdf : Traj T d → ℝ)
    (grad : Traj T d → Traj T d) (N : ℕ) (auxiliary : Bool) :
    FreshKeys key (mala_kernel key s delta log_pdf grad N auxiliary) := by
  rw [within_iff]
  refine Within.of_splitSet (I := {2} ∪ ({0} ∪ {1})) ?_
  refine (within_child (num := 3) (i := 2) (within_normal2 _ _ _)).bind_split (fun _ => ?_) (by simp)
  refine (within_child (num := 3) (i := 0) (within_normal3 _ _ _ _)).bind_split (fun _ => ?_) (by simp)
  exact within_child (num := 3) (i := 1) (selectVG_within _ _ _ _ _)

/-- **C52** (the kernel of `tp.py`). -/
theorem C52_tp (key : Key) (s : VGState (n + 1) d) (delta : ℝ) (D : Dyn n d) (log_pdf : Traj (n + 1) d → ℝ)
    (grad : Traj (n + 1) d → Traj (n + 1) d) (N : ℕ) :
    FreshKeys key (tp_kernel key s delta D log_pdf grad N) := by
  rw [within_iff]
  refine Within.of_splitSet (I := {2} ∪ ({0} ∪ {1})) ?_
  refine (within_child (num := 3) (i := 2) (within_normal2 _ _ _)).bind_split (fun _ => ?_) (by simp)
  refine (within_child (num := 3) (i := 0) (within_normal3 _ _ _ _).bind_pure).bind_split (fun _ => ?_) (by simp)
  exact within_child (num := 3) (i := 1) (selectVG_within _ _ _ _ _)

/-- **C52** (the kernel of `imh.py`). -/
theorem C52_imh (key : Key) (s : Traj (n + 1) d × ℝ) (D : Dyn n d) (log_pdf : Traj (n + 1) d → ℝ) (N : ℕ) :
    FreshKeys key (imh_kernel key s D log_pdf N) := by
  rw [within_iff]
  refine Within.of_splitSet (I := {0} ∪ {1}) ?_
  refine (within_child (num := 3) (i := 0) (within_normal3 _ _ _ _).bind_pure).bind_split (fun _ => ?_) (by simp)
  exact (within_child (num := 3) (i := 1) (within_iff.mp (C52_force_move _ _ _))).bind_pure

/-! ## Drivers -/

section drivers
variable {B S W : Type} [DecidableEq B]

theorem stepInputs_within {C O : Type} (key : Key) (n_steps : ℕ) (c : C) {body : C → ℕ × Key → Poss (C × O)}
    (hb : ∀ c i key, Within (body c (i, key)) {key}) : Within (scanM body c (stepInputs key n_steps)) {key} :=
  (within_scanM_split c _ key _ Fin.val_injective fun _ c => hb c _ _).of_splitSet

/-- **C52** (`mcmc_utils.delta_adaptation_routine`). -/
theorem C52_adaptation (key : Key) (init_xs : Fin T → X) (init_bs : Fin T → B)
    (kernel : Key → (Fin T → X) × (Fin T → B) → (Fin T → ℝ) → Poss ((Fin T → X) × (Fin T → B)))
    (hk : ∀ key s δ, FreshKeys key (kernel key s δ)) (cfg : AdaptCfg) (W : ℕ) (deltas : Fin T → ℝ) (n_steps : ℕ) :
    FreshKeys key (delta_adaptation_routine key init_xs init_bs kernel cfg W deltas n_steps) := by
  rw [within_iff]
  exact (stepInputs_within key n_steps _ fun c i key => (within_iff.mp (hk _ _ _)).bind_pure).bind_pure

/-- **C52** (`t_atp_csmc_f.delta_adaptation_routine`). -/
theorem C52_t_adaptation (key : Key) (init_xs : Fin T → X) (init_bs : Fin T → B)
    (kernel : Key → (Fin T → X) × (Fin T → B) → (Fin T → ℝ) → Poss ((Fin T → X) × (Fin T → B)))
    (hk : ∀ key s δ, FreshKeys key (kernel key s δ)) (cfg : AdaptCfg) (stat : (Fin T → Option ℝ) → Option ℝ)
    (W : ℕ) (deltas : Fin T → ℝ) (n_steps : ℕ) :
    FreshKeys key (t_delta_adaptation_routine key init_xs init_bs kernel cfg stat W deltas n_steps) := by
  rw [within_iff]
  exact (stepInputs_within key n_steps _ fun c i key => (within_iff.mp (hk _ _ _)).bind_pure).bind_pure

/-- **C52** (`tp.delta_adaptation_routine`). -/
theorem C52_tp_adaptation (key : Key) (init : S) (kernel : Key → S → ℝ → Poss (S × Bool))
    (hk : ∀ key s δ, FreshKeys key (kernel key s δ)) (cfg : AdaptCfg) (W : ℕ) (delta : ℝ) (n_steps : ℕ) :
    FreshKeys key (tp_delta_adaptation_routine key init kernel cfg W delta n_steps) := by
  rw [within_iff]
  exact (stepInputs_within key n_steps _ fun c i key => (within_iff.mp (hk _ _ _)).bind_pure).bind_pure

/-- **C52** (`mcmc_utils.sampling_routine`). -/
theorem C52_sampling (key : Key) (init_xs : Fin T → X) (init_bs : Fin T → B)
    (kernel : Key → (Fin T → X) × (Fin T → B) → Poss ((Fin T → X) × (Fin T → B)))
    (hk : ∀ key s, FreshKeys key (kernel key s)) (n_steps g : ℕ) :
    FreshKeys key (sampling_routine key init_xs init_bs kernel n_steps g) ∧
    FreshKeys key (sampling_routine_last key init_xs init_bs kernel n_steps) := by
  rw [within_iff, within_iff]
  exact ⟨(stepInputs_within key n_steps _ fun c i key => (within_iff.mp (hk _ _)).bind_pure).bind_pure,
    (stepInputs_within key n_steps _ fun c i key => (within_iff.mp (hk _ _)).bind_pure.bind_pure).bind_pure⟩

/-- **C52** (`tp.sampling_routine`). -/
theorem C52_tp_sampling (key : Key) (init : X × S) (kernel : Key → X × S → Poss ((X × S) × Bool))
    (hk : ∀ key s, FreshKeys key (kernel key s)) (n_steps g : ℕ) :
    FreshKeys key (tp_sampling_routine key init kernel n_steps g) ∧
    FreshKeys key (tp_sampling_routine_last key init kernel n_steps) := by
  rw [within_iff, within_iff]
  exact ⟨(stepInputs_within key n_steps _ fun c i key => (within_iff.mp (hk _ _)).bind_pure).bind_pure,
    (stepInputs_within key n_steps _ fun c i key => (within_iff.mp (hk _ _)).bind_pure.bind_pure).bind_pure⟩

end drivers

theorem killing_fresh : FreshResampling (N := N) (fun key w i j c => killing key w i j c) :=
  fun key w i j c => C52_killing key w i j c
theorem multinomial_fresh : FreshResampling (N := N) (fun key w i j c => multinomial key w i j c) :=
  fun key w i j c => C52_multinomial key w i j c
theorem force_fresh : FreshMove (N := N) (fun key w k => force_move key w k) := fun key w k => C52_force_move key w k
theorem barker_fresh : FreshMove (N := N) (fun key w k => barker_move key w k) :=
  fun key w k => C52_barker_move key w k

/-- 1000 iterations of Particle-MALA with killing resampling and the forced move. -/
example (xs : Fin 8 → Vec 2) (Gammat : Vec 2 → Vec 2 → Vec 2 → ℝ) (g : Vec 2 → Vec 2 → Vec 2 → Vec 2)
    (y : Fin 7 → Vec 2) :=
  C52_sampling (B := Fin 26) [] xs (fun _ => 0) (fun key s => (do
      let r ← l_kernel key s.1 s.2 (fun _ => 0) (fun _ => 0) Gammat g y (fun _ => 1) (fun _ => 1)
        (fun key w i j c => killing key w i j c) (fun key w k => force_move key w k) true
      pure (r.xs, r.Bs)))
    (fun key s => within_iff.mpr (within_iff.mp (C52_l key s.1 s.2 _ _ _ _ _ _ _ killing_fresh force_fresh
      true)).bind_pure) 1000 1

/-- The discipline is not trivially true: drawing twice with one key violates it. -/
example : ¬ FreshKeys [] (do
    let u ← uniform []
    let v ← uniform []
    pure (u, v) : Poss (ℝ × ℝ)) := by
  intro h
  have := h (0, 0) [[], []] ⟨0, [[]], [[]], ⟨⟨le_rfl, one_pos⟩, rfl⟩, ⟨0, [[]], [], ⟨⟨le_rfl, one_pos⟩, rfl⟩,
    ⟨rfl, rfl⟩, rfl⟩, rfl⟩
  exact (List.rel_of_pairwise_cons this.2 (List.mem_singleton.mpr rfl)).1 List.suffix_rfl

end Verif.Props
