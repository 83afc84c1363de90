import Verif.Lemmas.SlicedKernels
import Verif.Lemmas.SlicedUse
import Verif.Lemmas.MovePairs
import Verif.Props.Forced

/-!
# C76, C77, C78: two successive states of a stationary chain

C76: without backward sampling, every conditional SMC kernel with the Barker move is reversible (and with `force_move` up
to `6e-12`). C77: the Metropolised Gibbs move that `force_move` approximates makes any distance between successive states
larger on average than the Barker move. C78: with the Barker move successive states are nonnegatively correlated.
-/

open MeasureTheory
open scoped ENNReal

namespace Verif.Props
open Verif Verif.Model Verif.Spec Matrix

variable {N n d : ℕ}

/-- The Barker move as last move. -/
noncomputable def barkered : AncestorMove Ex N := fun key w k => barker_move key w k

/-- The kernels `K backward mv` without backward sampling are reversible for every reversible last move (the Barker move,
the Metropolised Gibbs move), and up to `6e-12` for `force_move`. -/
structure ReversibleRuns {X : Type} [MeasurableSpace X] (lam : Measure X) (logpi : (Fin (n + 1) → X) → ℝ)
    (K : AncestorMove Ex N → (Fin (n + 1) → X) → (Fin (n + 1) → Fin (N + 1)) → Ex (PathState X N n)) : Prop where
  /-- reversible last moves -/
  of_move : ∀ mv : AncestorMove Ex N, (∀ key, MoveReversible (moveIndex mv key)) → ReversibleFor lam logpi (K mv)
  /-- the Barker move -/
  barker : ReversibleFor lam logpi (K barkered)
  /-- `force_move` -/
  force : NearReversibleFor (2 * forceErr) lam logpi (K forced)

/-- Any distance between successive states (between their final values, if there is backward sampling) is on average
larger with the Metropolised Gibbs move than with the Barker move; with `force_move` this holds up to `1e-12`. -/
structure MoveOrder {X : Type} [MeasurableSpace X] (lam : Measure X) (logpi : (Fin (n + 1) → X) → ℝ) (backward : Bool)
    (K : AncestorMove Ex N → (Fin (n + 1) → X) → (Fin (n + 1) → Fin (N + 1)) → Ex (PathState X N n)) : Prop where
  /-- whole states, exact move -/
  exact_all : backward = false → JumpsLess lam logpi (K barkered) (K exactMove)
  /-- final values, exact move -/
  exact_last : LastJumpsLess lam logpi (K barkered) (K exactMove)
  /-- whole states, `force_move` -/
  force_all : backward = false → JumpsNearlyLess (ENNReal.ofReal 1e-12) lam logpi (K barkered) (K forced)
  /-- final values, `force_move` -/
  force_last : LastJumpsNearlyLess (ENNReal.ofReal 1e-12) lam logpi (K barkered) (K forced)

/-- Successive states (final values, if there is backward sampling) are nonnegatively correlated with the Barker move. -/
structure PositiveRuns {X : Type} [MeasurableSpace X] (lam : Measure X) (logpi : (Fin (n + 1) → X) → ℝ) (backward : Bool)
    (K : AncestorMove Ex N → (Fin (n + 1) → X) → (Fin (n + 1) → Fin (N + 1)) → Ex (PathState X N n)) : Prop where
  /-- whole states -/
  all : backward = false → NonnegAutocov lam logpi (K barkered)
  /-- final values -/
  last : LastNonnegAutocov lam logpi (K barkered)

section generic
variable {X : Type} [MeasurableSpace X] {lam : Measure X} {logpi : (Fin (n + 1) → X) → ℝ} {backward : Bool}
    {K : AncestorMove Ex N → (Fin (n + 1) → X) → (Fin (n + 1) → Fin (N + 1)) → Ex (PathState X N n)}

theorem reversibleRuns_of (h : Sliced lam logpi K false) : ReversibleRuns lam logpi K where
  of_move _ hm := h.reversible hm
  barker := h.reversible fun key => barker_reversible key
  force := h.near_reversible (mv' := exactMove) (fun key => force_moveKer key) (fun _ => liu_reversible)
    fun key _ hw k => force_near_liu key hw k

theorem moveOrder_of (h : Sliced lam logpi K backward) : MoveOrder lam logpi backward K := by
  have hB : ∀ key, MoveKer (moveIndex (barkered (N := N)) key) := fun key => (barker_moveInvariant key).ker
  have hF : ∀ key, MoveKer (moveIndex (forced (N := N)) key) := fun key => force_moveKer key
  have hE : ∀ key, MoveKer (moveIndex (exactMove (N := N)) key) := fun _ => liuMove_ker
  have e := h.peskun hB hE fun key => barker_le_liu key
  have f := h.near_peskun hB hF fun key => barker_le_force key key
  exact ⟨e.1, e.2, f.1, f.2⟩

theorem positiveRuns_of (h : Sliced lam logpi K backward) : PositiveRuns lam logpi backward K := by
  have a := h.autocov (mv := barkered) (fun key => (barker_moveInvariant key).ker)
    fun key w hw k g => barker_law key hw k g
  exact ⟨a.1, a.2⟩

end generic

/-! ## The last moves -/

/-- **C76** (the moves): the Barker move and the Metropolised Gibbs move are reversible, and `force_move` is within
`3e-12` of the second one. -/
theorem C76_moves (key : Key) : MoveReversible (moveIndex (barkered (N := N)) key) ∧
    MoveReversible (moveIndex (exactMove (N := N)) key) ∧
    ∀ w : Fin (N + 1) → ℝ, IsProb w → ∀ k, TVLe forceErr (moveIndex forced key w k) (moveIndex exactMove key w k) :=
  ⟨barker_reversible key, liu_reversible, fun _ hw k => force_near_liu key hw k⟩

/-- **C77** (the moves): from every particle, the Metropolised Gibbs move goes to every other particle with at least the
probability of the Barker move, and `force_move` does so up to `1e-12`. -/
theorem C77_moves (key : Key) : MovesMore (moveIndex (barkered (N := N)) key) (moveIndex exactMove key) ∧
    MovesNearlyMore (ENNReal.ofReal 1e-12) (moveIndex (barkered (N := N)) key) (moveIndex forced key) :=
  ⟨barker_le_liu key, barker_le_force key key⟩

/-- **C77** (the moves): the `1e-12` cannot be left out. With two particles of weights `1 - a` and `a ≤ 1e-13`,
`force_move` leaves the first particle with a smaller probability than the Barker move. -/
theorem C77_force_false (key : Key) {a : ℝ} (ha : 0 < a) (ha' : a ≤ 1e-13) :
    IsProb (![1 - a, a] : Fin 2 → ℝ) ∧
    moveIndex forced key (![1 - a, a] : Fin 2 → ℝ) 0 (fun l => if l = 1 then 1 else 0) <
      moveIndex barkered key (![1 - a, a] : Fin 2 → ℝ) 0 (fun l => if l = 1 then 1 else 0) ∧
    ¬ MovesMore (moveIndex (barkered (N := 1)) key) (moveIndex forced key) := by
  have hw : IsProb (![1 - a, a] : Fin 2 → ℝ) :=
    ⟨fun i => by fin_cases i <;> simp <;> norm_num at ha' ⊢ <;> linarith, by simp⟩
  refine ⟨hw, force_moves_less key key ha ha', fun h => ?_⟩
  exact absurd (h _ hw 0 (fun l => if l = 1 then 1 else 0) (by simp)) (not_le.mpr (force_moves_less key key ha ha'))

/-! ## The kernels -/

section kernels
variable {resampling : Resampling Ex N} (hR : GoodResampling resampling) (key : Key)
include hR

/-- **C76** (`csmc.kernel`, `backward = False`). -/
theorem C76_csmc {X P G : Type} [MeasurableSpace X] (lam : Measure X) [SigmaFinite lam] {M : FK Ex X P G N}
    (hM : ProperFK lam M) (Mparams : Fin n → P) (Gparams : Fin n → G) :
    ReversibleRuns lam (pathLogDensity M.Gamma0 (fun t y x => M.Gammat y x (Gparams t))) (fun mv x b => do
      let r ← csmc_kernel key x b M Mparams Gparams resampling mv false true
      pure (r.xs, r.Bs)) :=
  reversibleRuns_of (csmc_sliced key hM Mparams Gparams hR false)

/-- **C77** (`csmc.kernel`). -/
theorem C77_csmc {X P G : Type} [MeasurableSpace X] (lam : Measure X) [SigmaFinite lam] {M : FK Ex X P G N}
    (hM : ProperFK lam M) (Mparams : Fin n → P) (Gparams : Fin n → G) (backward : Bool) :
    MoveOrder lam (pathLogDensity M.Gamma0 (fun t y x => M.Gammat y x (Gparams t))) backward (fun mv x b => do
      let r ← csmc_kernel key x b M Mparams Gparams resampling mv backward true
      pure (r.xs, r.Bs)) :=
  moveOrder_of (csmc_sliced key hM Mparams Gparams hR backward)

/-- **C78** (`csmc.kernel`). -/
theorem C78_csmc {X P G : Type} [MeasurableSpace X] (lam : Measure X) [SigmaFinite lam] {M : FK Ex X P G N}
    (hM : ProperFK lam M) (Mparams : Fin n → P) (Gparams : Fin n → G) (backward : Bool) :
    PositiveRuns lam (pathLogDensity M.Gamma0 (fun t y x => M.Gammat y x (Gparams t))) backward (fun mv x b => do
      let r ← csmc_kernel key x b M Mparams Gparams resampling mv backward true
      pure (r.xs, r.Bs)) :=
  positiveRuns_of (csmc_sliced key hM Mparams Gparams hR backward)

section mala
variable {G : Type} {Gamma0 : Vec d → ℝ} {Gamma0_grad : Vec d → Vec d} {Gammat : Vec d → Vec d → G → ℝ}
  {Gammat_grad : Vec d → Vec d → G → Vec d} (Gparams : Fin n → G) {ells : Fin (n + 1) → ℝ} (deltas : Fin (n + 1) → ℝ)
  (h0 : Measurable Gamma0) (h : ∀ g, Measurable fun p : Vec d × Vec d => Gammat p.1 p.2 g)
  (hg0 : Measurable Gamma0_grad) (hg : ∀ g, Measurable fun p : Vec d × Vec d => Gammat_grad p.1 p.2 g)
  (hells : ∀ t, 0 < ells t)
include h0 h hells

/-- **C76** (`rw_csmc.kernel`, `backward = False`). -/
theorem C76_rw :
    ReversibleRuns volume (pathLogDensity Gamma0 (fun t y x => Gammat y x (Gparams t))) (fun mv x b => do
      let r ← rw_kernel (fun _ => true) key x b Gamma0 Gammat Gparams ells resampling mv false
      pure (r.xs, r.Bs)) :=
  reversibleRuns_of (rw_sliced key Gparams h0 h hells hR false)

/-- **C77** (`rw_csmc.kernel`). -/
theorem C77_rw (backward : Bool) :
    MoveOrder volume (pathLogDensity Gamma0 (fun t y x => Gammat y x (Gparams t))) backward (fun mv x b => do
      let r ← rw_kernel (fun _ => true) key x b Gamma0 Gammat Gparams ells resampling mv backward
      pure (r.xs, r.Bs)) :=
  moveOrder_of (rw_sliced key Gparams h0 h hells hR backward)

/-- **C78** (`rw_csmc.kernel`). -/
theorem C78_rw (backward : Bool) :
    PositiveRuns volume (pathLogDensity Gamma0 (fun t y x => Gammat y x (Gparams t))) backward (fun mv x b => do
      let r ← rw_kernel (fun _ => true) key x b Gamma0 Gammat Gparams ells resampling mv backward
      pure (r.xs, r.Bs)) :=
  positiveRuns_of (rw_sliced key Gparams h0 h hells hR backward)

include hg0 hg

/-- **C76** (`al_csmc_f.kernel`, `backward = False`). -/
theorem C76_al :
    ReversibleRuns volume (pathLogDensity Gamma0 (fun t y x => Gammat y x (Gparams t))) (fun mv x b => do
      let r ← al_kernel key x b Gamma0 Gamma0_grad Gammat Gammat_grad Gparams ells deltas resampling mv false
      pure (r.xs, r.Bs)) :=
  reversibleRuns_of (al_sliced key Gparams deltas h0 h hg0 hg hells hR false)

/-- **C77** (`al_csmc_f.kernel`). -/
theorem C77_al (backward : Bool) :
    MoveOrder volume (pathLogDensity Gamma0 (fun t y x => Gammat y x (Gparams t))) backward (fun mv x b => do
      let r ← al_kernel key x b Gamma0 Gamma0_grad Gammat Gammat_grad Gparams ells deltas resampling mv backward
      pure (r.xs, r.Bs)) :=
  moveOrder_of (al_sliced key Gparams deltas h0 h hg0 hg hells hR backward)

/-- **C78** (`al_csmc_f.kernel`). -/
theorem C78_al (backward : Bool) :
    PositiveRuns volume (pathLogDensity Gamma0 (fun t y x => Gammat y x (Gparams t))) backward (fun mv x b => do
      let r ← al_kernel key x b Gamma0 Gamma0_grad Gammat Gammat_grad Gparams ells deltas resampling mv backward
      pure (r.xs, r.Bs)) :=
  positiveRuns_of (al_sliced key Gparams deltas h0 h hg0 hg hells hR backward)

/-- **C76** (`l_csmc_f.kernel`, `backward = False`). -/
theorem C76_l :
    ReversibleRuns volume (pathLogDensity Gamma0 (fun t y x => Gammat y x (Gparams t))) (fun mv x b => do
      let r ← l_kernel key x b Gamma0 Gamma0_grad Gammat Gammat_grad Gparams ells deltas resampling mv false
      pure (r.xs, r.Bs)) :=
  reversibleRuns_of (l_sliced key Gparams deltas h0 h hg0 hg hells hR false)

/-- **C77** (`l_csmc_f.kernel`). -/
theorem C77_l (backward : Bool) :
    MoveOrder volume (pathLogDensity Gamma0 (fun t y x => Gammat y x (Gparams t))) backward (fun mv x b => do
      let r ← l_kernel key x b Gamma0 Gamma0_grad Gammat Gammat_grad Gparams ells deltas resampling mv backward
      pure (r.xs, r.Bs)) :=
  moveOrder_of (l_sliced key Gparams deltas h0 h hg0 hg hells hR backward)

/-- **C78** (`l_csmc_f.kernel`). -/
theorem C78_l (backward : Bool) :
    PositiveRuns volume (pathLogDensity Gamma0 (fun t y x => Gammat y x (Gparams t))) backward (fun mv x b => do
      let r ← l_kernel key x b Gamma0 Gamma0_grad Gammat Gammat_grad Gparams ells deltas resampling mv backward
      pure (r.xs, r.Bs)) :=
  positiveRuns_of (l_sliced key Gparams deltas h0 h hg0 hg hells hR backward)

end mala

/-- **C76** (`al_csmc_s.kernel`, `backward = False`). -/
theorem C76_als {G : Type} {Gamma0 : Vec d → ℝ} {Gamma0_grad : Vec d → Vec d} {Gammat : Vec d → Vec d → G → ℝ}
    {Gammat_grad0 Gammat_grad1 : Vec d → Vec d → G → Vec d} (Gparams : Fin (n + 2) → G)
    {ells : Fin (n + 3) → ℝ} (deltas : Fin (n + 3) → ℝ)
    (h0 : Measurable Gamma0) (h : ∀ g, Measurable fun p : Vec d × Vec d => Gammat p.1 p.2 g)
    (hg : Measurable Gamma0_grad) (hg0 : ∀ g, Measurable fun p : Vec d × Vec d => Gammat_grad0 p.1 p.2 g)
    (hg1 : ∀ g, Measurable fun p : Vec d × Vec d => Gammat_grad1 p.1 p.2 g) (hells : ∀ t, 0 < ells t) :
    ReversibleRuns volume (pathLogDensity Gamma0 (fun t y x => Gammat y x (Gparams t))) (fun mv x b => do
      let r ← als_kernel key x b Gamma0 Gamma0_grad Gammat Gammat_grad0 Gammat_grad1 Gparams ells deltas resampling mv false
      pure (r.xs, r.Bs)) :=
  reversibleRuns_of (als_sliced key Gparams deltas h0 h hg hg0 hg1 hells hR)

/-- **C77** (`al_csmc_s.kernel`, `backward = False`). -/
theorem C77_als {G : Type} {Gamma0 : Vec d → ℝ} {Gamma0_grad : Vec d → Vec d} {Gammat : Vec d → Vec d → G → ℝ}
    {Gammat_grad0 Gammat_grad1 : Vec d → Vec d → G → Vec d} (Gparams : Fin (n + 2) → G)
    {ells : Fin (n + 3) → ℝ} (deltas : Fin (n + 3) → ℝ)
    (h0 : Measurable Gamma0) (h : ∀ g, Measurable fun p : Vec d × Vec d => Gammat p.1 p.2 g)
    (hg : Measurable Gamma0_grad) (hg0 : ∀ g, Measurable fun p : Vec d × Vec d => Gammat_grad0 p.1 p.2 g)
    (hg1 : ∀ g, Measurable fun p : Vec d × Vec d => Gammat_grad1 p.1 p.2 g) (hells : ∀ t, 0 < ells t) :
    MoveOrder volume (pathLogDensity Gamma0 (fun t y x => Gammat y x (Gparams t))) false (fun mv x b => do
      let r ← als_kernel key x b Gamma0 Gamma0_grad Gammat Gammat_grad0 Gammat_grad1 Gparams ells deltas resampling mv false
      pure (r.xs, r.Bs)) :=
  moveOrder_of (als_sliced key Gparams deltas h0 h hg hg0 hg1 hells hR)

/-- **C78** (`al_csmc_s.kernel`, `backward = False`). -/
theorem C78_als {G : Type} {Gamma0 : Vec d → ℝ} {Gamma0_grad : Vec d → Vec d} {Gammat : Vec d → Vec d → G → ℝ}
    {Gammat_grad0 Gammat_grad1 : Vec d → Vec d → G → Vec d} (Gparams : Fin (n + 2) → G)
    {ells : Fin (n + 3) → ℝ} (deltas : Fin (n + 3) → ℝ)
    (h0 : Measurable Gamma0) (h : ∀ g, Measurable fun p : Vec d × Vec d => Gammat p.1 p.2 g)
    (hg : Measurable Gamma0_grad) (hg0 : ∀ g, Measurable fun p : Vec d × Vec d => Gammat_grad0 p.1 p.2 g)
    (hg1 : ∀ g, Measurable fun p : Vec d × Vec d => Gammat_grad1 p.1 p.2 g) (hells : ∀ t, 0 < ells t) :
    PositiveRuns volume (pathLogDensity Gamma0 (fun t y x => Gammat y x (Gparams t))) false (fun mv x b => do
      let r ← als_kernel key x b Gamma0 Gamma0_grad Gammat Gammat_grad0 Gammat_grad1 Gparams ells deltas resampling mv false
      pure (r.xs, r.Bs)) :=
  positiveRuns_of (als_sliced key Gparams deltas h0 h hg hg0 hg1 hells hR)

variable {MP RP : Type}

/-- **C76** (`tp_csmc.kernel`, `backward = False`). -/
theorem C76_tp {svd : Mat d d → SvdOut d} {M : GaussModel MP RP n d} {ells : Fin (n + 1) → ℝ}
    (h : ProposalOK svd M ells) (hM : GaussMeas M) (deltas : Fin (n + 1) → ℝ) :
    ReversibleRuns volume (gaussPath M) (fun mv x b => do
      let r ← tp_csmc_kernel svd M key x b ells deltas resampling mv false
      pure (r.xs, r.Bs)) :=
  reversibleRuns_of (tp_sliced h hM key deltas hR false)

/-- **C77** (`tp_csmc.kernel`). -/
theorem C77_tp {svd : Mat d d → SvdOut d} {M : GaussModel MP RP n d} {ells : Fin (n + 1) → ℝ}
    (h : ProposalOK svd M ells) (hM : GaussMeas M) (deltas : Fin (n + 1) → ℝ) (backward : Bool) :
    MoveOrder volume (gaussPath M) backward (fun mv x b => do
      let r ← tp_csmc_kernel svd M key x b ells deltas resampling mv backward
      pure (r.xs, r.Bs)) :=
  moveOrder_of (tp_sliced h hM key deltas hR backward)

/-- **C78** (`tp_csmc.kernel`). -/
theorem C78_tp {svd : Mat d d → SvdOut d} {M : GaussModel MP RP n d} {ells : Fin (n + 1) → ℝ}
    (h : ProposalOK svd M ells) (hM : GaussMeas M) (deltas : Fin (n + 1) → ℝ) (backward : Bool) :
    PositiveRuns volume (gaussPath M) backward (fun mv x b => do
      let r ← tp_csmc_kernel svd M key x b ells deltas resampling mv backward
      pure (r.xs, r.Bs)) :=
  positiveRuns_of (tp_sliced h hM key deltas hR backward)

/-- **C76** (`atp_csmc_f.kernel`, for the covariances for which its density is right, C33, `backward = False`). -/
theorem C76_atp {svd : Mat d d → SvdOut d} {M : GaussModel MP RP n d} {ells : Fin (n + 1) → ℝ}
    (h : ProposalOK svd M ells) (hM : GaussMeas M)
    (hd : ∀ t, insert0 M.P0 M.Qs t = diagonal (svd (insert0 M.P0 M.Qs t)).Gamma) (deltas : Fin (n + 1) → ℝ) :
    ReversibleRuns volume (gaussPath M) (fun mv x b => do
      let r ← atp_kernel svd M key x b ells deltas resampling mv false
      pure (r.xs, r.Bs)) :=
  reversibleRuns_of (atp_sliced h hM (fun t => by
    rw [svd_chol_eq h t]
    exact (atp_precision_iff (h.posDef t) (h.isSvd t) (h.pos t) (h.floor t)).mpr (hd t)) key deltas hR false)

/-- **C77** (`atp_csmc_f.kernel`, for the covariances for which its density is right, C33). -/
theorem C77_atp {svd : Mat d d → SvdOut d} {M : GaussModel MP RP n d} {ells : Fin (n + 1) → ℝ}
    (h : ProposalOK svd M ells) (hM : GaussMeas M)
    (hd : ∀ t, insert0 M.P0 M.Qs t = diagonal (svd (insert0 M.P0 M.Qs t)).Gamma) (deltas : Fin (n + 1) → ℝ) (backward : Bool) :
    MoveOrder volume (gaussPath M) backward (fun mv x b => do
      let r ← atp_kernel svd M key x b ells deltas resampling mv backward
      pure (r.xs, r.Bs)) :=
  moveOrder_of (atp_sliced h hM (fun t => by
    rw [svd_chol_eq h t]
    exact (atp_precision_iff (h.posDef t) (h.isSvd t) (h.pos t) (h.floor t)).mpr (hd t)) key deltas hR backward)

/-- **C78** (`atp_csmc_f.kernel`, for the covariances for which its density is right, C33). -/
theorem C78_atp {svd : Mat d d → SvdOut d} {M : GaussModel MP RP n d} {ells : Fin (n + 1) → ℝ}
    (h : ProposalOK svd M ells) (hM : GaussMeas M)
    (hd : ∀ t, insert0 M.P0 M.Qs t = diagonal (svd (insert0 M.P0 M.Qs t)).Gamma) (deltas : Fin (n + 1) → ℝ) (backward : Bool) :
    PositiveRuns volume (gaussPath M) backward (fun mv x b => do
      let r ← atp_kernel svd M key x b ells deltas resampling mv backward
      pure (r.xs, r.Bs)) :=
  positiveRuns_of (atp_sliced h hM (fun t => by
    rw [svd_chol_eq h t]
    exact (atp_precision_iff (h.posDef t) (h.isSvd t) (h.pos t) (h.floor t)).mpr (hd t)) key deltas hR backward)

omit hR in
theorem t_sliced_model {M : LinModel RP n d} {ells : Fin (n + 1) → ℝ} (hM : LinMeas M)
    (hr : IsReversal M.mu0 M.P0 M.Fs M.Qs M.bs (get_reversed_dynamics M.mu0 M.P0 M.Fs M.Qs M.bs))
    (hells : ∀ t, 0 < ells t) (deltas : Fin (n + 1) → ℝ) (hR : GoodResampling resampling) (backward : Bool) :
    Sliced volume (linPath M) (fun mv x b => (t_atp_kernel M key x b ells deltas resampling mv backward : Ex _) >>=
      fun r => pure (r.xs, r.Bs)) backward := by
  rw [show linPath M = revPath _ M from funext (linPath_rev hr)]
  exact t_sliced hM hr.final_posDef hr.posDef hells key deltas hR backward

/-- **C76** (`t_atp_csmc_f.kernel`, for the models for which its reversed dynamics are right, C36, `backward = False`). -/
theorem C76_t_atp {M : LinModel RP n d} {ells : Fin (n + 1) → ℝ} (hM : LinMeas M)
    (hr : IsReversal M.mu0 M.P0 M.Fs M.Qs M.bs (get_reversed_dynamics M.mu0 M.P0 M.Fs M.Qs M.bs))
    (hells : ∀ t, 0 < ells t) (deltas : Fin (n + 1) → ℝ) :
    ReversibleRuns volume (linPath M) (fun mv x b => do
      let r ← t_atp_kernel M key x b ells deltas resampling mv false
      pure (r.xs, r.Bs)) :=
  reversibleRuns_of (t_sliced_model key hM hr hells deltas hR false)

/-- **C77** (`t_atp_csmc_f.kernel`, for the models for which its reversed dynamics are right, C36). -/
theorem C77_t_atp {M : LinModel RP n d} {ells : Fin (n + 1) → ℝ} (hM : LinMeas M)
    (hr : IsReversal M.mu0 M.P0 M.Fs M.Qs M.bs (get_reversed_dynamics M.mu0 M.P0 M.Fs M.Qs M.bs))
    (hells : ∀ t, 0 < ells t) (deltas : Fin (n + 1) → ℝ) (backward : Bool) :
    MoveOrder volume (linPath M) backward (fun mv x b => do
      let r ← t_atp_kernel M key x b ells deltas resampling mv backward
      pure (r.xs, r.Bs)) :=
  moveOrder_of (t_sliced_model key hM hr hells deltas hR backward)

/-- **C78** (`t_atp_csmc_f.kernel`, for the models for which its reversed dynamics are right, C36). -/
theorem C78_t_atp {M : LinModel RP n d} {ells : Fin (n + 1) → ℝ} (hM : LinMeas M)
    (hr : IsReversal M.mu0 M.P0 M.Fs M.Qs M.bs (get_reversed_dynamics M.mu0 M.P0 M.Fs M.Qs M.bs))
    (hells : ∀ t, 0 < ells t) (deltas : Fin (n + 1) → ℝ) (backward : Bool) :
    PositiveRuns volume (linPath M) backward (fun mv x b => do
      let r ← t_atp_kernel M key x b ells deltas resampling mv backward
      pure (r.xs, r.Bs)) :=
  positiveRuns_of (t_sliced_model key hM hr hells deltas hR backward)

end kernels

/-! ## Instances -/

/-- The bootstrap filter of the stochastic volatility experiment at its own parameters is reversible without backward
sampling; its target has finite mass (C67). -/
example (ys : Traj 128 30) (key : Key) := C76_csmc (N := 31) (n := 127) goodResampling.1 key volume
  (C19_sv_proper ys (D := get_dynamics 0 0.9 0.1 0.25 30)
    (sv_P0_posDef 0 (by norm_num) (by norm_num) (by norm_num) (by norm_num) 30)
    (sv_Q_posDef 0 _ (by norm_num) (by norm_num) (by norm_num) 30)) (tailA ys) (tailA ys)

/-- Squared jumps of the last state of a 2-dimensional example, with backward sampling. -/
example (y : Fin 7 → Fin 2 → ℝ) (key : Key) := (C77_csmc (N := 25) goodResampling.2 key volume (exampleFK_proper 2 25)
  (fun _ => ()) y true).exact_last (fun v v' => ∑ i, ENNReal.ofReal ((v i - v' i) ^ 2)) (by
    unfold Function.uncurry
    fun_prop) (fun v => by simp)

/-- The same model without backward sampling: correlation of an indicator. -/
example (y : Fin 7 → Fin 2 → ℝ) (key : Key) := (C78_csmc (N := 25) goodResampling.1 key volume (exampleFK_proper 2 25)
  (fun _ => ()) y false).all rfl (fun z => if 0 < z.1 3 1 then 1 else 0)
    (Measurable.ite (measurableSet_lt measurable_const (by fun_prop)) measurable_const measurable_const)

/-- Weights inside the guard of `force_move`. -/
example (key : Key) := C77_force_false key (a := 1e-13) (by norm_num) le_rfl

/-- The twisted kernel of the linear Gaussian experiment. -/
example (ys : Traj 10 3) (key : Key) := C76_t_atp (N := 25) goodResampling.1 key (lgLin_meas ys 0.1 true) (by
    have h := C36_scalar_partial (d := 3) (n := 9) (fun _ => 1) (posDef_smul_one (r := (0.1 : ℝ) ^ 2) (by norm_num))
      (fun _ => posDef_smul_one (r := (0.1 : ℝ) ^ 2) (by norm_num))
    simp only [one_smul] at h
    exact h) (ells := fun _ => 0.01) (fun _ => by norm_num) (fun _ => 0.01)

end Verif.Props
