import Verif.Lemmas.AlCsmc
import Verif.Lemmas.Schemes

/-!
# Properties of the kernels that keep their auxiliary variables in the weights
-/

open scoped ENNReal
open MeasureTheory

namespace Verif.Props
open Verif Verif.Spec Verif.Model

variable {N n d : ℕ} {G : Type}

/-! ## C22: Particle-aMALA is invariant -/

/-- C22: `al_csmc_f.kernel` leaves the target invariant, for any step sizes `deltas` and any measurable functions
in the role of the gradients. -/
theorem C22_al_invariant (key : Key) {Gamma0 : Vec d → ℝ} {Gamma0_grad : Vec d → Vec d}
    {Gammat : Vec d → Vec d → G → ℝ} {Gammat_grad : Vec d → Vec d → G → Vec d} (Gparams : Fin n → G)
    {ells : Fin (n + 1) → ℝ} (deltas : Fin (n + 1) → ℝ) {resampling : Resampling Ex N} {mv : AncestorMove Ex N}
    (h0 : Measurable Gamma0) (h : ∀ g, Measurable fun p : Vec d × Vec d => Gammat p.1 p.2 g)
    (hg0 : Measurable Gamma0_grad) (hg : ∀ g, Measurable fun p : Vec d × Vec d => Gammat_grad p.1 p.2 g)
    (hells : ∀ t, 0 < ells t) (hR : ∀ key, CondResampling (fun w i j => resampling key w i j true))
    (hmv : ∀ key, MoveInvariant (fun w k => do
      let r ← mv key w k
      pure r.1)) (backward : Bool) :
    LeavesInvariant volume (pathLogDensity Gamma0 (fun t y x => Gammat y x (Gparams t)))
      (fun x b => do
        let r ← al_kernel key x b Gamma0 Gamma0_grad Gammat Gammat_grad Gparams ells deltas resampling mv backward
        pure (r.xs, r.Bs)) := by
  have hgt : ∀ t : Fin n, Measurable fun p : Vec d × Vec d => fun j => 0.5 * deltas (Fin.succ t) *
      Gammat_grad p.1 p.2 (Gparams t) j := fun t => by
    have := hg (Gparams t)
    fun_prop
  have hg0' : Measurable fun (x : Vec d) j => 0.5 * deltas 0 * Gamma0_grad x j := by fun_prop
  have hRt : ∀ t, CondResampling (auxR (n := n) key resampling t) := fun t => hR _
  have hb : ∀ t, Measurable fun p : Vec d × Vec d => Gammat p.1 p.2 (Gparams t) := fun t => h (Gparams t)
  refine aux_mixture (Γ := fun t y x => Gammat y x (Gparams t)) (φ := fun t y x j => 0.5 * deltas t.succ *
    Gammat_grad y x (Gparams t) j) h0 hb hg0' hgt (auxStd_pos hells)
    (S := alSys Gamma0 (fun t y x => Gammat y x (Gparams t)) (fun x j => 0.5 * deltas 0 * Gamma0_grad x j)
      (fun t y x j => 0.5 * deltas t.succ * Gammat_grad y x (Gparams t) j) (auxStd ells) (auxR key resampling))
    (alSys_OK h0 hb hg0' hgt (auxStd_pos hells) hRt) (alSys_meas h0 hb hg0' hgt hRt)
    (fun u f _ => rfl) (fun u t y f _ => rfl) (hmv (auxMoveKey key n backward)) backward fun x b f hf => ?_
  have := al_kernel_eq key x b Gparams deltas backward h0 h hg0 hg hells hR (fun key => (hmv key).ker) f hf
  simp only [auxVars_center] at this
  exact this

/-- C22 with killing resampling and the Barker move. -/
theorem C22_al_invariant_killing_barker (key : Key) {Gamma0 : Vec d → ℝ} {Gamma0_grad : Vec d → Vec d}
    {Gammat : Vec d → Vec d → G → ℝ} {Gammat_grad : Vec d → Vec d → G → Vec d} (Gparams : Fin n → G)
    {ells : Fin (n + 1) → ℝ} (deltas : Fin (n + 1) → ℝ)
    (h0 : Measurable Gamma0) (h : ∀ g, Measurable fun p : Vec d × Vec d => Gammat p.1 p.2 g)
    (hg0 : Measurable Gamma0_grad) (hg : ∀ g, Measurable fun p : Vec d × Vec d => Gammat_grad p.1 p.2 g)
    (hells : ∀ t, 0 < ells t) (backward : Bool) :
    LeavesInvariant (N := N) volume (pathLogDensity Gamma0 (fun t y x => Gammat y x (Gparams t)))
      (fun x b => do
        let r ← al_kernel key x b Gamma0 Gamma0_grad Gammat Gammat_grad Gparams ells deltas
          (fun key w i j c => killing key w i j c) (fun key w k => barker_move key w k) backward
        pure (r.xs, r.Bs)) :=
  C22_al_invariant key Gparams deltas h0 h hg0 hg hells (fun key => killing_condResampling key)
    (fun key => barker_moveInvariant key) backward

/-- C22 with multinomial resampling and the Barker move. -/
theorem C22_al_invariant_multinomial_barker (key : Key) {Gamma0 : Vec d → ℝ} {Gamma0_grad : Vec d → Vec d}
    {Gammat : Vec d → Vec d → G → ℝ} {Gammat_grad : Vec d → Vec d → G → Vec d} (Gparams : Fin n → G)
    {ells : Fin (n + 1) → ℝ} (deltas : Fin (n + 1) → ℝ)
    (h0 : Measurable Gamma0) (h : ∀ g, Measurable fun p : Vec d × Vec d => Gammat p.1 p.2 g)
    (hg0 : Measurable Gamma0_grad) (hg : ∀ g, Measurable fun p : Vec d × Vec d => Gammat_grad p.1 p.2 g)
    (hells : ∀ t, 0 < ells t) (backward : Bool) :
    LeavesInvariant (N := N) volume (pathLogDensity Gamma0 (fun t y x => Gammat y x (Gparams t)))
      (fun x b => do
        let r ← al_kernel key x b Gamma0 Gamma0_grad Gammat Gammat_grad Gparams ells deltas
          (fun key w i j c => multinomial key w i j c) (fun key w k => barker_move key w k) backward
        pure (r.xs, r.Bs)) :=
  C22_al_invariant key Gparams deltas h0 h hg0 hg hells (fun key => multinomial_condResampling key)
    (fun key => barker_moveInvariant key) backward

/-- A concrete target with its gradients meeting the hypotheses of C22. -/
example (y : Fin 9 → ℝ) := C22_al_invariant_killing_barker (N := 25) (n := 9) (d := 1) []
  (Gamma0 := fun x => -(x 0 ^ 2)) (Gamma0_grad := fun x _ => -2 * x 0)
  (Gammat := fun y x (o : ℝ) => -(x 0 - y 0) ^ 2 - (x 0 - o) ^ 2)
  (Gammat_grad := fun y x (o : ℝ) _ => -2 * (x 0 - y 0) - 2 * (x 0 - o))
  y (ells := fun t => 1 + t) (fun t => 2 + t) (by fun_prop) (fun g => by fun_prop) (by fun_prop)
  (fun g => by fun_prop) (fun t => by positivity) true

end Verif.Props
