import Verif.Spec.Mixing
import Verif.Lemmas.ReachKernels
import Verif.Model.ExpRuns

/-!
# The law of one step does not depend on the key
-/

open scoped ENNReal
open MeasureTheory

namespace Verif
open Verif.Spec Verif.Model

variable {N n d : ℕ} {resampling last_step : String} {R : Resampling Ex N} {mv : AncestorMove Ex N}

theorem sel_free (hR : sel_resampling resampling = .ok R) : ∃ R0, R = fun _ => R0 := by
  unfold sel_resampling at hR
  split_ifs at hR <;> cases hR
  · exact ⟨fun w i j c => killing [] w i j c, rfl⟩
  · exact ⟨fun w i j c => multinomial [] w i j c, rfl⟩

theorem sel_move_free (hm : sel_last_step last_step = .ok mv) : ∃ m0, mv = fun _ => m0 := by
  unfold sel_last_step at hm
  split_ifs at hm <;> cases hm
  · exact ⟨fun w k => force_move [] w k, rfl⟩
  · exact ⟨fun w k => barker_move [] w k, rfl⟩

theorem csmc_free {X P G : Type} [MeasurableSpace X] {M : FK Ex X P G N} (hM : SameLawForAllKeys M) (Mparams : Fin n → P) (Gparams : Fin n → G)
    (hR : sel_resampling resampling = .ok R) (hm : sel_last_step last_step = .ok mv) (backward : Bool) (key : Key) (x : Fin (n + 1) → X)
    (b : Fin (n + 1) → Fin (N + 1)) :
    ((csmc_kernel key x b M Mparams Gparams R mv backward true : Ex _) >>= fun r => pure (r.xs, r.Bs)) =
    ((csmc_kernel [] x b M Mparams Gparams R mv backward true : Ex _) >>= fun r => pure (r.xs, r.Bs)) := by
  obtain ⟨R0, rfl⟩ := sel_free hR
  obtain ⟨m0, rfl⟩ := sel_move_free hm
  obtain ⟨M0_rvs, M0_logpdf, Gamma0, Mt_rvs, Mt_logpdf, Gammat⟩ := M
  have h1 : M0_rvs = fun _ => M0_rvs [] := funext hM.init
  have h2 : Mt_rvs = fun _ => Mt_rvs [] := funext hM.step
  rw [h1, h2]
  have e := fun key => csmc_kernel_eq key (⟨fun _ => M0_rvs [], M0_logpdf, Gamma0, fun _ => Mt_rvs [], Mt_logpdf, Gammat⟩ : FK Ex X P G N) Mparams Gparams (fun _ => R0) (fun _ => m0)
    backward (fun _ => 0) (fun _ _ _ => 0) (fun _ => 0) (fun _ _ _ => 0) x b
  exact (e key).trans (e []).symm

section aux
variable {G : Type} {Gamma0 : Vec d → ℝ} {Gamma0_grad : Vec d → Vec d} {Gammat : Vec d → Vec d → G → ℝ}
  {Gammat_grad : Vec d → Vec d → G → Vec d} {ells : Fin (n + 1) → ℝ}

theorem rw_free (Gparams : Fin n → G)
    (h0 : Measurable Gamma0) (h : ∀ g, Measurable fun p : Vec d × Vec d => Gammat p.1 p.2 g) (hells : ∀ t, 0 < ells t)
    (hR : sel_resampling resampling = .ok R) (hm : sel_last_step last_step = .ok mv)
    (hc : ∀ key, CondResampling fun w i j => R key w i j true) (hk : ∀ key, MoveKer (moveIndex mv key)) (backward : Bool) (key : Key)
    (x : Fin (n + 1) → Vec d) (b : Fin (n + 1) → Fin (N + 1)) {f : (Fin (n + 1) → Vec d) × (Fin (n + 1) → Fin (N + 1)) → ℝ≥0∞} (hf : Measurable f) :
    ((rw_kernel (fun _ => true) key x b Gamma0 Gammat Gparams ells R mv backward : Ex _) >>= fun r => pure (r.xs, r.Bs)) f =
    ((rw_kernel (fun _ => true) [] x b Gamma0 Gammat Gparams ells R mv backward : Ex _) >>= fun r => pure (r.xs, r.Bs)) f := by
  obtain ⟨R0, rfl⟩ := sel_free hR
  obtain ⟨m0, rfl⟩ := sel_move_free hm
  have e := fun key => rw_kernel_eq key x b Gparams backward h0 h hells hc hk f hf
  exact (e key).trans (e []).symm

theorem l_free (Gparams : Fin n → G) (deltas : Fin (n + 1) → ℝ)
    (h0 : Measurable Gamma0) (h : ∀ g, Measurable fun p : Vec d × Vec d => Gammat p.1 p.2 g)
    (hg0 : Measurable Gamma0_grad) (hg : ∀ g, Measurable fun p : Vec d × Vec d => Gammat_grad p.1 p.2 g) (hells : ∀ t, 0 < ells t)
    (hR : sel_resampling resampling = .ok R) (hm : sel_last_step last_step = .ok mv)
    (hc : ∀ key, CondResampling fun w i j => R key w i j true) (hk : ∀ key, MoveKer (moveIndex mv key)) (backward : Bool) (key : Key)
    (x : Fin (n + 1) → Vec d) (b : Fin (n + 1) → Fin (N + 1)) {f : (Fin (n + 1) → Vec d) × (Fin (n + 1) → Fin (N + 1)) → ℝ≥0∞} (hf : Measurable f) :
    ((l_kernel key x b Gamma0 Gamma0_grad Gammat Gammat_grad Gparams ells deltas R mv backward : Ex _) >>= fun r => pure (r.xs, r.Bs)) f =
    ((l_kernel [] x b Gamma0 Gamma0_grad Gammat Gammat_grad Gparams ells deltas R mv backward : Ex _) >>= fun r => pure (r.xs, r.Bs)) f := by
  obtain ⟨R0, rfl⟩ := sel_free hR
  obtain ⟨m0, rfl⟩ := sel_move_free hm
  have e := fun key => l_kernel_eq key x b Gparams deltas backward h0 h hg0 hg hells hc hk f hf
  exact (e key).trans (e []).symm

theorem al_free (Gparams : Fin n → G) (deltas : Fin (n + 1) → ℝ)
    (h0 : Measurable Gamma0) (h : ∀ g, Measurable fun p : Vec d × Vec d => Gammat p.1 p.2 g)
    (hg0 : Measurable Gamma0_grad) (hg : ∀ g, Measurable fun p : Vec d × Vec d => Gammat_grad p.1 p.2 g) (hells : ∀ t, 0 < ells t)
    (hR : sel_resampling resampling = .ok R) (hm : sel_last_step last_step = .ok mv)
    (hc : ∀ key, CondResampling fun w i j => R key w i j true) (hk : ∀ key, MoveKer (moveIndex mv key)) (backward : Bool) (key : Key)
    (x : Fin (n + 1) → Vec d) (b : Fin (n + 1) → Fin (N + 1)) {f : (Fin (n + 1) → Vec d) × (Fin (n + 1) → Fin (N + 1)) → ℝ≥0∞} (hf : Measurable f) :
    ((al_kernel key x b Gamma0 Gamma0_grad Gammat Gammat_grad Gparams ells deltas R mv backward : Ex _) >>= fun r => pure (r.xs, r.Bs)) f =
    ((al_kernel [] x b Gamma0 Gamma0_grad Gammat Gammat_grad Gparams ells deltas R mv backward : Ex _) >>= fun r => pure (r.xs, r.Bs)) f := by
  obtain ⟨R0, rfl⟩ := sel_free hR
  obtain ⟨m0, rfl⟩ := sel_move_free hm
  have e := fun key => al_kernel_eq key x b Gparams deltas backward h0 h hg0 hg hells hc hk f hf
  exact (e key).trans (e []).symm

end aux

section proposals
variable {MP RP : Type} {svd : Mat d d → SvdOut d} {M : GaussModel MP RP n d} {ells : Fin (n + 1) → ℝ}

theorem tp_free (h : ProposalOK svd M ells) (hM : GaussMeas M) (deltas : Fin (n + 1) → ℝ)
    (hR : sel_resampling resampling = .ok R) (hm : sel_last_step last_step = .ok mv)
    (hc : ∀ key, CondResampling fun w i j => R key w i j true) (hk : ∀ key, MoveKer (moveIndex mv key)) (backward : Bool) (key : Key)
    (x : Fin (n + 1) → Vec d) (b : Fin (n + 1) → Fin (N + 1)) {f : (Fin (n + 1) → Vec d) × (Fin (n + 1) → Fin (N + 1)) → ℝ≥0∞} (hf : Measurable f) :
    ((tp_csmc_kernel svd M key x b ells deltas R mv backward : Ex _) >>= fun r => pure (r.xs, r.Bs)) f =
    ((tp_csmc_kernel svd M [] x b ells deltas R mv backward : Ex _) >>= fun r => pure (r.xs, r.Bs)) f := by
  obtain ⟨R0, rfl⟩ := sel_free hR
  obtain ⟨m0, rfl⟩ := sel_move_free hm
  have e := fun key => tp_kernel_eq h hM key x b deltas hc hk backward f hf
  exact (e key).trans (e []).symm

theorem atp_free (h : ProposalOK svd M ells)
    (hex : ∀ t, (make_proposal svd M ells t).chol_inv.transpose * (make_proposal svd M ells t).chol_inv =
      ((make_proposal svd M ells t).chol * (make_proposal svd M ells t).chol.transpose)⁻¹) (deltas : Fin (n + 1) → ℝ)
    (hR : sel_resampling resampling = .ok R) (hm : sel_last_step last_step = .ok mv) (backward : Bool) (key : Key)
    (x : Fin (n + 1) → Vec d) (b : Fin (n + 1) → Fin (N + 1)) (f : (Fin (n + 1) → Vec d) × (Fin (n + 1) → Fin (N + 1)) → ℝ≥0∞) :
    ((atp_kernel svd M key x b ells deltas R mv backward : Ex _) >>= fun r => pure (r.xs, r.Bs)) f =
    ((atp_kernel svd M [] x b ells deltas R mv backward : Ex _) >>= fun r => pure (r.xs, r.Bs)) f := by
  obtain ⟨R0, rfl⟩ := sel_free hR
  obtain ⟨m0, rfl⟩ := sel_move_free hm
  have e := fun key => atp_kernel_eq (resampling := fun _ => R0) (mv := fun _ => m0) h hex key x b deltas backward f
  exact (e key).trans (e []).symm

theorem t_free {r : RevDyn n d} {M : LinModel RP n d} (hT : r.PT.PosDef) (hQ : ∀ t, (r.Qs t).PosDef)
    (hells : ∀ t, 0 < ells t) (deltas : Fin (n + 1) → ℝ)
    (hR : sel_resampling resampling = .ok R) (hm : sel_last_step last_step = .ok mv) (backward : Bool) (key : Key)
    (x : Fin (n + 1) → Vec d) (b : Fin (n + 1) → Fin (N + 1)) (f : (Fin (n + 1) → Vec d) × (Fin (n + 1) → Fin (N + 1)) → ℝ≥0∞) :
    ((t_atp_kernel_rev r M key x b ells deltas R mv backward : Ex _) >>= fun r => pure (r.xs, r.Bs)) f =
    ((t_atp_kernel_rev r M [] x b ells deltas R mv backward : Ex _) >>= fun r => pure (r.xs, r.Bs)) f := by
  obtain ⟨R0, rfl⟩ := sel_free hR
  obtain ⟨m0, rfl⟩ := sel_move_free hm
  have e := fun key => t_kernel_eq (M := M) (resampling := fun _ => R0) (mv := fun _ => m0) hT hQ hells key x b deltas backward f
  exact (e key).trans (e []).symm

end proposals

section second
variable {G : Type} {Gamma0 : Vec d → ℝ} {Gamma0_grad : Vec d → Vec d} {Gammat : Vec d → Vec d → G → ℝ}
  {Gammat_grad0 Gammat_grad1 : Vec d → Vec d → G → Vec d} {ells : Fin (n + 3) → ℝ}

theorem als_free (Gparams : Fin (n + 2) → G) (deltas : Fin (n + 3) → ℝ)
    (h0 : Measurable Gamma0) (h : ∀ g, Measurable fun p : Vec d × Vec d => Gammat p.1 p.2 g)
    (hg : Measurable Gamma0_grad) (hg0 : ∀ g, Measurable fun p : Vec d × Vec d => Gammat_grad0 p.1 p.2 g)
    (hg1 : ∀ g, Measurable fun p : Vec d × Vec d => Gammat_grad1 p.1 p.2 g)
    (hells : ∀ t, 0 < ells t) (hR : sel_resampling resampling = .ok R) (hm : sel_last_step last_step = .ok mv)
    (hc : ∀ key, CondResampling fun w i j => R key w i j true) (hk : ∀ key, MoveKer (moveIndex mv key)) (backward : Bool)
    (φ : AlsFwd N n d → AlsFwd N n d)
    (hφ : ∀ F, (φ F).xs = F.xs ∧ (φ F).As = F.As ∧ (φ F).log_ws = F.log_ws)
    (hp : backward = true → ParentsOK Gammat Gammat_grad0 Gammat_grad1 Gparams ells deltas φ) (key : Key)
    (x : Fin (n + 3) → Vec d) (b : Fin (n + 3) → Fin (N + 1)) {f : (Fin (n + 3) → Vec d) × (Fin (n + 3) → Fin (N + 1)) → ℝ≥0∞} (hf : Measurable f) :
    als_kernelF φ key x b Gamma0 Gamma0_grad Gammat Gammat_grad0 Gammat_grad1 Gparams ells deltas R mv backward f =
    als_kernelF φ [] x b Gamma0 Gamma0_grad Gammat Gammat_grad0 Gammat_grad1 Gparams ells deltas R mv backward f := by
  obtain ⟨R0, rfl⟩ := sel_free hR
  obtain ⟨m0, rfl⟩ := sel_move_free hm
  have e := fun key => als_kernel_eq key x b Gparams deltas backward h0 h hg hg0 hg1 hells hc hk φ hφ hp f hf
  exact (e key).trans (e []).symm

end second

end Verif
