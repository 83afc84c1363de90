import Verif.Lemmas.SlicedRuns
import Verif.Props.Reversible
import Verif.Props.MixingRuns

/-!
# C79, C80: stationary runs read backwards, and their auto-covariances

Both for every conditional SMC kernel with the Barker move and without backward sampling. C79: a run of any length started
from the target has the same law when read backwards. C80: auto-covariances at all lags are nonnegative and do not increase
with the lag, and averages over the samples of `sampling_routine` vary at least as much as averages over independent draws.
-/

open MeasureTheory
open scoped ENNReal

namespace Verif.Props
open Verif Verif.Model Verif.Spec Matrix

variable {N n d : ℕ} {resampling : String} {R : Resampling Ex N} {mv : AncestorMove Ex N}

theorem barker_runs {X : Type} [MeasurableSpace X] {lam : Measure X} [SigmaFinite lam] {logpi : (Fin (n + 1) → X) → ℝ}
    {K : AncestorMove Ex N → Key → PathState X N n → Ex (PathState X N n)} (hm : sel_last_step "barker" = .ok mv)
    (hpi : Measurable logpi) (hs : ∀ key, Sliced lam logpi (fun mv x b => K mv key (x, b)) false)
    (hk : ∀ key, MarkovStep fun x b => K mv key (x, b))
    (hfree : ∀ key x b f, Measurable f → K mv key (x, b) f = K mv [] (x, b) f) :
    RunsReversible lam logpi (K mv) ∧ PositivelyCorrelated lam logpi (K mv) := by
  cases hm
  have hrev := fun key => (hs key).reversible fun key => barker_reversible key
  refine ⟨runsReversible_of (fun key => (hk key).ker) hrev, positivelyCorrelated_of hpi (fun key => ?_) (fun key => (hk key).ker)
    (fun key s => (hk key).mass s.1 s.2) (fun key s f hf => hfree key s.1 s.2 f hf) fun key f hf => ?_⟩
  · exact (hs key).projective (fun key => (barker_moveInvariant key).ker) (hk key).ker
      fun key w hw k g => barker_law key hw k g
  · have e := hrev key (fun _ z => f z) (hf.comp measurable_snd)
    refine e.trans (Finset.sum_congr rfl fun b _ => lintegral_congr fun x => congrArg _ ?_)
    have := (hk key).ker.const_mul (x, b) (f (x, b)) (f := fun _ => 1) measurable_const
    simp only [mul_one] at this
    exact this.trans (by rw [show K _ key (x, b) (fun _ => 1) = 1 from (hk key).mass x b, mul_one])

/-- **C79** (`csmc.kernel`). -/
theorem C79_csmc {X P G : Type} [MeasurableSpace X] (lam : Measure X) [SigmaFinite lam]
    {M : FK Ex X P G N} (hM : ProperFK lam M) (hfree : SameLawForAllKeys M) (Mparams : Fin n → P) (Gparams : Fin n → G)
    (hR : sel_resampling resampling = .ok R) (hm : sel_last_step "barker" = .ok mv) :
    RunsReversible lam (pathLogDensity M.Gamma0 (fun t y x => M.Gammat y x (Gparams t))) (fun key s => do
      let r ← csmc_kernel key s.1 s.2 M Mparams Gparams R mv false true
      pure (r.xs, r.Bs)) := by
  have hS := sel_ok hR hm
  exact (barker_runs (K := fun mv key s => (csmc_kernel key s.1 s.2 M Mparams Gparams R mv false true : Ex _) >>=
    fun r => pure (r.xs, r.Bs)) hm (measurable_pathLogDensity hM.Gamma0_meas fun _ => hM.Gammat_meas _)
    (fun key => csmc_sliced key hM Mparams Gparams hS.cond false)
    (fun key => (csmc_markov_relabels lam key hM Mparams Gparams hS.cond hS.ker false).1 hS.mass)
    (fun key x b f _ => congrFun (csmc_free hfree Mparams Gparams hR hm false key x b) f)).1

/-- **C80** (`csmc.kernel`). -/
theorem C80_csmc {X P G : Type} [MeasurableSpace X] (lam : Measure X) [SigmaFinite lam]
    {M : FK Ex X P G N} (hM : ProperFK lam M) (hfree : SameLawForAllKeys M) (Mparams : Fin n → P) (Gparams : Fin n → G)
    (hR : sel_resampling resampling = .ok R) (hm : sel_last_step "barker" = .ok mv) :
    PositivelyCorrelated lam (pathLogDensity M.Gamma0 (fun t y x => M.Gammat y x (Gparams t))) (fun key s => do
      let r ← csmc_kernel key s.1 s.2 M Mparams Gparams R mv false true
      pure (r.xs, r.Bs)) := by
  have hS := sel_ok hR hm
  exact (barker_runs (K := fun mv key s => (csmc_kernel key s.1 s.2 M Mparams Gparams R mv false true : Ex _) >>=
    fun r => pure (r.xs, r.Bs)) hm (measurable_pathLogDensity hM.Gamma0_meas fun _ => hM.Gammat_meas _)
    (fun key => csmc_sliced key hM Mparams Gparams hS.cond false)
    (fun key => (csmc_markov_relabels lam key hM Mparams Gparams hS.cond hS.ker false).1 hS.mass)
    (fun key x b f _ => congrFun (csmc_free hfree Mparams Gparams hR hm false key x b) f)).2

section aux
variable {G : Type} {Gamma0 : Vec d → ℝ} {Gamma0_grad : Vec d → Vec d} {Gammat : Vec d → Vec d → G → ℝ}
  {Gammat_grad : Vec d → Vec d → G → Vec d} (Gparams : Fin n → G) {ells : Fin (n + 1) → ℝ} (deltas : Fin (n + 1) → ℝ)
  (h0 : Measurable Gamma0) (h : ∀ g, Measurable fun p : Vec d × Vec d => Gammat p.1 p.2 g)
  (hg0 : Measurable Gamma0_grad) (hg : ∀ g, Measurable fun p : Vec d × Vec d => Gammat_grad p.1 p.2 g)
  (hells : ∀ t, 0 < ells t) (hR : sel_resampling resampling = .ok R) (hm : sel_last_step "barker" = .ok mv)
include h0 h hells hR hm

/-- **C79** (`rw_csmc.kernel`). -/
theorem C79_rw :
    RunsReversible volume (pathLogDensity Gamma0 (fun t y x => Gammat y x (Gparams t))) (fun key s => do
      let r ← rw_kernel (fun _ => true) key s.1 s.2 Gamma0 Gammat Gparams ells R mv false
      pure (r.xs, r.Bs)) := by
  have hS := sel_ok hR hm
  exact (barker_runs (K := fun mv key s => (rw_kernel (fun _ => true) key s.1 s.2 Gamma0 Gammat Gparams ells R mv false : Ex _) >>=
    fun r => pure (r.xs, r.Bs)) hm (measurable_pathLogDensity h0 fun t => h (Gparams t))
    (fun key => rw_sliced key Gparams h0 h hells hS.cond false)
    (fun key => rw_markov key Gparams h0 h hells hS.cond hS.ker hS.mass false)
    (fun key x b f hf => rw_free Gparams h0 h hells hR hm hS.cond hS.ker false key x b hf)).1

/-- **C80** (`rw_csmc.kernel`). -/
theorem C80_rw :
    PositivelyCorrelated volume (pathLogDensity Gamma0 (fun t y x => Gammat y x (Gparams t))) (fun key s => do
      let r ← rw_kernel (fun _ => true) key s.1 s.2 Gamma0 Gammat Gparams ells R mv false
      pure (r.xs, r.Bs)) := by
  have hS := sel_ok hR hm
  exact (barker_runs (K := fun mv key s => (rw_kernel (fun _ => true) key s.1 s.2 Gamma0 Gammat Gparams ells R mv false : Ex _) >>=
    fun r => pure (r.xs, r.Bs)) hm (measurable_pathLogDensity h0 fun t => h (Gparams t))
    (fun key => rw_sliced key Gparams h0 h hells hS.cond false)
    (fun key => rw_markov key Gparams h0 h hells hS.cond hS.ker hS.mass false)
    (fun key x b f hf => rw_free Gparams h0 h hells hR hm hS.cond hS.ker false key x b hf)).2

include hg0 hg

/-- **C79** (`al_csmc_f.kernel`). -/
theorem C79_al :
    RunsReversible volume (pathLogDensity Gamma0 (fun t y x => Gammat y x (Gparams t))) (fun key s => do
      let r ← al_kernel key s.1 s.2 Gamma0 Gamma0_grad Gammat Gammat_grad Gparams ells deltas R mv false
      pure (r.xs, r.Bs)) := by
  have hS := sel_ok hR hm
  exact (barker_runs (K := fun mv key s => (al_kernel key s.1 s.2 Gamma0 Gamma0_grad Gammat Gammat_grad Gparams ells deltas R mv false : Ex _) >>=
    fun r => pure (r.xs, r.Bs)) hm (measurable_pathLogDensity h0 fun t => h (Gparams t))
    (fun key => al_sliced key Gparams deltas h0 h hg0 hg hells hS.cond false)
    (fun key => al_markov key Gparams deltas h0 h hg0 hg hells hS.cond hS.ker hS.mass false)
    (fun key x b f hf => al_free Gparams deltas h0 h hg0 hg hells hR hm hS.cond hS.ker false key x b hf)).1

/-- **C80** (`al_csmc_f.kernel`). -/
theorem C80_al :
    PositivelyCorrelated volume (pathLogDensity Gamma0 (fun t y x => Gammat y x (Gparams t))) (fun key s => do
      let r ← al_kernel key s.1 s.2 Gamma0 Gamma0_grad Gammat Gammat_grad Gparams ells deltas R mv false
      pure (r.xs, r.Bs)) := by
  have hS := sel_ok hR hm
  exact (barker_runs (K := fun mv key s => (al_kernel key s.1 s.2 Gamma0 Gamma0_grad Gammat Gammat_grad Gparams ells deltas R mv false : Ex _) >>=
    fun r => pure (r.xs, r.Bs)) hm (measurable_pathLogDensity h0 fun t => h (Gparams t))
    (fun key => al_sliced key Gparams deltas h0 h hg0 hg hells hS.cond false)
    (fun key => al_markov key Gparams deltas h0 h hg0 hg hells hS.cond hS.ker hS.mass false)
    (fun key x b f hf => al_free Gparams deltas h0 h hg0 hg hells hR hm hS.cond hS.ker false key x b hf)).2

/-- **C79** (`l_csmc_f.kernel`). -/
theorem C79_l :
    RunsReversible volume (pathLogDensity Gamma0 (fun t y x => Gammat y x (Gparams t))) (fun key s => do
      let r ← l_kernel key s.1 s.2 Gamma0 Gamma0_grad Gammat Gammat_grad Gparams ells deltas R mv false
      pure (r.xs, r.Bs)) := by
  have hS := sel_ok hR hm
  exact (barker_runs (K := fun mv key s => (l_kernel key s.1 s.2 Gamma0 Gamma0_grad Gammat Gammat_grad Gparams ells deltas R mv false : Ex _) >>=
    fun r => pure (r.xs, r.Bs)) hm (measurable_pathLogDensity h0 fun t => h (Gparams t))
    (fun key => l_sliced key Gparams deltas h0 h hg0 hg hells hS.cond false)
    (fun key => l_markov key Gparams deltas h0 h hg0 hg hells hS.cond hS.ker hS.mass false)
    (fun key x b f hf => l_free Gparams deltas h0 h hg0 hg hells hR hm hS.cond hS.ker false key x b hf)).1

/-- **C80** (`l_csmc_f.kernel`). -/
theorem C80_l :
    PositivelyCorrelated volume (pathLogDensity Gamma0 (fun t y x => Gammat y x (Gparams t))) (fun key s => do
      let r ← l_kernel key s.1 s.2 Gamma0 Gamma0_grad Gammat Gammat_grad Gparams ells deltas R mv false
      pure (r.xs, r.Bs)) := by
  have hS := sel_ok hR hm
  exact (barker_runs (K := fun mv key s => (l_kernel key s.1 s.2 Gamma0 Gamma0_grad Gammat Gammat_grad Gparams ells deltas R mv false : Ex _) >>=
    fun r => pure (r.xs, r.Bs)) hm (measurable_pathLogDensity h0 fun t => h (Gparams t))
    (fun key => l_sliced key Gparams deltas h0 h hg0 hg hells hS.cond false)
    (fun key => l_markov key Gparams deltas h0 h hg0 hg hells hS.cond hS.ker hS.mass false)
    (fun key x b f hf => l_free Gparams deltas h0 h hg0 hg hells hR hm hS.cond hS.ker false key x b hf)).2

end aux

/-- **C79** (`al_csmc_s.kernel`). -/
theorem C79_als {G : Type} {Gamma0 : Vec d → ℝ} {Gamma0_grad : Vec d → Vec d} {Gammat : Vec d → Vec d → G → ℝ}
    {Gammat_grad0 Gammat_grad1 : Vec d → Vec d → G → Vec d} (Gparams : Fin (n + 2) → G)
    {ells : Fin (n + 3) → ℝ} (deltas : Fin (n + 3) → ℝ)
    (h0 : Measurable Gamma0) (h : ∀ g, Measurable fun p : Vec d × Vec d => Gammat p.1 p.2 g)
    (hg : Measurable Gamma0_grad) (hg0 : ∀ g, Measurable fun p : Vec d × Vec d => Gammat_grad0 p.1 p.2 g)
    (hg1 : ∀ g, Measurable fun p : Vec d × Vec d => Gammat_grad1 p.1 p.2 g) (hells : ∀ t, 0 < ells t)
    (hR : sel_resampling resampling = .ok R) (hm : sel_last_step "barker" = .ok mv) :
    RunsReversible volume (pathLogDensity Gamma0 (fun t y x => Gammat y x (Gparams t))) (fun key s => do
      let r ← als_kernel key s.1 s.2 Gamma0 Gamma0_grad Gammat Gammat_grad0 Gammat_grad1 Gparams ells deltas R mv false
      pure (r.xs, r.Bs)) := by
  have hS := sel_ok hR hm
  have hid : ∀ F : AlsFwd N n d, (id F).xs = F.xs ∧ (id F).As = F.As ∧ (id F).log_ws = F.log_ws := fun F => ⟨rfl, rfl, rfl⟩
  have hf0 : false = true → ParentsOK Gammat Gammat_grad0 Gammat_grad1 Gparams ells deltas (id : AlsFwd N n d → _) :=
    fun hb => absurd hb (by decide)
  have e : ∀ key (x : Fin (n + 3) → Vec d) (b : Fin (n + 3) → Fin (N + 1)),
      ((als_kernel key x b Gamma0 Gamma0_grad Gammat Gammat_grad0 Gammat_grad1 Gparams ells deltas R mv false : Ex _) >>=
        fun r => pure (r.xs, r.Bs)) =
      als_kernelF id key x b Gamma0 Gamma0_grad Gammat Gammat_grad0 Gammat_grad1 Gparams ells deltas R mv false :=
    fun key x b => als_kernel_eq_F key x b Gparams ells deltas R mv false
  exact (barker_runs (K := fun mv key s => (als_kernel key s.1 s.2 Gamma0 Gamma0_grad Gammat Gammat_grad0 Gammat_grad1 Gparams ells deltas R mv false : Ex _) >>=
    fun r => pure (r.xs, r.Bs)) hm (measurable_pathLogDensity h0 fun t => h (Gparams t))
    (fun key => als_sliced key Gparams deltas h0 h hg hg0 hg1 hells hS.cond)
    (fun key => by
      simp only [e]
      exact (alsF_markov_relabels key Gparams deltas h0 h hg hg0 hg1 hells hS.cond hS.ker false id hid hf0).1 hS.mass)
    (fun key x b f hf => by
      simp only [e]
      exact als_free Gparams deltas h0 h hg hg0 hg1 hells hR hm hS.cond hS.ker false id hid hf0 key x b hf)).1

/-- **C80** (`al_csmc_s.kernel`). -/
theorem C80_als {G : Type} {Gamma0 : Vec d → ℝ} {Gamma0_grad : Vec d → Vec d} {Gammat : Vec d → Vec d → G → ℝ}
    {Gammat_grad0 Gammat_grad1 : Vec d → Vec d → G → Vec d} (Gparams : Fin (n + 2) → G)
    {ells : Fin (n + 3) → ℝ} (deltas : Fin (n + 3) → ℝ)
    (h0 : Measurable Gamma0) (h : ∀ g, Measurable fun p : Vec d × Vec d => Gammat p.1 p.2 g)
    (hg : Measurable Gamma0_grad) (hg0 : ∀ g, Measurable fun p : Vec d × Vec d => Gammat_grad0 p.1 p.2 g)
    (hg1 : ∀ g, Measurable fun p : Vec d × Vec d => Gammat_grad1 p.1 p.2 g) (hells : ∀ t, 0 < ells t)
    (hR : sel_resampling resampling = .ok R) (hm : sel_last_step "barker" = .ok mv) :
    PositivelyCorrelated volume (pathLogDensity Gamma0 (fun t y x => Gammat y x (Gparams t))) (fun key s => do
      let r ← als_kernel key s.1 s.2 Gamma0 Gamma0_grad Gammat Gammat_grad0 Gammat_grad1 Gparams ells deltas R mv false
      pure (r.xs, r.Bs)) := by
  have hS := sel_ok hR hm
  have hid : ∀ F : AlsFwd N n d, (id F).xs = F.xs ∧ (id F).As = F.As ∧ (id F).log_ws = F.log_ws := fun F => ⟨rfl, rfl, rfl⟩
  have hf0 : false = true → ParentsOK Gammat Gammat_grad0 Gammat_grad1 Gparams ells deltas (id : AlsFwd N n d → _) :=
    fun hb => absurd hb (by decide)
  have e : ∀ key (x : Fin (n + 3) → Vec d) (b : Fin (n + 3) → Fin (N + 1)),
      ((als_kernel key x b Gamma0 Gamma0_grad Gammat Gammat_grad0 Gammat_grad1 Gparams ells deltas R mv false : Ex _) >>=
        fun r => pure (r.xs, r.Bs)) =
      als_kernelF id key x b Gamma0 Gamma0_grad Gammat Gammat_grad0 Gammat_grad1 Gparams ells deltas R mv false :=
    fun key x b => als_kernel_eq_F key x b Gparams ells deltas R mv false
  exact (barker_runs (K := fun mv key s => (als_kernel key s.1 s.2 Gamma0 Gamma0_grad Gammat Gammat_grad0 Gammat_grad1 Gparams ells deltas R mv false : Ex _) >>=
    fun r => pure (r.xs, r.Bs)) hm (measurable_pathLogDensity h0 fun t => h (Gparams t))
    (fun key => als_sliced key Gparams deltas h0 h hg hg0 hg1 hells hS.cond)
    (fun key => by
      simp only [e]
      exact (alsF_markov_relabels key Gparams deltas h0 h hg hg0 hg1 hells hS.cond hS.ker false id hid hf0).1 hS.mass)
    (fun key x b f hf => by
      simp only [e]
      exact als_free Gparams deltas h0 h hg hg0 hg1 hells hR hm hS.cond hS.ker false id hid hf0 key x b hf)).2

variable {MP RP : Type}

/-- **C79** (`tp_csmc.kernel`). -/
theorem C79_tp {svd : Mat d d → SvdOut d} {M : GaussModel MP RP n d} {ells : Fin (n + 1) → ℝ}
    (h : ProposalOK svd M ells) (hM : GaussMeas M) (deltas : Fin (n + 1) → ℝ)
    (hR : sel_resampling resampling = .ok R) (hm : sel_last_step "barker" = .ok mv) :
    RunsReversible volume (gaussPath M) (fun key s => do
      let r ← tp_csmc_kernel svd M key s.1 s.2 ells deltas R mv false
      pure (r.xs, r.Bs)) := by
  have hS := sel_ok hR hm
  exact (barker_runs (K := fun mv key s => (tp_csmc_kernel svd M key s.1 s.2 ells deltas R mv false : Ex _) >>=
    fun r => pure (r.xs, r.Bs)) hm (measurable_gaussPath hM)
    (fun key => tp_sliced h hM key deltas hS.cond false)
    (fun key => tp_markov h hM key deltas hS.cond hS.ker hS.mass false)
    (fun key x b f hf => tp_free h hM deltas hR hm hS.cond hS.ker false key x b hf)).1

/-- **C80** (`tp_csmc.kernel`). -/
theorem C80_tp {svd : Mat d d → SvdOut d} {M : GaussModel MP RP n d} {ells : Fin (n + 1) → ℝ}
    (h : ProposalOK svd M ells) (hM : GaussMeas M) (deltas : Fin (n + 1) → ℝ)
    (hR : sel_resampling resampling = .ok R) (hm : sel_last_step "barker" = .ok mv) :
    PositivelyCorrelated volume (gaussPath M) (fun key s => do
      let r ← tp_csmc_kernel svd M key s.1 s.2 ells deltas R mv false
      pure (r.xs, r.Bs)) := by
  have hS := sel_ok hR hm
  exact (barker_runs (K := fun mv key s => (tp_csmc_kernel svd M key s.1 s.2 ells deltas R mv false : Ex _) >>=
    fun r => pure (r.xs, r.Bs)) hm (measurable_gaussPath hM)
    (fun key => tp_sliced h hM key deltas hS.cond false)
    (fun key => tp_markov h hM key deltas hS.cond hS.ker hS.mass false)
    (fun key x b f hf => tp_free h hM deltas hR hm hS.cond hS.ker false key x b hf)).2

/-- **C79** (`atp_csmc_f.kernel`, for the covariances for which its density is right, C33). -/
theorem C79_atp {svd : Mat d d → SvdOut d} {M : GaussModel MP RP n d} {ells : Fin (n + 1) → ℝ}
    (h : ProposalOK svd M ells) (hM : GaussMeas M)
    (hd : ∀ t, insert0 M.P0 M.Qs t = diagonal (svd (insert0 M.P0 M.Qs t)).Gamma) (deltas : Fin (n + 1) → ℝ)
    (hR : sel_resampling resampling = .ok R) (hm : sel_last_step "barker" = .ok mv) :
    RunsReversible volume (gaussPath M) (fun key s => do
      let r ← atp_kernel svd M key s.1 s.2 ells deltas R mv false
      pure (r.xs, r.Bs)) := by
  have hS := sel_ok hR hm
  have hex : ∀ t, (make_proposal svd M ells t).chol_invᵀ * (make_proposal svd M ells t).chol_inv =
      ((make_proposal svd M ells t).chol * (make_proposal svd M ells t).cholᵀ)⁻¹ := fun t => by
    rw [svd_chol_eq h t]
    exact (atp_precision_iff (h.posDef t) (h.isSvd t) (h.pos t) (h.floor t)).mpr (hd t)
  exact (barker_runs (K := fun mv key s => (atp_kernel svd M key s.1 s.2 ells deltas R mv false : Ex _) >>=
    fun r => pure (r.xs, r.Bs)) hm (measurable_gaussPath hM)
    (fun key => atp_sliced h hM hex key deltas hS.cond false)
    (fun key => atp_markov h hM hex key deltas hS.cond hS.ker hS.mass false)
    (fun key x b f _ => atp_free h hex deltas hR hm false key x b f)).1

/-- **C80** (`atp_csmc_f.kernel`, for the covariances for which its density is right, C33). -/
theorem C80_atp {svd : Mat d d → SvdOut d} {M : GaussModel MP RP n d} {ells : Fin (n + 1) → ℝ}
    (h : ProposalOK svd M ells) (hM : GaussMeas M)
    (hd : ∀ t, insert0 M.P0 M.Qs t = diagonal (svd (insert0 M.P0 M.Qs t)).Gamma) (deltas : Fin (n + 1) → ℝ)
    (hR : sel_resampling resampling = .ok R) (hm : sel_last_step "barker" = .ok mv) :
    PositivelyCorrelated volume (gaussPath M) (fun key s => do
      let r ← atp_kernel svd M key s.1 s.2 ells deltas R mv false
      pure (r.xs, r.Bs)) := by
  have hS := sel_ok hR hm
  have hex : ∀ t, (make_proposal svd M ells t).chol_invᵀ * (make_proposal svd M ells t).chol_inv =
      ((make_proposal svd M ells t).chol * (make_proposal svd M ells t).cholᵀ)⁻¹ := fun t => by
    rw [svd_chol_eq h t]
    exact (atp_precision_iff (h.posDef t) (h.isSvd t) (h.pos t) (h.floor t)).mpr (hd t)
  exact (barker_runs (K := fun mv key s => (atp_kernel svd M key s.1 s.2 ells deltas R mv false : Ex _) >>=
    fun r => pure (r.xs, r.Bs)) hm (measurable_gaussPath hM)
    (fun key => atp_sliced h hM hex key deltas hS.cond false)
    (fun key => atp_markov h hM hex key deltas hS.cond hS.ker hS.mass false)
    (fun key x b f _ => atp_free h hex deltas hR hm false key x b f)).2

/-- **C79** (`t_atp_csmc_f.kernel`, for the models for which its reversed dynamics are right, C36). -/
theorem C79_t_atp {M : LinModel RP n d} {ells : Fin (n + 1) → ℝ} (hM : LinMeas M)
    (hr : IsReversal M.mu0 M.P0 M.Fs M.Qs M.bs (get_reversed_dynamics M.mu0 M.P0 M.Fs M.Qs M.bs))
    (hells : ∀ t, 0 < ells t) (deltas : Fin (n + 1) → ℝ)
    (hR : sel_resampling resampling = .ok R) (hm : sel_last_step "barker" = .ok mv) :
    RunsReversible volume (linPath M) (fun key s => do
      let r ← t_atp_kernel M key s.1 s.2 ells deltas R mv false
      pure (r.xs, r.Bs)) := by
  have hS := sel_ok hR hm
  exact (barker_runs (K := fun mv key s => (t_atp_kernel M key s.1 s.2 ells deltas R mv false : Ex _) >>=
    fun r => pure (r.xs, r.Bs)) hm (measurable_linPath hM)
    (fun key => t_sliced_model key hM hr hells deltas hS.cond false)
    (fun key => t_markov hM hr.final_posDef hr.posDef hells key deltas hS.cond hS.ker hS.mass false)
    (fun key x b f _ => t_free hr.final_posDef hr.posDef hells deltas hR hm false key x b f)).1

/-- **C80** (`t_atp_csmc_f.kernel`, for the models for which its reversed dynamics are right, C36). -/
theorem C80_t_atp {M : LinModel RP n d} {ells : Fin (n + 1) → ℝ} (hM : LinMeas M)
    (hr : IsReversal M.mu0 M.P0 M.Fs M.Qs M.bs (get_reversed_dynamics M.mu0 M.P0 M.Fs M.Qs M.bs))
    (hells : ∀ t, 0 < ells t) (deltas : Fin (n + 1) → ℝ)
    (hR : sel_resampling resampling = .ok R) (hm : sel_last_step "barker" = .ok mv) :
    PositivelyCorrelated volume (linPath M) (fun key s => do
      let r ← t_atp_kernel M key s.1 s.2 ells deltas R mv false
      pure (r.xs, r.Bs)) := by
  have hS := sel_ok hR hm
  exact (barker_runs (K := fun mv key s => (t_atp_kernel M key s.1 s.2 ells deltas R mv false : Ex _) >>=
    fun r => pure (r.xs, r.Bs)) hm (measurable_linPath hM)
    (fun key => t_sliced_model key hM hr hells deltas hS.cond false)
    (fun key => t_markov hM hr.final_posDef hr.posDef hells key deltas hS.cond hS.ker hS.mass false)
    (fun key x b f _ => t_free hr.final_posDef hr.posDef hells deltas hR hm false key x b f)).2

/-! ## Instances -/

/-- The bootstrap filter of the linear Gaussian experiment: the probability that the first coordinate at time 3 goes from
negative to positive in four steps equals that of going from positive to negative. -/
example (ys : Traj 20 3) (keys : Fin 4 → Key) :
    targetMean volume (lgTarget 2 ys) (fun s => chain (fun key (s : PathState (Vec 3) 25 19) => (do
        let r ← lg_csmc_kernel ys 2 (fun key w i j c => killing key w i j c) (fun key w k => barker_move key w k) false key s.1 s.2
        pure (r.xs, r.Bs) : Ex _)) s keys (fun tr => if (tr 0).1 3 0 < 0 ∧ 0 < (tr 4).1 3 0 then 1 else 0)) =
    targetMean volume (lgTarget 2 ys) (fun s => chain (fun key (s : PathState (Vec 3) 25 19) => (do
        let r ← lg_csmc_kernel ys 2 (fun key w i j c => killing key w i j c) (fun key w k => barker_move key w k) false key s.1 s.2
        pure (r.xs, r.Bs) : Ex _)) s (fun i => keys i.rev) (fun tr => if (tr 4).1 3 0 < 0 ∧ 0 < (tr 0).1 3 0 then 1 else 0)) := by
  have h := C79_csmc (N := 25) (resampling := "killing") volume (C19_lgssm_proper ys (sigma := 2) (by norm_num))
    ⟨fun _ => rfl, fun _ => rfl⟩ (tailA ys) (tailA ys) rfl rfl
  rw [← lgTarget_gamma ys (by norm_num)]
  exact h 4 keys (fun tr => if (tr 0).1 3 0 < 0 ∧ 0 < (tr 4).1 3 0 then 1 else 0)
    (Measurable.ite (MeasurableSet.inter
      (measurableSet_lt (f := fun tr : Fin 5 → PathState (Vec 3) 25 19 => (tr 0).1 3 0) (by fun_prop) measurable_const)
      (measurableSet_lt (g := fun tr : Fin 5 → PathState (Vec 3) 25 19 => (tr 4).1 3 0) measurable_const (by fun_prop)))
      measurable_const measurable_const)

/-- Particle-aMALA with smoothing-style drifts on the same target: 100 thinned samples. -/
example (ys : Traj 20 3) := (C80_als (N := 25) (n := 17) (resampling := "multinomial") (tailA ys) (ells := fun _ => 0.1)
  (fun _ => 0.1) (continuous_lgGamma_0 ys (sigma := 2) (by norm_num)).measurable
  (fun y => (continuous_lgGamma_t (sigma := 2) (by norm_num) y).measurable)
  (measurable_jaxGrad (lgGamma_0 ys 2)) (Gammat_grad0 := fun _ _ _ => 0)
  (Gammat_grad1 := fun x' x y => jaxGrad (fun x => lgGamma_t 2 x' x y) x) (fun _ => measurable_const)
  (measurable_lgGrad (sigma := 2) (by norm_num)) (fun _ => by norm_num) rfl rfl).average
    (fun x => if 0 < x 3 1 then 1 else 0)
    (Measurable.ite (measurableSet_lt measurable_const (by fun_prop)) measurable_const measurable_const) [7] 1000 10

/-- The twisted kernel of the linear Gaussian experiment. -/
example (ys : Traj 10 3) := C80_t_atp (N := 25) (resampling := "killing") (lgLin_meas ys 0.1 true) (by
    have h := C36_scalar_partial (d := 3) (n := 9) (fun _ => 1) (posDef_smul_one (r := (0.1 : ℝ) ^ 2) (by norm_num))
      (fun _ => posDef_smul_one (r := (0.1 : ℝ) ^ 2) (by norm_num))
    simp only [one_smul] at h
    exact h) (ells := fun _ => 0.01) (fun _ => by norm_num) (fun _ => 0.01) rfl rfl

end Verif.Props
