import Verif.Props.Unique
import Verif.Spec.OneInvariant

/-!
# C86: conditional SMC kernels have at most one invariant law, also with the forced move
-/

open scoped ENNReal
open MeasureTheory

namespace Verif.Props
open Verif Verif.Model Verif.Spec Matrix

variable {N n d : ℕ} {resampling last_step : String} {R : Resampling Ex N} {mv : AncestorMove Ex N}

theorem atMostOneTraj {X : Type} [MeasurableSpace X] {lam : Measure (Fin (n + 1) → X)} (hlam : lam ≠ 0)
    {K : (Fin (n + 1) → X) → (Fin (n + 1) → Fin (N + 1)) → Ex ((Fin (n + 1) → X) × (Fin (n + 1) → Fin (N + 1)))} (hK : MarkovStep K)
    (hrel : Relabels K) (hr : Reaches lam fun s : (Fin (n + 1) → X) × (Fin (n + 1) → Fin (N + 1)) => K s.1 s.2 >>= fun r => pure r.1) :
    AtMostOneTraj K := by
  have hb : ∀ b, IsKer fun x => K x b >>= fun r => pure r.1 := fun b =>
    (hK.ker.comp (g := fun x : Fin (n + 1) → X => (x, b)) (by fun_prop)).bind
      (IsKer.pure (g := fun p : (Fin (n + 1) → X) × ((Fin (n + 1) → X) × (Fin (n + 1) → Fin (N + 1))) => p.2.1) (by fun_prop))
  have same : ∀ b b' (π : Measure (Fin (n + 1) → X)), IsInvariant π (fun x => K x b >>= fun r => pure r.1) →
      IsInvariant π (fun x => K x b' >>= fun r => pure r.1) := fun b b' π h f hf => by
    rw [← h f hf]
    exact lintegral_congr fun x => hrel.indexFree x b' b (fun x _ => f x) fun _ => hf
  have marg : ∀ b (ρ : Measure ((Fin (n + 1) → X) × (Fin (n + 1) → Fin (N + 1)))), IsInvariant ρ (fun s => K s.1 s.2) →
      IsInvariant (ρ.map Prod.fst) (fun x => K x b >>= fun r => pure r.1) := fun b ρ h f hf => by
    rw [lintegral_map ((hb _).measurable' hf) measurable_fst, lintegral_map hf measurable_fst, ← h (fun s => f s.1) (by fun_prop)]
    exact lintegral_congr fun s => hrel.indexFree s.1 b s.2 (fun x _ => f x) fun _ => hf
  have uni : ∀ b₁ b₂ (π₁ π₂ : Measure (Fin (n + 1) → X)) [IsProbabilityMeasure π₁] [IsProbabilityMeasure π₂],
      IsInvariant π₁ (fun x => K x b₁ >>= fun r => pure r.1) → IsInvariant π₂ (fun x => K x b₂ >>= fun r => pure r.1) → π₁ = π₂ :=
    fun b₁ b₂ π₁ π₂ _ _ h₁ h₂ => invariant_unique hlam (hb b₂) (fun x => hK.mass x b₂) (fun x A hA h => hr (x, b₂) A hA h)
      (same b₁ b₂ π₁ h₁) h₂
  refine ⟨uni, fun b π ρ _ _ hπ hρ => ?_, fun ρ₁ ρ₂ _ _ h₁ h₂ => ?_⟩
  · have : IsProbabilityMeasure (ρ.map Prod.fst) := Measure.isProbabilityMeasure_map measurable_fst.aemeasurable
    exact uni b b _ _ (marg b ρ hρ) hπ
  · have : IsProbabilityMeasure (ρ₁.map Prod.fst) := Measure.isProbabilityMeasure_map measurable_fst.aemeasurable
    have : IsProbabilityMeasure (ρ₂.map Prod.fst) := Measure.isProbabilityMeasure_map measurable_fst.aemeasurable
    exact uni (fun _ => 0) (fun _ => 0) _ _ (marg _ ρ₁ h₁) (marg _ ρ₂ h₂)

theorem trajVol_ne (T d : ℕ) : trajVol T d ≠ 0 := fun h => by
  have : trajVol T d Set.univ = 0 := by rw [h]; rfl
  rw [trajVol, Measure.pi_univ, Finset.prod_eq_zero_iff] at this
  obtain ⟨t, -, h⟩ := this
  exact NeZero.ne (volume : Measure (Vec d)) (Measure.measure_univ_eq_zero.mp h)

/-- **C86** for `csmc.kernel` with any proper model, both moves and at least two particles. -/
theorem C86_csmc {X P G : Type} [MeasurableSpace X] (lam : Measure X) [SigmaFinite lam] (hlam : lam ≠ 0) (key : Key) {M : FK Ex X P G N}
    (hM : ProperFK lam M) (Mparams : Fin n → P) (Gparams : Fin n → G) (hR : sel_resampling resampling = .ok R)
    (hm : sel_last_step last_step = .ok mv) (hN : N ≠ 0) (backward : Bool) :
    AtMostOneTraj (fun (x : Fin (n + 1) → X) (b : Fin (n + 1) → Fin (N + 1)) => (do
      let r ← csmc_kernel key x b M Mparams Gparams R mv backward true
      pure (r.xs, r.Bs) : Ex _)) := by
  have hS := sel_ok hR hm
  obtain ⟨h1, h2⟩ := csmc_markov_relabels lam key hM Mparams Gparams hS.cond hS.ker backward
  refine atMostOneTraj (lam := Measure.pi fun _ => lam) (fun h => ?_) (h1 hS.mass) (h2 hS.rotR hS.rot)
    (C70_csmc lam key hM Mparams Gparams hR hm hN backward).1
  have : (Measure.pi fun _ : Fin (n + 1) => lam) Set.univ = 0 := by rw [h]; rfl
  rw [Measure.pi_univ, Finset.prod_eq_zero_iff] at this
  obtain ⟨t, -, h⟩ := this
  exact hlam (Measure.measure_univ_eq_zero.mp h)

section aux
variable {G : Type} {Gamma0 : Vec d → ℝ} {Gamma0_grad : Vec d → Vec d} {Gammat : Vec d → Vec d → G → ℝ}
  {Gammat_grad : Vec d → Vec d → G → Vec d} {ells : Fin (n + 1) → ℝ}

/-- **C86** for `rw_csmc.kernel`. -/
theorem C86_rw (key : Key) (Gparams : Fin n → G)
    (h0 : Measurable Gamma0) (h : ∀ g, Measurable fun p : Vec d × Vec d => Gammat p.1 p.2 g) (hells : ∀ t, 0 < ells t)
    (hR : sel_resampling resampling = .ok R) (hm : sel_last_step last_step = .ok mv) (hN : N ≠ 0) (backward : Bool) :
    AtMostOneTraj (fun (x : Fin (n + 1) → Vec d) (b : Fin (n + 1) → Fin (N + 1)) => (do
      let r ← rw_kernel (fun _ => true) key x b Gamma0 Gammat Gparams ells R mv backward
      pure (r.xs, r.Bs) : Ex _)) := by
  have hS := sel_ok hR hm
  exact atMostOneTraj (trajVol_ne _ _) (rw_markov key Gparams h0 h hells hS.cond hS.ker hS.mass backward)
    (rw_relabels key Gparams h0 h hells hS.cond hS.rotR hS.ker hS.rot backward) (C70_rw key Gparams h0 h hells hR hm hN backward).1

/-- **C86** for `l_csmc_f.kernel` (Particle-MALA). -/
theorem C86_l (key : Key) (Gparams : Fin n → G) (deltas : Fin (n + 1) → ℝ)
    (h0 : Measurable Gamma0) (h : ∀ g, Measurable fun p : Vec d × Vec d => Gammat p.1 p.2 g)
    (hg0 : Measurable Gamma0_grad) (hg : ∀ g, Measurable fun p : Vec d × Vec d => Gammat_grad p.1 p.2 g) (hells : ∀ t, 0 < ells t)
    (hR : sel_resampling resampling = .ok R) (hm : sel_last_step last_step = .ok mv) (hN : N ≠ 0) (backward : Bool) :
    AtMostOneTraj (fun (x : Fin (n + 1) → Vec d) (b : Fin (n + 1) → Fin (N + 1)) => (do
      let r ← l_kernel key x b Gamma0 Gamma0_grad Gammat Gammat_grad Gparams ells deltas R mv backward
      pure (r.xs, r.Bs) : Ex _)) := by
  have hS := sel_ok hR hm
  exact atMostOneTraj (trajVol_ne _ _) (l_markov key Gparams deltas h0 h hg0 hg hells hS.cond hS.ker hS.mass backward)
    (l_relabels key Gparams deltas h0 h hg0 hg hells hS.cond hS.rotR hS.ker hS.rot backward)
    (C70_l key Gparams deltas h0 h hg0 hg hells hR hm hN backward).1

/-- **C86** for `al_csmc_f.kernel` (Particle-aMALA). -/
theorem C86_al (key : Key) (Gparams : Fin n → G) (deltas : Fin (n + 1) → ℝ)
    (h0 : Measurable Gamma0) (h : ∀ g, Measurable fun p : Vec d × Vec d => Gammat p.1 p.2 g)
    (hg0 : Measurable Gamma0_grad) (hg : ∀ g, Measurable fun p : Vec d × Vec d => Gammat_grad p.1 p.2 g) (hells : ∀ t, 0 < ells t)
    (hR : sel_resampling resampling = .ok R) (hm : sel_last_step last_step = .ok mv) (hN : N ≠ 0) (backward : Bool) :
    AtMostOneTraj (fun (x : Fin (n + 1) → Vec d) (b : Fin (n + 1) → Fin (N + 1)) => (do
      let r ← al_kernel key x b Gamma0 Gamma0_grad Gammat Gammat_grad Gparams ells deltas R mv backward
      pure (r.xs, r.Bs) : Ex _)) := by
  have hS := sel_ok hR hm
  exact atMostOneTraj (trajVol_ne _ _) (al_markov key Gparams deltas h0 h hg0 hg hells hS.cond hS.ker hS.mass backward)
    (al_relabels key Gparams deltas h0 h hg0 hg hells hS.cond hS.rotR hS.ker hS.rot backward)
    (C70_al key Gparams deltas h0 h hg0 hg hells hR hm hN backward).1

end aux

section proposals
variable {MP RP : Type} {svd : Mat d d → SvdOut d} {M : GaussModel MP RP n d} {ells : Fin (n + 1) → ℝ}

/-- **C86** for `tp_csmc.kernel` (Particle-mGRAD). -/
theorem C86_tp (h : ProposalOK svd M ells) (hM : GaussMeas M) (key : Key) (deltas : Fin (n + 1) → ℝ)
    (hR : sel_resampling resampling = .ok R) (hm : sel_last_step last_step = .ok mv) (hN : N ≠ 0) (backward : Bool) :
    AtMostOneTraj (fun (x : Fin (n + 1) → Vec d) (b : Fin (n + 1) → Fin (N + 1)) => (do
      let r ← tp_csmc_kernel svd M key x b ells deltas R mv backward
      pure (r.xs, r.Bs) : Ex _)) := by
  have hS := sel_ok hR hm
  exact atMostOneTraj (trajVol_ne _ _) (tp_markov h hM key deltas hS.cond hS.ker hS.mass backward)
    (tp_relabels svd hM key ells deltas hS.cond hS.rotR hS.ker hS.rot backward) (C70_tp h hM key deltas hR hm hN backward).1

/-- **C86** for `atp_csmc_f.kernel` (Particle-aGRAD), for the covariances of C34. -/
theorem C86_atp (h : ProposalOK svd M ells) (hM : GaussMeas M)
    (hd : ∀ t, insert0 M.P0 M.Qs t = diagonal (svd (insert0 M.P0 M.Qs t)).Gamma) (key : Key) (deltas : Fin (n + 1) → ℝ)
    (hR : sel_resampling resampling = .ok R) (hm : sel_last_step last_step = .ok mv) (hN : N ≠ 0) (backward : Bool) :
    AtMostOneTraj (fun (x : Fin (n + 1) → Vec d) (b : Fin (n + 1) → Fin (N + 1)) => (do
      let r ← atp_kernel svd M key x b ells deltas R mv backward
      pure (r.xs, r.Bs) : Ex _)) := by
  have hS := sel_ok hR hm
  have hex : ∀ t, (make_proposal svd M ells t).chol_invᵀ * (make_proposal svd M ells t).chol_inv =
      ((make_proposal svd M ells t).chol * (make_proposal svd M ells t).cholᵀ)⁻¹ := fun t => by
    rw [svd_chol_eq h t]
    exact (atp_precision_iff (h.posDef t) (h.isSvd t) (h.pos t) (h.floor t)).mpr (hd t)
  exact atMostOneTraj (trajVol_ne _ _) (atp_markov h hM hex key deltas hS.cond hS.ker hS.mass backward)
    (atp_relabels svd hM key ells deltas hS.cond hS.rotR hS.ker hS.rot backward) (C70_atp h hM hd key deltas hR hm hN backward).1

end proposals

/-- **C86** for `t_atp_csmc_f.kernel` (twisted Particle-aGRAD), with any reversed dynamics. -/
theorem C86_t {RP : Type} {ells : Fin (n + 1) → ℝ} {M : LinModel RP n d} {r : RevDyn n d} (hM : LinMeas M) (hT : r.PT.PosDef)
    (hQ : ∀ t, (r.Qs t).PosDef) (hells : ∀ t, 0 < ells t) (key : Key) (deltas : Fin (n + 1) → ℝ)
    (hR : sel_resampling resampling = .ok R) (hm : sel_last_step last_step = .ok mv) (hN : N ≠ 0) (backward : Bool) :
    AtMostOneTraj (fun (x : Fin (n + 1) → Vec d) (b : Fin (n + 1) → Fin (N + 1)) => (do
      let r ← t_atp_kernel_rev r M key x b ells deltas R mv backward
      pure (r.xs, r.Bs) : Ex _)) := by
  have hS := sel_ok hR hm
  exact atMostOneTraj (trajVol_ne _ _) (t_markov hM hT hQ hells key deltas hS.cond hS.ker hS.mass backward)
    (t_relabels r hM key ells deltas hS.cond hS.rotR hS.ker hS.rot backward) (C70_t hM hT hQ hells key deltas hR hm hN backward).1

/-- **C86** for `al_csmc_s.kernel` with backward scanning (smoothing-style Particle-aMALA). -/
theorem C86_als {G : Type} {Gamma0 : Vec d → ℝ} {Gamma0_grad : Vec d → Vec d} {Gammat : Vec d → Vec d → G → ℝ}
    {Gammat_grad0 Gammat_grad1 : Vec d → Vec d → G → Vec d} {ells : Fin (n + 3) → ℝ}
    (key : Key) (Gparams : Fin (n + 2) → G) (deltas : Fin (n + 3) → ℝ)
    (h0 : Measurable Gamma0) (h : ∀ g, Measurable fun p : Vec d × Vec d => Gammat p.1 p.2 g)
    (hg : Measurable Gamma0_grad) (hg0 : ∀ g, Measurable fun p : Vec d × Vec d => Gammat_grad0 p.1 p.2 g)
    (hg1 : ∀ g, Measurable fun p : Vec d × Vec d => Gammat_grad1 p.1 p.2 g) (hells : ∀ t, 0 < ells t)
    (hR : sel_resampling resampling = .ok R) (hm : sel_last_step last_step = .ok mv) (hN : N ≠ 0) :
    AtMostOneTraj (fun (x : Fin (n + 3) → Vec d) (b : Fin (n + 3) → Fin (N + 1)) => (do
      let r ← als_kernel key x b Gamma0 Gamma0_grad Gammat Gammat_grad0 Gammat_grad1 Gparams ells deltas R mv false
      pure (r.xs, r.Bs) : Ex _)) := by
  have hS := sel_ok hR hm
  have hr := (C70_als key Gparams deltas h0 h hg hg0 hg1 hells hR hm hN).1
  have e : (fun (x : Fin (n + 3) → Vec d) (b : Fin (n + 3) → Fin (N + 1)) => (do
      let r ← als_kernel key x b Gamma0 Gamma0_grad Gammat Gammat_grad0 Gammat_grad1 Gparams ells deltas R mv false
      pure (r.xs, r.Bs) : Ex _)) =
      fun x b => als_kernelF id key x b Gamma0 Gamma0_grad Gammat Gammat_grad0 Gammat_grad1 Gparams ells deltas R mv false :=
    funext fun x => funext fun b => als_kernel_eq_F key x b Gparams ells deltas R mv false
  obtain ⟨h1, h2⟩ := alsF_markov_relabels key Gparams deltas h0 h hg hg0 hg1 hells hS.cond hS.ker false id
    (fun F => ⟨rfl, rfl, rfl⟩) (fun hb => absurd hb (by decide))
  have h1' := h1 hS.mass
  have h2' := h2 hS.rotR hS.rot
  rw [← e] at h1' h2'
  exact atMostOneTraj (trajVol_ne _ _) h1' h2' hr

/-! ## Examples: the linear Gaussian experiment (`sigma = 2`, `D = 3`, `T = 20`) with the forced move -/

section examples

example (ys : Traj 20 3) : AtMostOneTraj
    (fun (x : Fin 20 → Vec 3) (b : Fin 20 → Fin 2) => (do
      let r ← lg_csmc_kernel ys 2 (fun key w i j c => killing key w i j c) (fun key w k => force_move key w k) true [] x b
      pure (r.xs, r.Bs) : Ex _)) :=
  C86_csmc (resampling := "killing") (last_step := "forced") volume (NeZero.ne _) [] (C19_lgssm_proper ys (by norm_num)) (tailA ys) (tailA ys)
    rfl rfl one_ne_zero true

example (ys : Traj 20 3) : AtMostOneTraj
    (fun (x : Fin 20 → Vec 3) (b : Fin 20 → Fin 26) => (do
      let r ← lg_rw_csmc (fun _ => true) ys 2 (fun key w i j c => multinomial key w i j c) (fun key w k => force_move key w k) true [] x b
        (fun _ => 0.1)
      pure (r.xs, r.Bs) : Ex _)) :=
  C86_rw (resampling := "multinomial") (last_step := "forced") [] (tailA ys) (continuous_lgGamma_0 ys (by norm_num)).measurable
    (fun y => (continuous_lgGamma_t (by norm_num) y).measurable) (fun _ => by norm_num) rfl rfl (by decide) true

example (ys : Traj 20 3) : AtMostOneTraj
    (fun (x : Fin 20 → Vec 3) (b : Fin 20 → Fin 26) => (do
      let r ← lg_mala_csmc_filtering ys 2 (fun key w i j c => killing key w i j c) (fun key w k => force_move key w k) false [] x b
        (fun _ => 0.1)
      pure (r.xs, r.Bs) : Ex _)) :=
  C86_al (resampling := "killing") (last_step := "forced") [] (tailA ys) _ (continuous_lgGamma_0 ys (by norm_num)).measurable
    (fun y => (continuous_lgGamma_t (by norm_num) y).measurable) (measurable_jaxGrad _) (measurable_lgGrad (by norm_num))
    (fun _ => by norm_num) rfl rfl (by decide) false

example (ys : Traj 20 3) := C86_l (N := 25) (Gamma0_grad := jaxGrad (lgGamma_0 ys 2))
  (Gammat_grad := fun x' x y => jaxGrad (fun x => lgGamma_t 2 x' x y) x) (resampling := "killing") (last_step := "forced") [] (tailA ys)
  (fun _ => 0.1) (continuous_lgGamma_0 ys (by norm_num : (0 : ℝ) < 2)).measurable
  (fun y => (continuous_lgGamma_t (by norm_num : (0 : ℝ) < 2) y).measurable)
  (measurable_jaxGrad _) (measurable_lgGrad (by norm_num : (0 : ℝ) < 2)) (ells := fun _ => 0.1) (fun _ => by norm_num) rfl rfl (by decide) true

example (ys : Traj 20 3) : AtMostOneTraj
    (fun (x : Fin 20 → Vec 3) (b : Fin 20 → Fin 26) => (do
      let r ← tp_csmc_kernel (diagSvd 3) (lgGauss ys 2 false) [] x b (fun _ => 0.1) (fun _ => 0.1)
        (fun key w i j c => killing key w i j c) (fun key w k => force_move key w k) true
      pure (r.xs, r.Bs) : Ex _)) ∧ AtMostOneTraj
    (fun (x : Fin 20 → Vec 3) (b : Fin 20 → Fin 26) => (do
      let r ← atp_kernel (diagSvd 3) (lgGauss ys 2 false) [] x b (fun _ => 0.1) (fun _ => 0.1)
        (fun key w i j c => killing key w i j c) (fun key w k => force_move key w k) false
      pure (r.xs, r.Bs) : Ex _)) := by
  have hsvd := diagSvd_smul 3 (c := 2 ^ 2) (by norm_num)
  have hok := lgGauss_ok ys (sigma := 2) (by norm_num) false hsvd (delta := fun _ => 0.1) (fun _ => by norm_num) fun _ => by norm_num
  refine ⟨C86_tp (resampling := "killing") (last_step := "forced") hok (lgGauss_meas ys 2 false) [] _ rfl rfl (by decide) true,
    C86_atp (resampling := "killing") (last_step := "forced") hok (lgGauss_meas ys 2 false) (fun t => ?_) [] _ rfl rfl (by decide) false⟩
  rw [lgGauss_cov]
  exact isotropic_diagonal (by norm_num) hsvd

/-- The kernel of the drifting random walk, which does not leave its target invariant (C57), has at most one invariant law. -/
example (key : Key) : AtMostOneTraj (fun (x : Fin 2 → Vec 1) (b : Fin 2 → Fin 32) => (do
      let r ← t_atp_kernel driftLin key x b (fun _ => 0.01) (fun _ => 0.01) (fun key w i j c => killing key w i j c)
        (fun key w k => force_move key w k) true
      pure (r.xs, r.Bs) : Ex _)) :=
  C86_t (resampling := "killing") (last_step := "forced") driftLin_meas (by rw [driftLin_PT]; exact posDef_smul_one (by norm_num))
    (fun t => by rw [driftLin_Qs]; exact posDef_smul_one (by norm_num)) (fun _ => by norm_num) key _ rfl rfl (by decide) true

example (ys : Traj 20 3) : AtMostOneTraj
    (fun (x : Fin 20 → Vec 3) (b : Fin 20 → Fin 26) => (do
      let r ← als_kernel (n := 17) [] x b (lgGamma_0 ys 2) (jaxGrad (lgGamma_0 ys 2)) (lgGamma_t 2) (fun _ _ _ => 0)
        (fun x' x y => jaxGrad (fun x => lgGamma_t 2 x' x y) x) (tailA ys) (fun _ => 0.1) (fun _ => 0.1)
        (fun key w i j c => killing key w i j c) (fun key w k => force_move key w k) false
      pure (r.xs, r.Bs) : Ex _)) :=
  C86_als (n := 17) (resampling := "killing") (last_step := "forced") [] (tailA ys) _ (continuous_lgGamma_0 ys (by norm_num)).measurable
    (fun y => (continuous_lgGamma_t (by norm_num) y).measurable) (measurable_jaxGrad _) (fun _ => measurable_const)
    (measurable_lgGrad (by norm_num)) (fun _ => by norm_num) rfl rfl (by decide)

end examples

end Verif.Props
