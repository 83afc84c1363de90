import Verif.Lemmas.AtpDensity
import Verif.Spec.RepairedAgrad

/-!
# Particle-aGRAD: the particle system given the auxiliary variables, and `atp_csmc_f.kernel`
-/

open scoped ENNReal
open MeasureTheory ProbabilityTheory

namespace Verif
open Verif.Spec Verif.Model Matrix

variable {N n d : ℕ} {MP RP : Type}

/-- The particle system given the auxiliary variables `u`: particles around `dt + B u`. -/
noncomputable def atpSys (Γ0 : Vec d → ℝ) (Γ : Fin n → Vec d → Vec d → ℝ) (φ0 : Vec d → Vec d)
    (φ : Fin n → Vec d → Vec d → Vec d) (B L : Fin (n + 1) → Mat d d) (s : Fin (n + 1) → ℝ) (d0 : Vec d)
    (dt : Fin n → Vec d → Vec d)
    (R : Fin n → (Fin (N + 1) → ℝ) → Fin (N + 1) → Fin (N + 1) → Ex (Anc N)) (u : Fin (n + 1) → Vec d) :
    Sys (Vec d) N n where
  G0 f := ∫⁻ x, ENNReal.ofReal (Real.exp (augG0 Γ0 φ0 s u x)) * f x
  G t y f := ∫⁻ x, ENNReal.ofReal (Real.exp (augG Γ φ s u t y x)) * f x
  Q0 b x := gaussP N (L 0) (fun _ => d0 + B 0 *ᵥ u 0) >>= fun Xs => pure (atSet Xs b x)
  LW0 Xs i := augG0 Γ0 φ0 s u (Xs i) - normalLogpdf (d0 + B 0 *ᵥ u 0) (L 0 * (L 0)ᵀ) (Xs i)
  Q t Y b x := gaussP N (L t.succ) (fun i => dt t (Y i) + B t.succ *ᵥ u t.succ) >>= fun Xs => pure (atSet Xs b x)
  LW t Y Xs i := augG Γ φ s u t (Y i) (Xs i) -
    normalLogpdf (dt t (Y i) + B t.succ *ᵥ u t.succ) (L t.succ * (L t.succ)ᵀ) (Xs i)
  R := R
  Z0 := gaussP N (L 0) (fun _ => d0 + B 0 *ᵥ u 0)
  Z t Y := gaussP N (L t.succ) (fun i => dt t (Y i) + B t.succ *ᵥ u t.succ)

section
variable {Γ0 : Vec d → ℝ} {Γ : Fin n → Vec d → Vec d → ℝ} {φ0 : Vec d → Vec d}
  {φ : Fin n → Vec d → Vec d → Vec d} {B L : Fin (n + 1) → Mat d d} {s : Fin (n + 1) → ℝ} {d0 : Vec d}
  {dt : Fin n → Vec d → Vec d}
  {R : Fin n → (Fin (N + 1) → ℝ) → Fin (N + 1) → Fin (N + 1) → Ex (Anc N)}

theorem atp_mean_meas (hdt : ∀ t, Measurable (dt t)) (t : Fin n) {β : Type} [MeasurableSpace β] {u : β → Fin (n + 1) → Vec d}
    {Y : β → PA (Vec d) N} (hu : Measurable u) (hY : Measurable Y) :
    Measurable fun p i => dt t (Y p i) + B t.succ *ᵥ u p t.succ :=
  measurable_pi_lambda _ fun i => measurable_affine _ ((hdt t).comp ((measurable_pi_apply i).comp hY))
    ((measurable_pi_apply t.succ).comp hu)

theorem atpSys_meas (h0 : Measurable Γ0) (h : ∀ t, Measurable fun p : Vec d × Vec d => Γ t p.1 p.2)
    (hφ0 : Measurable φ0) (hφ : ∀ t, Measurable fun p : Vec d × Vec d => φ t p.1 p.2)
    (hdt : ∀ t, Measurable (dt t))
    (hR : ∀ t, CondResampling (R t)) : SysMeas (atpSys Γ0 Γ φ0 φ B L s d0 dt R) where
  Q0_ker := isKer_gaussSet (L 0) (c := fun (p : (Fin (n + 1) → Vec d) × Fin (N + 1) × Vec d) _ => d0 + B 0 *ᵥ p.1 0)
    (by fun_prop) (by fun_prop) (by fun_prop)
  Q_ker t := isKer_gaussSet (L t.succ) (c := fun (p : (Fin (n + 1) → Vec d) × PA (Vec d) N × Fin (N + 1) × Vec d) i =>
    dt t (p.2.1 i) + B t.succ *ᵥ p.1 t.succ) (b := fun p => p.2.2.1) (x := fun p => p.2.2.2)
    (atp_mean_meas hdt t (by fun_prop) (by fun_prop)) (by fun_prop) (by fun_prop)
  LW0_meas := by
    refine measurable_pi_lambda _ fun i => ?_
    show Measurable fun p : (Fin (n + 1) → Vec d) × PA (Vec d) N =>
      augG0 Γ0 φ0 s p.1 (p.2 i) - normalLogpdf (d0 + B 0 *ᵥ p.1 0) (L 0 * (L 0)ᵀ) (p.2 i)
    exact (measurable_augG0 h0 hφ0 s (by fun_prop) (by fun_prop)).sub (measurable_normalLogpdf _ (by fun_prop) (by fun_prop))
  LW_meas t := by
    refine measurable_pi_lambda _ fun i => ?_
    have h1 := measurable_augG h hφ s t (u := fun p : (Fin (n + 1) → Vec d) × PA (Vec d) N × PA (Vec d) N => p.1)
      (y := fun p => p.2.1 i) (x := fun p => p.2.2 i) (by fun_prop) (by fun_prop) (by fun_prop)
    have h2 := (measurable_pi_apply i).comp (atp_mean_meas (N := N) (B := B) hdt t
      (u := fun p : (Fin (n + 1) → Vec d) × PA (Vec d) N × PA (Vec d) N => p.1) (Y := fun p => p.2.1) (by fun_prop) (by fun_prop))
    exact h1.sub (measurable_normalLogpdf _ h2 (by fun_prop))
  R_ker t := (hR t).ker.comp measurable_snd

theorem atpSys_OK (h0 : Measurable Γ0) (h : ∀ t, Measurable fun p : Vec d × Vec d => Γ t p.1 p.2)
    (hφ0 : Measurable φ0) (hφ : ∀ t, Measurable fun p : Vec d × Vec d => φ t p.1 p.2)
    (hdt : ∀ t, Measurable (dt t)) (hL : ∀ t, (L t).det ≠ 0)
    (hR : ∀ t, CondResampling (R t)) (u : Fin (n + 1) → Vec d) :
    (atpSys Γ0 Γ φ0 φ B L s d0 dt R u).OK := by
  have hM := atpSys_meas (N := N) (B := B) (L := L) (s := s) (d0 := d0) h0 h hφ0 hφ hdt hR
  exact {
  G0_ker := by
    have := isKer_density (lam := volume) (g := fun _ : Unit => augG0 Γ0 φ0 s u) (by fun_prop)
    exact this
  G_ker t := by
    have := isKer_density (lam := volume) (g := augG Γ φ s u t) (measurable_augG h hφ s t measurable_const
      (by fun_prop) (by fun_prop))
    exact this
  Q0_ker := hM.Q0_ker.comp
    (g := fun p : Fin (N + 1) × Vec d => (u, p)) (by fun_prop)
  Q_ker t := (hM.Q_ker t).comp
    (g := fun p : PA (Vec d) N × Fin (N + 1) × Vec d => (u, p)) (by fun_prop)
  Q0_mass b x := by
    have := gaussP_mass (N := N) (hL 0) (fun _ => d0 + B 0 *ᵥ u 0)
    exact this
  Q_mass t Y b x := by
    have := gaussP_mass (N := N) (hL t.succ) (fun i => dt t (Y i) + B t.succ *ᵥ u t.succ)
    exact this
  LW0_meas := by
    have := hM.LW0_meas.comp (measurable_const.prodMk measurable_id : Measurable fun p : PA (Vec d) N => (u, p))
    exact this
  LW_meas t := by
    have := (hM.LW_meas t).comp
      (measurable_const.prodMk measurable_id : Measurable fun p : PA (Vec d) N × PA (Vec d) N => (u, p))
    exact this
  R_ok := hR
  Z0_ker := (gaussP_ker (L 0)).comp measurable_const
  Z_ker t := (gaussP_ker (L t.succ)).comp (atp_mean_meas (B := B) hdt t measurable_const measurable_id)
  id0 b f hf := by
    have := (gaussP_samplesFrom (N := N) (hL 0) (fun _ => d0 + B 0 *ᵥ u 0)).conditional (g := augG0 Γ0 φ0 s u)
      (by fun_prop) b f hf
    exact this
  idt t Y b f hf := by
    have := (gaussP_samplesFrom (N := N) (hL t.succ) (fun i => dt t (Y i) + B t.succ *ᵥ u t.succ)).conditional
      (g := augG Γ φ s u t (Y b)) (measurable_augG h hφ s t measurable_const measurable_const (by fun_prop)) b f hf
    exact this }

theorem atpSys_mixture (h0 : Measurable Γ0) (h : ∀ t, Measurable fun p : Vec d × Vec d => Γ t p.1 p.2)
    (hφ0 : Measurable φ0) (hφ : ∀ t, Measurable fun p : Vec d × Vec d => φ t p.1 p.2)
    (hdt : ∀ t, Measurable (dt t)) (hL : ∀ t, (L t).det ≠ 0) (hs : ∀ t, 0 < s t) (hR : ∀ t, CondResampling (R t))
    {move : (Fin (N + 1) → ℝ) → Fin (N + 1) → Ex (Fin (N + 1))} (hm : MoveInvariant move) (backward : Bool)
    {K : (Fin (n + 1) → Vec d) → (Fin (n + 1) → Fin (N + 1)) →
      Ex ((Fin (n + 1) → Vec d) × (Fin (n + 1) → Fin (N + 1)))}
    (hK : ∀ x b f, Measurable f → K x b f = ∫⁻ e, (atpSys Γ0 Γ φ0 φ B L s d0 dt R
        (fun t j => auxCenter φ0 φ x t j + s t * e t j)).kernel
      (augG Γ φ s (fun t j => auxCenter φ0 φ x t j + s t * e t j)) move backward x b f
        ∂(Measure.pi fun _ : Fin (n + 1) => gaussM d)) :
    LeavesInvariant volume (pathLogDensity Γ0 Γ) K :=
  aux_mixture h0 h hφ0 hφ hs (fun u => atpSys_OK h0 h hφ0 hφ hdt hL hR u) (atpSys_meas h0 h hφ0 hφ hdt hR)
    (fun _ _ _ => rfl) (fun _ _ _ _ _ => rfl) hm backward hK

end

section program
variable {svd : Mat d d → SvdOut d} {M : GaussModel MP RP n d} {ells : Fin (n + 1) → ℝ}

/-- The system of `atp_csmc_f` given the auxiliary variables. -/
noncomputable def atpS (svd : Mat d d → SvdOut d) (M : GaussModel MP RP n d) (key : Key) (ells deltas : Fin (n + 1) → ℝ)
    (resampling : Resampling Ex N) (u : Fin (n + 1) → Vec d) : Sys (Vec d) N n :=
  atpSys (tpGamma_0 M.mu0 (invChol M.P0) M.r0) (tpGam M)
    (tpPhi0 M deltas) (tpPhi M deltas) (tpB svd M ells) (fun t => (make_proposal svd M ells t).chol) (auxStd ells)
    (M.mu0 - tpB svd M ells 0 *ᵥ M.mu0) (tpD M (tpB svd M ells))
    (fun t w i j => resampling (splitKey (splitKey (splitKey (splitKey key 3 0) 3 1) n t) 2 1) w i j true) u

/-- Key of the last move. -/
def atpMoveKey (key : Key) (n : ℕ) (backward : Bool) : Key :=
  if backward then lastA (splitKey (splitKey (splitKey key 3 0) 3 2) (n + 1)) else splitKey (splitKey key 3 0) 3 2

theorem atp_aug (hells : ∀ t, 0 < ells t) (t : Fin (n + 1)) (u x φ : Vec d) :
    -sumSq (fun j => u j - x j - φ j) / ells t = isoLogpdf (auxStd ells t) (x + φ) u + isoC d (auxStd ells t) := by
  have : sumSq (fun j => u j - x j - φ j) = sumSq (fun j => u j - (x + φ) j) := Finset.sum_congr rfl fun j _ => by
    simp only [Pi.add_apply]; ring
  rw [isoLogpdf, auxStd_sq hells, this]
  ring

theorem atp_mean (B K1 K2 : Mat d d) (hB : B = K1 * K2) (m u : Vec d) :
    m + K1 *ᵥ (K2 *ᵥ (u - m)) = (m - B *ᵥ m) + B *ᵥ u := by
  rw [mulVec_mulVec, ← hB, mulVec_sub]
  abel

/-- `atp_csmc_f.kernel` is a mixture, over the auxiliary variables, of the kernels given them, provided that its
proposal density is that of its proposal. -/
theorem atp_kernelWith_eq (h : ProposalOK svd M ells) {prop : Fin (n + 1) → PropParams d}
    (hp : RightProposal svd M ells prop)
    (key : Key) (x : Fin (n + 1) → Vec d) (b : Fin (n + 1) → Fin (N + 1)) (deltas : Fin (n + 1) → ℝ)
    {resampling : Resampling Ex N} {mv : AncestorMove Ex N} (backward : Bool)
    (f : (Fin (n + 1) → Vec d) × (Fin (n + 1) → Fin (N + 1)) → ℝ≥0∞) :
    ((atp_kernelWith prop M key x b ells deltas resampling mv backward : Ex _) >>= fun r => pure (r.xs, r.Bs)) f =
    ∫⁻ e, (atpS svd M key ells deltas resampling
        (auxVars M.r0_grad M.rt_grad M.rt_params deltas (auxStd ells) x e)).kernel
      (augG (tpGam M) (tpPhi M deltas) (auxStd ells)
        (auxVars M.r0_grad M.rt_grad M.rt_params deltas (auxStd ells) x e))
      (moveIndex mv (atpMoveKey key n backward)) backward x b f ∂(Measure.pi fun _ : Fin (n + 1) => gaussM d) := by
  refine lintegral_congr fun e => ?_
  obtain ⟨u, hu⟩ : ∃ u, u = auxVars M.r0_grad M.rt_grad M.rt_params deltas (auxStd ells) x e := ⟨_, rfl⟩
  rw [← hu]
  let fk : FK Ex (Vec d) (AtpMParams MP d) (AtpGParams MP RP d) N :=
    { M0_rvs := fun key => atpM0_rvs key (N + 1) (u 0) M.mu0 (prop 0).K_1 (prop 0).K_2 (prop 0).chol
      M0_logpdf := fun x i => atpM0_logpdf (x i) (u 0) M.mu0 (prop 0).K_1 (prop 0).K_2 (prop 0).chol_inv
      Gamma0 := fun x => atpGamma_0 M.r0 M.r0_grad x (u 0) M.mu0 (invChol M.P0) (deltas 0) (ells 0)
      Mt_rvs := fun key x_prev params => atpMt_rvs M.mu key x_prev params
      Mt_logpdf := fun x_prev x params i => atpMt_logpdf M.mu (x_prev i) (x i) params
      Gammat := atpGamma_t M.mu M.rt M.rt_grad }
  let Mp : Fin n → AtpMParams MP d := fun t =>
    ⟨tailA u t, (tailA prop t).K_1, (tailA prop t).K_2, (tailA prop t).chol, (tailA prop t).chol_inv, M.mu_params t⟩
  let Gp : Fin n → AtpGParams MP RP d := fun t =>
    ⟨tailA u t, tailA deltas t, tailA ells t, invChol (M.Qs t), M.mu_params t, M.rt_params t⟩
  let S := atpS svd M key ells deltas resampling u
  have hk := csmc_kernel_eq (splitKey key 3 0) fk Mp Gp resampling mv backward S.G0 S.G S.Z0 S.Z x b
  have hB : ∀ t, tpB svd M ells t = (prop t).K_1 * (prop t).K_2 := fun t => by rw [hp.K_1, hp.K_2]; rfl
  have hC : ∀ t m, ∃ c, ∀ x, c + mvn_logpdf x m 0 (some (prop t).chol_inv) false =
      normalLogpdf m ((prop t).chol * (prop t).cholᵀ) x := fun t m => by
    have hd : (prop t).chol.det ≠ 0 := by rw [hp.chol]; exact h.det t
    exact (mvn_logpdf_eq_iff (mul_transpose_posDef hd) m).mpr (hp.density t)
  have hGam : ∀ t y x, atpGamma_t M.mu M.rt M.rt_grad y x (Gp t) =
      augG (tpGam M) (tpPhi M deltas) (auxStd ells) u t y x + isoC d (auxStd ells t.succ) := by
    intro t y x
    have := atp_aug h.pos t.succ (u t.succ) x (tpPhi M deltas t y x)
    refine (congrArg (fun z => tpGam M t y x + z) this).trans ?_
    rw [augG]
    ring
  have hGam0 : ∀ x, atpGamma_0 M.r0 M.r0_grad x (u 0) M.mu0 (invChol M.P0) (deltas 0) (ells 0) =
      augG0 (tpGamma_0 M.mu0 (invChol M.P0) M.r0) (tpPhi0 M deltas) (auxStd ells) u x + isoC d (auxStd ells 0) := by
    intro x
    have := atp_aug h.pos 0 (u 0) x (tpPhi0 M deltas x)
    refine (congrArg (fun z => tpGamma_0 M.mu0 (invChol M.P0) M.r0 x + z) this).trans ?_
    rw [augG0]
    ring
  have hc := congrFun (Sys.kernel_congr (S := csmcSys (splitKey key 3 0) fk Mp Gp resampling S.G0 S.G S.Z0 S.Z)
    (S' := S) (b := b) (x := x) ?_ ?_ rfl ?_ ?_
    (fun t y x => atpGamma_t M.mu M.rt M.rt_grad y x (Gp t)) (moveIndex mv (atpMoveKey key n backward)) backward) f
  · have hcc := S.kernel_congr_const (Γ := fun t y x => atpGamma_t M.mu M.rt M.rt_grad y x (Gp t))
      (Γ' := augG (tpGam M) (tpPhi M deltas) (auxStd ells) u) (fun t x => ⟨isoC d (auxStd ells t.succ), fun y => hGam t y x⟩)
      (moveIndex mv (atpMoveKey key n backward)) backward
    rw [hcc] at hc
    refine Eq.trans ?_ hc
    refine Eq.trans ?_ (congrFun hk f)
    subst hu
    rfl
  · intro Xs
    obtain ⟨c, hcc⟩ := hC 0 ((M.mu0 - tpB svd M ells 0 *ᵥ M.mu0) + tpB svd M ells 0 *ᵥ u 0)
    refine ⟨c + isoC d (auxStd ells 0), fun i => ?_⟩
    show atpGamma_0 M.r0 M.r0_grad (Xs i) (u 0) M.mu0 (invChol M.P0) (deltas 0) (ells 0) -
      mvn_logpdf (Xs i) (M.mu0 + (prop 0).K_1 *ᵥ ((prop 0).K_2 *ᵥ (u 0 - M.mu0))) 0 (some (prop 0).chol_inv) false =
      augG0 (tpGamma_0 M.mu0 (invChol M.P0) M.r0) (tpPhi0 M deltas) (auxStd ells) u (Xs i) -
        normalLogpdf ((M.mu0 - tpB svd M ells 0 *ᵥ M.mu0) + tpB svd M ells 0 *ᵥ u 0)
          ((make_proposal svd M ells 0).chol * (make_proposal svd M ells 0).cholᵀ) (Xs i) + _
    rw [hGam0, atp_mean _ _ _ (hB 0), ← hp.chol, ← hcc]
    ring
  · intro t Y Xs
    have hcu : ∃ c, ∀ m x, c + mvn_logpdf x m 0 (some (prop t.succ).chol_inv) false =
      normalLogpdf m ((prop t.succ).chol * (prop t.succ).cholᵀ) x := by
      obtain ⟨c, hcc⟩ := hC t.succ 0
      refine ⟨c, fun m x => ?_⟩
      have := hcc (x - m)
      simpa [mvn_logpdf, logpdf_with_inv, normalLogpdf] using this
    obtain ⟨c, hcc⟩ := hcu
    refine ⟨c + isoC d (auxStd ells t.succ), fun i => ?_⟩
    show atpGamma_t M.mu M.rt M.rt_grad (Y i) (Xs i) (Gp t) -
      mvn_logpdf (Xs i) (M.mu (Y i) (M.mu_params t) + (prop t.succ).K_1 *ᵥ ((prop t.succ).K_2 *ᵥ
        (u t.succ - M.mu (Y i) (M.mu_params t)))) 0 (some (prop t.succ).chol_inv) false =
      augG (tpGam M) (tpPhi M deltas) (auxStd ells) u t (Y i) (Xs i) -
        normalLogpdf ((M.mu (Y i) (M.mu_params t) - tpB svd M ells t.succ *ᵥ M.mu (Y i) (M.mu_params t)) +
            tpB svd M ells t.succ *ᵥ u t.succ)
          ((make_proposal svd M ells t.succ).chol * (make_proposal svd M ells t.succ).cholᵀ) (Xs i) + _
    rw [hGam, atp_mean _ _ _ (hB t.succ), ← hp.chol, ← hcc]
    ring
  · show (atpM0_rvs (splitKey (splitKey key 3 0) 3 0) (N + 1) (u 0) M.mu0 (prop 0).K_1 (prop 0).K_2 (prop 0).chol >>=
        fun Xs => (pure (atSet Xs (b 0) (x 0)) : Ex _)) =
      (gaussP N (make_proposal svd M ells 0).chol (fun _ => (M.mu0 - tpB svd M ells 0 *ᵥ M.mu0) +
        tpB svd M ells 0 *ᵥ u 0) >>= fun Xs => pure (atSet Xs (b 0) (x 0)))
    rw [← atp_mean _ _ _ (hB 0), ← hp.chol]
    rfl
  · intro t Y
    show (atpMt_rvs M.mu (splitKey (splitKey (splitKey (splitKey key 3 0) 3 1) n t) 2 0) Y (Mp t) >>= fun Xs =>
        (pure (atSet Xs (b t.succ) (x t.succ)) : Ex _)) =
      (gaussP N (make_proposal svd M ells t.succ).chol (fun i =>
        (M.mu (Y i) (M.mu_params t) - tpB svd M ells t.succ *ᵥ M.mu (Y i) (M.mu_params t)) +
          tpB svd M ells t.succ *ᵥ u t.succ) >>= fun Xs => pure (atSet Xs (b t.succ) (x t.succ)))
    simp only [← atp_mean _ _ _ (hB t.succ), ← hp.chol]
    rfl

/-- The parameters of the code are right if `chol_inv` is. -/
theorem make_proposal_right (hex : ∀ t, (make_proposal svd M ells t).chol_invᵀ * (make_proposal svd M ells t).chol_inv =
      ((make_proposal svd M ells t).chol * (make_proposal svd M ells t).cholᵀ)⁻¹) :
    RightProposal svd M ells (make_proposal svd M ells) := ⟨fun _ => rfl, fun _ => rfl, fun _ => rfl, hex⟩

@[inherit_doc atp_kernelWith_eq]
theorem atp_kernel_eq (h : ProposalOK svd M ells)
    (hex : ∀ t, (make_proposal svd M ells t).chol_invᵀ * (make_proposal svd M ells t).chol_inv =
      ((make_proposal svd M ells t).chol * (make_proposal svd M ells t).cholᵀ)⁻¹)
    (key : Key) (x : Fin (n + 1) → Vec d) (b : Fin (n + 1) → Fin (N + 1)) (deltas : Fin (n + 1) → ℝ)
    {resampling : Resampling Ex N} {mv : AncestorMove Ex N} (backward : Bool)
    (f : (Fin (n + 1) → Vec d) × (Fin (n + 1) → Fin (N + 1)) → ℝ≥0∞) :
    ((atp_kernel svd M key x b ells deltas resampling mv backward : Ex _) >>= fun r => pure (r.xs, r.Bs)) f =
    ∫⁻ e, (atpS svd M key ells deltas resampling
        (auxVars M.r0_grad M.rt_grad M.rt_params deltas (auxStd ells) x e)).kernel
      (augG (tpGam M) (tpPhi M deltas) (auxStd ells)
        (auxVars M.r0_grad M.rt_grad M.rt_params deltas (auxStd ells) x e))
      (moveIndex mv (atpMoveKey key n backward)) backward x b f ∂(Measure.pi fun _ : Fin (n + 1) => gaussM d) :=
  atp_kernelWith_eq h (make_proposal_right hex) key x b deltas backward f

theorem atpWith_invariant (h : ProposalOK svd M ells) (hM : GaussMeas M) {prop : Fin (n + 1) → PropParams d}
    (hp : RightProposal svd M ells prop)
    (key : Key) (deltas : Fin (n + 1) → ℝ) {resampling : Resampling Ex N} {mv : AncestorMove Ex N}
    (hR : ∀ key, CondResampling (fun w i j => resampling key w i j true))
    (hmv : ∀ key, MoveInvariant (moveIndex mv key)) (backward : Bool) :
    LeavesInvariant volume (pathLogDensity (tpGamma_0 M.mu0 (invChol M.P0) M.r0) (tpGam M))
      (fun x b => (atp_kernelWith prop M key x b ells deltas resampling mv backward : Ex _) >>= fun r => pure (r.xs, r.Bs)) := by
  refine atpSys_mixture (Γ0 := tpGamma_0 M.mu0 (invChol M.P0) M.r0) (Γ := tpGam M) (φ0 := tpPhi0 M deltas)
    (φ := tpPhi M deltas) (B := tpB svd M ells) (L := fun t => (make_proposal svd M ells t).chol) (s := auxStd ells)
    (d0 := M.mu0 - tpB svd M ells 0 *ᵥ M.mu0) (dt := tpD M (tpB svd M ells))
    (R := fun t w i j => resampling (splitKey (splitKey (splitKey (splitKey key 3 0) 3 1) n t) 2 1) w i j true)
    hM.gamma0 hM.gamma (hM.phi0 deltas) (hM.phi deltas) (hM.dt _) h.det (auxStd_pos h.pos) (fun t => hR _)
    (hmv (atpMoveKey key n backward)) backward fun x b f hf => ?_
  have := atp_kernelWith_eq h hp key x b deltas (resampling := resampling) (mv := mv) backward f
  simp only [auxVars_center] at this
  exact this

theorem atp_invariant (h : ProposalOK svd M ells) (hM : GaussMeas M)
    (hex : ∀ t, (make_proposal svd M ells t).chol_invᵀ * (make_proposal svd M ells t).chol_inv =
      ((make_proposal svd M ells t).chol * (make_proposal svd M ells t).cholᵀ)⁻¹)
    (key : Key) (deltas : Fin (n + 1) → ℝ) {resampling : Resampling Ex N} {mv : AncestorMove Ex N}
    (hR : ∀ key, CondResampling (fun w i j => resampling key w i j true))
    (hmv : ∀ key, MoveInvariant (moveIndex mv key)) (backward : Bool) :
    LeavesInvariant volume (pathLogDensity (tpGamma_0 M.mu0 (invChol M.P0) M.r0) (tpGam M))
      (fun x b => (atp_kernel svd M key x b ells deltas resampling mv backward : Ex _) >>= fun r => pure (r.xs, r.Bs)) :=
  atpWith_invariant h hM (make_proposal_right hex) key deltas hR hmv backward

theorem svd_chol_eq (h : ProposalOK svd M ells) (t : Fin (n + 1)) :
    (make_proposal svd M ells t).chol * (make_proposal svd M ells t).cholᵀ = isoPost (ells t / 2) (insert0 M.P0 M.Qs t) :=
  svd_chol (h.posDef t) (h.isSvd t) (h.pos t) (h.floor t)

/-- The target as the code computes it, and its specification. -/
theorem gaussPath_shift (h : ProposalOK svd M ells) {K : (Fin (n + 1) → Vec d) → (Fin (n + 1) → Fin (N + 1)) →
      Ex ((Fin (n + 1) → Vec d) × (Fin (n + 1) → Fin (N + 1)))}
    (hK : LeavesInvariant volume (pathLogDensity (tpGamma_0 M.mu0 (invChol M.P0) M.r0) (tpGam M)) K) :
    LeavesInvariant volume (gaussPath M) K := by
  refine hK.shift (-(d / 2 * Real.log (2 * Real.pi) + Real.log M.P0.det / 2) -
    ∑ t, (d / 2 * Real.log (2 * Real.pi) + Real.log (M.Qs t).det / 2)) fun x => ?_
  have h0 : M.P0.PosDef := h.posDef 0
  have ht : ∀ t, (M.Qs t).PosDef := fun t => h.posDef t.succ
  simp only [gaussPath, pathLogDensity, tpGamma_0, tpGam, tpGamma_t, mvn_logpdf_invChol h0, mvn_logpdf_invChol (ht _),
    Finset.sum_add_distrib]
  ring

end program

theorem atLeast_smul_one (q : ℝ) : AtLeast q (q • (1 : Mat d d)) := by
  rw [AtLeast, sub_self]
  exact PosSemidef.zero

/-- Singular values of an isotropic matrix. -/
theorem isotropic_diagonal {q : ℝ} (hq : 0 < q) {s : SvdOut d} (hs : IsSvd (q • 1) s.U s.Gamma s.U_t) :
    (q • 1 : Mat d d) = diagonal s.Gamma := by
  obtain ⟨-, -, h3⟩ := IsSvd.posDef hs (posDef_smul_one hq)
  rw [← conjD_diag hs.U_orth s.Gamma, ← h3, Matrix.mul_smul, Matrix.smul_mul, Matrix.mul_one, orth_left hs.U_orth]

end Verif
