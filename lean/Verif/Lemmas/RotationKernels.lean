import Verif.Lemmas.RotationSys

/-!
# The kernels of the programs do not care about the labels of their particles
-/

open scoped ENNReal
open MeasureTheory ProbabilityTheory Finset

namespace Verif
open Verif.Spec Verif.Model Matrix

variable {N n d : ℕ} {MP RP G : Type}

/-- Relabelling of a mixture of kernels whose parameters depend on the reference. -/
theorem Spec.Relabels.mixture' {X : Type} [MeasurableSpace X] {E : Type} [MeasurableSpace E] {μ : Measure E}
    {K : (Fin (n + 1) → X) → (Fin (n + 1) → Fin (N + 1)) → Ex ((Fin (n + 1) → X) × (Fin (n + 1) → Fin (N + 1)))}
    {F : E → (Fin (n + 1) → X) → (Fin (n + 1) → X) → (Fin (n + 1) → Fin (N + 1)) → Ex ((Fin (n + 1) → X) × (Fin (n + 1) → Fin (N + 1)))}
    (h : ∀ e z, Relabels (F e z)) (hK : ∀ x b f, Measurable f → K x b f = ∫⁻ e, F e x x b f ∂μ) : Relabels K := by
  intro x b s f hf
  rw [hK _ _ _ hf, hK _ _ _ (by fun_prop)]
  exact lintegral_congr fun e => h e x x b s f hf

theorem affine_rot (key : Key) (m m' : Fin (N + 1) → Vec d) (L : Mat d d) (s : Fin (N + 1)) (hm : m' = rotA s m)
    (f : (Fin (N + 1) → Vec d) → ℝ≥0∞) (hf : Measurable f) :
    ((normal2 key (N + 1) d : Ex _) >>= fun eps => (pure (fun i => m' i + L *ᵥ eps i) : Ex _)) f =
      ((normal2 key (N + 1) d : Ex _) >>= fun eps => (pure (fun i => m i + L *ᵥ eps i) : Ex _)) fun Xs => f (rotA s Xs) := by
  subst hm
  exact normal2_rot key s (fun e => f fun i => rotA s m i + L *ᵥ e i) (by fun_prop)

theorem affine_ker {β : Type} [MeasurableSpace β] (key : Key) {m : β → Fin (N + 1) → Vec d} (hm : Measurable m) (L : Mat d d) :
    IsKer fun y => (normal2 key (N + 1) d : Ex _) >>= fun eps => (pure (fun i => m y i + L *ᵥ eps i) : Ex _) := by
  refine IsKer.bind (P := fun _ : β => (normal2 key (N + 1) d : Ex _))
    (F := fun y (eps : Fin (N + 1) → Vec d) => (pure (fun i => m y i + L *ᵥ eps i) : Ex (Fin (N + 1) → Vec d))) ?_
    (IsKer.pure (g := fun p : β × (Fin (N + 1) → Vec d) => fun i => m p.1 i + L *ᵥ p.2 i) (by fun_prop))
  exact IsKer.normal2 key (N + 1) d

section gauss
variable {M : GaussModel MP RP n d} {resampling : Resampling Ex N} {mv : AncestorMove Ex N}

theorem measurable_get_log_H_bis {β : Type} [MeasurableSpace β] (K K_inv : Mat d d) (ell : ℝ) {xs ds : β → Fin (N + 1) → Vec d}
    {x dd phi : β → Vec d} (hxs : Measurable xs) (hds : Measurable ds) (hx : Measurable x) (hdd : Measurable dd)
    (hphi : Measurable phi) : Measurable fun p => get_log_H_bis (xs p) (ds p) K K_inv ell (x p) (dd p) (phi p) := by
  have h1 : Measurable fun p => meanP (xs p) := by unfold meanP; fun_prop
  have h2 : Measurable fun p => meanP (ds p) := by unfold meanP; fun_prop
  unfold get_log_H_bis
  fun_prop

theorem log_H_bis_rot (K K_inv : Mat d d) (ell : ℝ) (s : Fin (N + 1)) (xs ds : Fin (N + 1) → Vec d) :
    get_log_H_bis (rotA s xs) (rotA s ds) K K_inv ell = get_log_H_bis xs ds K K_inv ell := by
  funext x dd phi
  simp only [get_log_H_bis, meanP_rot]

/-- `tp_csmc.kernel` relabels. -/
theorem tp_relabels (svd : Mat d d → SvdOut d) (hM : GaussMeas M) (key : Key) (ells deltas : Fin (n + 1) → ℝ)
    (hR : ∀ key, CondResampling (fun w i j => resampling key w i j true))
    (hR' : ∀ key, RotResampling (fun w i j => resampling key w i j true))
    (hm : ∀ key, MoveKer (moveIndex mv key)) (hm' : ∀ key, RotMove (moveIndex mv key)) (backward : Bool) :
    Relabels (fun x b => (tp_csmc_kernel svd M key x b ells deltas resampling mv backward : Ex _) >>= fun r => pure (r.xs, r.Bs)) := by
  let prop := make_proposal svd M ells
  let Ks := tpB svd M ells
  let fk : (Fin (n + 1) → Vec d) → FK Ex (Vec d) (TpMParams MP RP d) (TpGParams MP RP d) N := fun u =>
    { M0_rvs := fun key => tpM0_rvs key (N + 1) M.mu0 (u 0) (Ks 0) (prop 0).chol
      M0_logpdf := tpM0_logpdf M.mu0 M.r0_grad (Ks 0) (prop 0).K_inv (ells 0) (deltas 0)
      Gamma0 := tpGamma_0 M.mu0 (invChol M.P0) M.r0
      Mt_rvs := fun key x_prev params => tpMt_rvs M.mu key x_prev params
      Mt_logpdf := tpMt_logpdf M.mu M.rt_grad
      Gammat := tpGamma_t M.mu M.rt }
  let Mp : (Fin (n + 1) → Vec d) → Fin n → TpMParams MP RP d := fun u t =>
    ⟨tailA u t, tailA Ks t, (tailA prop t).chol, (tailA prop t).K_inv, tailA ells t, tailA deltas t,
      M.mu_params t, M.rt_params t⟩
  let Gp : Fin n → TpGParams MP RP d := fun t => ⟨invChol (M.Qs t), M.mu_params t, M.rt_params t⟩
  have hrot : ∀ u, RotFK (fk u) := fun u =>
    { M0_rvs := fun key s f hf => affine_rot key (fun _ => M.mu0 + Ks 0 *ᵥ (u 0 - M.mu0)) _ (prop 0).chol s rfl f hf
      M0_logpdf := fun s Xs i => by
        show tpM0_logpdf _ _ _ _ _ _ _ _ = tpM0_logpdf _ _ _ _ _ _ _ _
        simp only [tpM0_logpdf]
        rw [show (fun _ : Fin (N + 1) => M.mu0 - Ks 0 *ᵥ M.mu0) = rotA s fun _ => M.mu0 - Ks 0 *ᵥ M.mu0 from rfl, log_H_bis_rot]
        rfl
      Mt_rvs := fun key s Y p f hf => affine_rot key (fun i => M.mu (Y i) p.mu + p.K *ᵥ (p.u - M.mu (Y i) p.mu)) _ p.chol s rfl f hf
      Mt_logpdf := fun s Y Xs p i => by
        show tpMt_logpdf _ _ _ _ _ _ = tpMt_logpdf _ _ _ _ _ _
        simp only [tpMt_logpdf]
        rw [show (fun i => M.mu (rotA s Y i) p.mu - p.K *ᵥ M.mu (rotA s Y i) p.mu) =
          rotA s fun i => M.mu (Y i) p.mu - p.K *ᵥ M.mu (Y i) p.mu from rfl, log_H_bis_rot]
        rfl }
  have hmeas : ∀ u, MeasFK (fk u) n (Mp u) Gp := fun u =>
    { M0_rvs := fun key => affine_ker key (m := fun (_ : Unit) _ => M.mu0 + Ks 0 *ᵥ (u 0 - M.mu0)) measurable_const _
      M0_logpdf := measurable_pi_lambda _ fun i => by
        have := hM.r0_grad
        exact (measurable_get_log_H_bis _ _ _ (by fun_prop) (by fun_prop) (by fun_prop) (by fun_prop) (by fun_prop)).neg
      Gamma0 := hM.gamma0
      Mt_rvs := fun key t => affine_ker key (m := fun (Y : Fin (N + 1) → Vec d) i => M.mu (Y i) (M.mu_params t) + Ks t.succ *ᵥ (u t.succ - M.mu (Y i) (M.mu_params t)))
        (measurable_pi_lambda _ fun i => by
          have := hM.mu t
          fun_prop) _
      Mt_logpdf := fun t => measurable_pi_lambda _ fun i => by
        have h1 := hM.rt_grad t
        have h2 := hM.mu t
        refine (measurable_get_log_H_bis _ _ _ (by fun_prop) (measurable_pi_lambda _ fun i => ?_) (by fun_prop) ?_ ?_).neg
        · fun_prop
        · fun_prop
        · have : Measurable fun p : (Fin (N + 1) → Vec d) × (Fin (N + 1) → Vec d) => M.rt_grad (p.1 i) (p.2 i) (M.rt_params t) :=
            h1.comp (by fun_prop : Measurable fun p : (Fin (N + 1) → Vec d) × (Fin (N + 1) → Vec d) => (p.1 i, p.2 i))
          exact measurable_pi_lambda _ fun j => ((measurable_pi_apply j).comp this).const_mul _
      Gammat := hM.gamma }
  refine Relabels.mixture' (μ := Measure.pi fun _ : Fin (n + 1) => gaussM d)
    (F := fun e z x b => (csmc_kernel (splitKey key 2 0) x b
      (fk (auxVars M.r0_grad M.rt_grad M.rt_params deltas (auxStd ells) z e))
      (Mp (auxVars M.r0_grad M.rt_grad M.rt_params deltas (auxStd ells) z e)) Gp resampling mv backward true : Ex _) >>=
        fun r => pure (r.xs, r.Bs)) (fun e z => csmc_relabels _ (hrot _) (hmeas _) hR hR' hm hm' backward) fun x b f hf => rfl

/-- `atp_csmc_f.kernel` relabels. -/
theorem atp_relabels (svd : Mat d d → SvdOut d) (hM : GaussMeas M) (key : Key) (ells deltas : Fin (n + 1) → ℝ)
    (hR : ∀ key, CondResampling (fun w i j => resampling key w i j true))
    (hR' : ∀ key, RotResampling (fun w i j => resampling key w i j true))
    (hm : ∀ key, MoveKer (moveIndex mv key)) (hm' : ∀ key, RotMove (moveIndex mv key)) (backward : Bool) :
    Relabels (fun x b => (atp_kernel svd M key x b ells deltas resampling mv backward : Ex _) >>= fun r => pure (r.xs, r.Bs)) := by
  let prop := make_proposal svd M ells
  let fk : (Fin (n + 1) → Vec d) → FK Ex (Vec d) (AtpMParams MP d) (AtpGParams MP RP d) N := fun u =>
    { M0_rvs := fun key => atpM0_rvs key (N + 1) (u 0) M.mu0 (prop 0).K_1 (prop 0).K_2 (prop 0).chol
      M0_logpdf := fun x i => atpM0_logpdf (x i) (u 0) M.mu0 (prop 0).K_1 (prop 0).K_2 (prop 0).chol_inv
      Gamma0 := fun x => atpGamma_0 M.r0 M.r0_grad x (u 0) M.mu0 (invChol M.P0) (deltas 0) (ells 0)
      Mt_rvs := fun key x_prev params => atpMt_rvs M.mu key x_prev params
      Mt_logpdf := fun x_prev x params i => atpMt_logpdf M.mu (x_prev i) (x i) params
      Gammat := atpGamma_t M.mu M.rt M.rt_grad }
  let Mp : (Fin (n + 1) → Vec d) → Fin n → AtpMParams MP d := fun u t =>
    ⟨tailA u t, (tailA prop t).K_1, (tailA prop t).K_2, (tailA prop t).chol, (tailA prop t).chol_inv, M.mu_params t⟩
  let Gp : (Fin (n + 1) → Vec d) → Fin n → AtpGParams MP RP d := fun u t =>
    ⟨tailA u t, tailA deltas t, tailA ells t, invChol (M.Qs t), M.mu_params t, M.rt_params t⟩
  have hrot : ∀ u, RotFK (fk u) := fun u =>
    { M0_rvs := fun key s f hf => affine_rot key (fun _ => M.mu0 + (prop 0).K_1 *ᵥ ((prop 0).K_2 *ᵥ (u 0 - M.mu0))) _ (prop 0).chol s rfl f hf
      M0_logpdf := fun s Xs i => rfl
      Mt_rvs := fun key s Y p f hf => affine_rot key (fun i => atpMean (M.mu (Y i) p.mu) p.u p.K_1 p.K_2) _ p.chol s rfl f hf
      Mt_logpdf := fun s Y Xs p i => rfl }
  have hmeas : ∀ u, MeasFK (fk u) n (Mp u) (Gp u) := fun u =>
    { M0_rvs := fun key => affine_ker key (m := fun (_ : Unit) _ => M.mu0 + (prop 0).K_1 *ᵥ ((prop 0).K_2 *ᵥ (u 0 - M.mu0))) measurable_const _
      M0_logpdf := measurable_pi_lambda _ fun i => measurable_logpdf_with_inv _ (by fun_prop) (by fun_prop)
      Gamma0 := by
        have h1 := hM.gamma0
        have h2 := hM.r0_grad
        refine h1.add ?_
        have : Measurable fun x : Vec d => sumSq fun j => u 0 j - x j - 0.5 * deltas 0 * M.r0_grad x j := by
          unfold sumSq
          fun_prop
        exact this.neg.div_const _
      Mt_rvs := fun key t => affine_ker key (m := fun (Y : Fin (N + 1) → Vec d) i => atpMean (M.mu (Y i) (M.mu_params t)) (u t.succ) (prop t.succ).K_1 (prop t.succ).K_2)
        (measurable_pi_lambda _ fun i => by
          have := hM.mu t
          unfold atpMean
          fun_prop) _
      Mt_logpdf := fun t => measurable_pi_lambda _ fun i => by
        have h2 := hM.mu t
        refine measurable_logpdf_with_inv _ (by fun_prop) ?_
        unfold atpMean
        fun_prop
      Gammat := fun t => by
        have h1 := hM.gamma t
        have h2 := hM.rt_grad t
        refine h1.add ?_
        have : Measurable fun p : Vec d × Vec d => sumSq fun j => u t.succ j - p.2 j -
            0.5 * deltas t.succ * M.rt_grad p.1 p.2 (M.rt_params t) j := by
          unfold sumSq
          fun_prop
        exact this.neg.div_const _ }
  refine Relabels.mixture' (μ := Measure.pi fun _ : Fin (n + 1) => gaussM d)
    (F := fun e z x b => (csmc_kernel (splitKey key 3 0) x b
      (fk (auxVars M.r0_grad M.rt_grad M.rt_params deltas (auxStd ells) z e))
      (Mp (auxVars M.r0_grad M.rt_grad M.rt_params deltas (auxStd ells) z e))
      (Gp (auxVars M.r0_grad M.rt_grad M.rt_params deltas (auxStd ells) z e)) resampling mv backward true : Ex _) >>=
        fun r => pure (r.xs, r.Bs)) (fun e z => csmc_relabels _ (hrot _) (hmeas _) hR hR' hm hm' backward) fun x b f hf => rfl

/-- `t_atp_csmc_f.kernel` relabels. -/
theorem t_relabels (r : RevDyn n d) {M : LinModel RP n d} (hM : LinMeas M) (key : Key) (ells deltas : Fin (n + 1) → ℝ)
    (hR : ∀ key, CondResampling (fun w i j => resampling key w i j true))
    (hR' : ∀ key, RotResampling (fun w i j => resampling key w i j true))
    (hm : ∀ key, MoveKer (moveIndex mv key)) (hm' : ∀ key, RotMove (moveIndex mv key)) (backward : Bool) :
    Relabels (fun x b => (t_atp_kernel_rev r M key x b ells deltas resampling mv backward : Ex _) >>= fun r => pure (r.xs, r.Bs)) := by
  let Mp : (Fin (n + 1) → Vec d) → Fin n → TMParams d := fun u => tProps r (tFilter r ells u).1 (tFilter r ells u).2
  let fk : (Fin (n + 1) → Vec d) → FK Ex (Vec d) (TMParams d) (TGParams RP d) N := fun u =>
    { M0_rvs := fun key => tatpM0_rvs key (N + 1) ((tFilter r ells u).1 0) (cholesky ((tFilter r ells u).2 0))
      M0_logpdf := fun x i => tatpM0_logpdf (x i) ((tFilter r ells u).1 0) ((cholesky ((tFilter r ells u).2 0))⁻¹ * 1)
      Gamma0 := fun x => tatpGamma_0 M.r0 M.r0_grad x (u 0) ((tFilter r ells u).1 0)
        ((cholesky ((tFilter r ells u).2 0))⁻¹ * 1) (deltas 0) (ells 0)
      Mt_rvs := fun key x_prev params => tatpMt_rvs key x_prev params
      Mt_logpdf := fun x_prev x params i => tatpMt_logpdf (x_prev i) (x i) params
      Gammat := tatpGamma_t M.rt M.rt_grad }
  let Gp : (Fin (n + 1) → Vec d) → Fin n → TGParams RP d := fun u t =>
    ⟨tailA u t, tailA deltas t, tailA ells t, M.rt_params t, Mp u t⟩
  have hrot : ∀ u, RotFK (fk u) := fun u =>
    { M0_rvs := fun key s f hf => affine_rot key (fun _ => (tFilter r ells u).1 0) _ (cholesky ((tFilter r ells u).2 0)) s rfl f hf
      M0_logpdf := fun s Xs i => rfl
      Mt_rvs := fun key s Y p f hf => affine_rot key (fun i => p.A *ᵥ Y i + p.c) _ p.cholE s rfl f hf
      Mt_logpdf := fun s Y Xs p i => rfl }
  have hmeas : ∀ u, MeasFK (fk u) n (Mp u) (Gp u) := fun u =>
    { M0_rvs := fun key => affine_ker key (m := fun (_ : Unit) _ => (tFilter r ells u).1 0) measurable_const _
      M0_logpdf := measurable_pi_lambda _ fun i => measurable_logpdf_with_inv _ (by fun_prop) (by fun_prop)
      Gamma0 := by
        have h1 := hM.r0
        have h2 := hM.r0_grad
        refine h1.add ?_
        have h3 : Measurable fun x : Vec d => sumSq fun j => u 0 j - x j - 0.5 * deltas 0 * M.r0_grad x j := by
          unfold sumSq
          fun_prop
        have h4 : Measurable fun x : Vec d => sumSq fun j => u 0 j - x j := by
          unfold sumSq
          fun_prop
        exact ((h3.neg.div_const _).add (h4.div_const _)).add (measurable_logpdf_with_inv _ (by fun_prop) (by fun_prop))
      Mt_rvs := fun key t => affine_ker key (m := fun (Y : Fin (N + 1) → Vec d) i => (Mp u t).A *ᵥ Y i + (Mp u t).c) (by fun_prop) _
      Mt_logpdf := fun t => measurable_pi_lambda _ fun i => measurable_logpdf_with_inv _ (by fun_prop) (by fun_prop)
      Gammat := fun t => by
        have h1 := hM.rt t
        have h2 := hM.rt_grad t
        refine h1.add ?_
        have h3 : Measurable fun p : Vec d × Vec d => sumSq fun j => u t.succ j - p.2 j -
            0.5 * deltas t.succ * M.rt_grad p.1 p.2 (M.rt_params t) j := by
          unfold sumSq
          fun_prop
        have h4 : Measurable fun p : Vec d × Vec d => sumSq fun j => u t.succ j - p.2 j := by
          unfold sumSq
          fun_prop
        exact ((h3.neg.div_const _).add (h4.div_const _)).add (measurable_logpdf_with_inv _ (by fun_prop) (by fun_prop)) }
  refine Relabels.mixture' (μ := Measure.pi fun _ : Fin (n + 1) => gaussM d)
    (F := fun e z x b => (csmc_kernel (splitKey key 3 0) x b
      (fk (auxVars M.r0_grad M.rt_grad M.rt_params deltas (auxStd ells) z e))
      (Mp (auxVars M.r0_grad M.rt_grad M.rt_params deltas (auxStd ells) z e))
      (Gp (auxVars M.r0_grad M.rt_grad M.rt_params deltas (auxStd ells) z e)) resampling mv backward true : Ex _) >>=
        fun r => pure (r.xs, r.Bs)) (fun e z => csmc_relabels _ (hrot _) (hmeas _) hR hR' hm hm' backward) fun x b f hf => rfl

end gauss

end Verif
