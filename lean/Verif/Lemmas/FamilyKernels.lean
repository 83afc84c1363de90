import Verif.Lemmas.MarkovKernels

/-!
# Conditional SMC given auxiliary variables is a step of a Markov chain, whatever the weights are
-/

open scoped ENNReal
open MeasureTheory

namespace Verif
open Verif.Model Verif.Spec Matrix

section family
variable {X P G Θ : Type} [MeasurableSpace X] [MeasurableSpace Θ] {N n : ℕ}

/-- A measurable family of Feynman–Kac models whose proposals are probability laws that do not depend on the key. -/
structure FKFamily (fk : Θ → FK Ex X P G N) (n : ℕ) (Mp : Θ → Fin n → P) (Gp : Θ → Fin n → G) : Prop where
  M0_rvs : ∀ key, IsKer fun θ => (fk θ).M0_rvs key
  M0_mass : ∀ key θ, (fk θ).M0_rvs key (fun _ => 1) = 1
  M0_free : ∀ key key' θ, (fk θ).M0_rvs key = (fk θ).M0_rvs key'
  M0_logpdf : Measurable fun p : Θ × PA X N => (fk p.1).M0_logpdf p.2
  Gamma0 : Measurable fun p : Θ × X => (fk p.1).Gamma0 p.2
  Mt_rvs : ∀ key t, IsKer fun p : Θ × PA X N => (fk p.1).Mt_rvs key p.2 (Mp p.1 t)
  Mt_mass : ∀ key t θ Y, (fk θ).Mt_rvs key Y (Mp θ t) (fun _ => 1) = 1
  Mt_free : ∀ key key' t θ Y, (fk θ).Mt_rvs key Y (Mp θ t) = (fk θ).Mt_rvs key' Y (Mp θ t)
  Mt_logpdf : ∀ t, Measurable fun p : Θ × PA X N × PA X N => (fk p.1).Mt_logpdf p.2.1 p.2.2 (Mp p.1 t)
  Gammat : ∀ t, Measurable fun p : Θ × X × X => (fk p.1).Gammat p.2.1 p.2.2 (Gp p.1 t)

/-- The system of a family, with the zero target. -/
noncomputable def zeroSys (key : Key) (fk : Θ → FK Ex X P G N) (Mp : Θ → Fin n → P) (Gp : Θ → Fin n → G)
    (resampling : Resampling Ex N) (θ : Θ) : Sys X N n :=
  csmcSys key (fk θ) (Mp θ) (Gp θ) resampling (fun _ => 0) (fun _ _ _ => 0) (fun _ => 0) fun _ _ _ => 0

variable {fk : Θ → FK Ex X P G N} {Mp : Θ → Fin n → P} {Gp : Θ → Fin n → G} {resampling : Resampling Ex N}

theorem isKer_zero {α β : Type} [MeasurableSpace α] [MeasurableSpace β] : IsKer fun _ : α => (show Ex β from fun _ => 0) :=
  IsKer.const (0 : Measure β) fun _ _ => by rw [lintegral_zero_measure]

theorem zeroSys_meas (h : FKFamily fk n Mp Gp) (hR : ∀ key, CondResampling (fun w i j => resampling key w i j true)) (key : Key) :
    SysMeas (zeroSys key fk Mp Gp resampling) where
  Q0_ker := IsKer.bind (P := fun p : Θ × Fin (N + 1) × X => (fk p.1).M0_rvs (splitKey key 3 0))
    (F := fun p Xs => pure (atSet Xs p.2.1 p.2.2)) ((h.M0_rvs _).comp (g := fun p : Θ × Fin (N + 1) × X => p.1) (by fun_prop))
    (IsKer.pure (by fun_prop))
  Q_ker t := IsKer.bind (P := fun p : Θ × PA X N × Fin (N + 1) × X =>
      (fk p.1).Mt_rvs (splitKey (splitKey (splitKey key 3 1) n t) 2 0) p.2.1 (Mp p.1 t))
    (F := fun p Xs => pure (atSet Xs p.2.2.1 p.2.2.2))
    ((h.Mt_rvs _ t).comp (g := fun p : Θ × PA X N × Fin (N + 1) × X => (p.1, p.2.1)) (by fun_prop)) (IsKer.pure (by fun_prop))
  LW0_meas := by
    refine measurable_pi_lambda _ fun i => ?_
    show Measurable fun p : Θ × PA X N => (fk p.1).Gamma0 (p.2 i) - (fk p.1).M0_logpdf p.2 i
    exact (h.Gamma0.comp (f := fun p : Θ × PA X N => (p.1, p.2 i)) (by fun_prop)).sub ((measurable_pi_apply i).comp h.M0_logpdf)
  LW_meas t := by
    refine measurable_pi_lambda _ fun i => ?_
    show Measurable fun p : Θ × PA X N × PA X N => (fk p.1).Gammat (p.2.1 i) (p.2.2 i) (Gp p.1 t) -
      (fk p.1).Mt_logpdf p.2.1 p.2.2 (Mp p.1 t) i
    exact ((h.Gammat t).comp (f := fun p : Θ × PA X N × PA X N => (p.1, p.2.1 i, p.2.2 i)) (by fun_prop)).sub
      ((measurable_pi_apply i).comp (h.Mt_logpdf t))
  R_ker t := (hR _).ker.comp measurable_snd

theorem zeroSys_OK (h : FKFamily fk n Mp Gp) (hR : ∀ key, CondResampling (fun w i j => resampling key w i j true)) (key : Key)
    (θ : Θ) : (zeroSys key fk Mp Gp resampling θ).OK where
  G0_ker := isKer_zero
  G_ker t := isKer_zero
  Q0_ker := (zeroSys_meas h hR key).Q0_ker.comp (g := fun p => (θ, p)) (by fun_prop)
  Q_ker t := ((zeroSys_meas h hR key).Q_ker t).comp (g := fun p => (θ, p)) (by fun_prop)
  Q0_mass b x := h.M0_mass _ θ
  Q_mass t Y b x := h.Mt_mass _ t θ Y
  LW0_meas := (zeroSys_meas h hR key).LW0_meas.comp measurable_prodMk_left
  LW_meas t := ((zeroSys_meas h hR key).LW_meas t).comp measurable_prodMk_left
  R_ok t := hR _
  Z0_ker := isKer_zero
  Z_ker t := isKer_zero
  id0 b f _ := rfl
  idt t Y b f _ := rfl

theorem zeroSys_free (h : FKFamily fk n Mp Gp) (hR : ∀ key key', resampling key = resampling key') (key key' : Key) :
    zeroSys key fk Mp Gp resampling = zeroSys key' fk Mp Gp resampling := by
  funext θ
  unfold zeroSys csmcSys
  congr 1
  · funext b x
    rw [h.M0_free (splitKey key 3 0) (splitKey key' 3 0)]
  · funext t Y b x
    rw [h.Mt_free _ (splitKey (splitKey (splitKey key' 3 1) n t) 2 0)]
  · funext t w i j
    rw [hR]

/-- Draw auxiliary variables around the reference, then run conditional SMC: a step of a Markov chain. -/
theorem family_markov (h : FKFamily fk n Mp Gp) {mv : AncestorMove Ex N}
    (hR : ∀ key, CondResampling (fun w i j => resampling key w i j true)) (hm : ∀ key, MoveKer (moveIndex mv key))
    (hm' : ∀ key, MoveMass (moveIndex mv key)) (backward : Bool) {E : Type} [MeasurableSpace E] {μ : Measure E}
    [IsProbabilityMeasure μ] {c : (Fin (n + 1) → X) → E → Θ} (hc : Measurable fun p : (Fin (n + 1) → X) × E => c p.1 p.2) (key : Key)
    {K : (Fin (n + 1) → X) → (Fin (n + 1) → Fin (N + 1)) → Ex ((Fin (n + 1) → X) × (Fin (n + 1) → Fin (N + 1)))}
    (hK : ∀ x b f, Measurable f → K x b f = ∫⁻ e, ((csmc_kernel key x b (fk (c x e)) (Mp (c x e)) (Gp (c x e)) resampling mv
      backward true : Ex _) >>= fun r => pure (r.xs, r.Bs)) f ∂μ) : MarkovStep K := by
  refine mixture_markov (μ := μ) (zeroSys_meas h hR key) (zeroSys_OK h hR key)
    (Γ := fun θ t y x => (fk θ).Gammat y x (Gp θ t)) h.Gammat
    (hm (if backward then lastA (splitKey (splitKey key 3 2) (n + 1)) else splitKey key 3 2)) (hm' _) backward hc
    fun x b f hf => (hK x b f hf).trans (lintegral_congr fun e => ?_)
  exact congrFun (csmc_kernel_eq key (fk (c x e)) (Mp (c x e)) (Gp (c x e)) resampling mv backward (fun _ => 0)
    (fun _ _ _ => 0) (fun _ => 0) (fun _ _ _ => 0) x b) f

/-- Its law does not depend on the key. -/
theorem family_free (h : FKFamily fk n Mp Gp) {mv : AncestorMove Ex N} (hR : ∀ key key', resampling key = resampling key')
    (hm : ∀ key key', mv key = mv key') (backward : Bool) (key key' : Key) (x : Fin (n + 1) → X) (b : Fin (n + 1) → Fin (N + 1))
    (θ : Θ) : ((csmc_kernel key x b (fk θ) (Mp θ) (Gp θ) resampling mv backward true : Ex _) >>= fun r => pure (r.xs, r.Bs)) =
      ((csmc_kernel key' x b (fk θ) (Mp θ) (Gp θ) resampling mv backward true : Ex _) >>= fun r => pure (r.xs, r.Bs)) := by
  obtain ⟨m0, hm0⟩ : ∃ m0, mv = fun _ => m0 := ⟨mv [], funext fun k => hm k []⟩
  have e : ∀ key, _ = _ := fun key => csmc_kernel_eq key (fk θ) (Mp θ) (Gp θ) resampling mv backward (fun _ => 0)
    (fun _ _ _ => 0) (fun _ => 0) (fun _ _ _ => 0) x b
  refine (e key).trans (Eq.trans ?_ (e key').symm)
  have e' := congrFun (zeroSys_free h hR key key') θ
  subst hm0
  exact congrArg (fun S : Sys X N n => S.kernel (fun t y x => (fk θ).Gammat y x (Gp θ t)) (moveIndex (fun _ => m0) []) backward x b) e'

end family

section gauss
variable {MP RP : Type} {N n d : ℕ} {M : GaussModel MP RP n d} {resampling : Resampling Ex N} {mv : AncestorMove Ex N}

theorem measurable_auxVars_of (hM : GaussMeas M) (deltas s : Fin (n + 1) → ℝ) :
    Measurable fun p : (Fin (n + 1) → Vec d) × (Fin (n + 1) → Vec d) =>
      auxVars M.r0_grad M.rt_grad M.rt_params deltas s p.1 p.2 := by
  have hcen := measurable_auxCenter (hM.phi0 deltas) (hM.phi deltas)
  simp only [auxVars_center]
  have : Measurable (auxCenter (fun x j => 0.5 * deltas 0 * M.r0_grad x j)
    (fun t y x j => 0.5 * deltas t.succ * M.rt_grad y x (M.rt_params t) j)) := hcen
  fun_prop

theorem affine_mass (key : Key) (m : Fin (N + 1) → Vec d) (L : Mat d d) :
    ((normal2 key (N + 1) d : Ex _) >>= fun eps => (pure (fun i => m i + L *ᵥ eps i) : Ex _)) (fun _ => 1) = 1 := by
  show ∫⁻ _, 1 ∂(Measure.pi fun _ : Fin (N + 1) => gaussM d) = 1
  rw [lintegral_one, measure_univ]


theorem measurable_atpMean_fam (hM : GaussMeas M) (K_1 K_2 : Mat d d) (t : Fin n) {β : Type} [MeasurableSpace β] {u y : β → Vec d}
    (hu : Measurable u) (hy : Measurable y) : Measurable fun p => atpMean (M.mu (y p) (M.mu_params t)) (u p) K_1 K_2 := by
  have h : Measurable fun p => M.mu (y p) (M.mu_params t) := (hM.mu t).comp hy
  unfold atpMean
  fun_prop

theorem measurable_tpMean_fam (hM : GaussMeas M) (K : Mat d d) (t : Fin n) {β : Type} [MeasurableSpace β] {u y : β → Vec d}
    (hu : Measurable u) (hy : Measurable y) : Measurable fun p => M.mu (y p) (M.mu_params t) + K *ᵥ (u p - M.mu (y p) (M.mu_params t)) := by
  have h : Measurable fun p => M.mu (y p) (M.mu_params t) := (hM.mu t).comp hy
  fun_prop

theorem measurable_tpMt_logpdf_fam (hM : GaussMeas M) (t : Fin n) (u : Vec d) (K chol K_inv : Mat d d) (ell delta : ℝ) :
    Measurable fun p : PA (Vec d) N × PA (Vec d) N =>
      tpMt_logpdf M.mu M.rt_grad p.1 p.2 ⟨u, K, chol, K_inv, ell, delta, M.mu_params t, M.rt_params t⟩ := by
  refine measurable_pi_lambda _ fun i => ?_
  have h1 : ∀ i : Fin (N + 1), Measurable fun p : PA (Vec d) N × PA (Vec d) N => M.rt_grad (p.1 i) (p.2 i) (M.rt_params t) := fun i =>
    (hM.rt_grad t).comp (by fun_prop : Measurable fun p : PA (Vec d) N × PA (Vec d) N => (p.1 i, p.2 i))
  have h2 : ∀ i : Fin (N + 1), Measurable fun p : PA (Vec d) N × PA (Vec d) N => M.mu (p.1 i) (M.mu_params t) := fun i =>
    (hM.mu t).comp (by fun_prop : Measurable fun p : PA (Vec d) N × PA (Vec d) N => p.1 i)
  have h3 : ∀ i : Fin (N + 1), Measurable fun p : PA (Vec d) N × PA (Vec d) N => M.mu (p.1 i) (M.mu_params t) - K *ᵥ M.mu (p.1 i) (M.mu_params t) :=
    fun i => by
      have := h2 i
      fun_prop
  exact (measurable_get_log_H_bis _ _ _ measurable_snd (measurable_pi_lambda _ h3) (by fun_prop) (h3 i)
    (measurable_pi_lambda _ fun j => ((measurable_pi_apply j).comp (h1 i)).const_mul _)).neg

/-- The models of `atp_csmc_f.kernel` for all values of the auxiliary variables. -/
theorem atp_family (prop : Fin (n + 1) → PropParams d) (hM : GaussMeas M) (ells deltas : Fin (n + 1) → ℝ) :
    FKFamily (Θ := Fin (n + 1) → Vec d) (N := N)
      (fun u => { M0_rvs := fun key => atpM0_rvs key (N + 1) (u 0) M.mu0 (prop 0).K_1 (prop 0).K_2 (prop 0).chol
                  M0_logpdf := fun x i => atpM0_logpdf (x i) (u 0) M.mu0 (prop 0).K_1 (prop 0).K_2 (prop 0).chol_inv
                  Gamma0 := fun x => atpGamma_0 M.r0 M.r0_grad x (u 0) M.mu0 (invChol M.P0) (deltas 0) (ells 0)
                  Mt_rvs := fun key x_prev params => atpMt_rvs M.mu key x_prev params
                  Mt_logpdf := fun x_prev x params i => atpMt_logpdf M.mu (x_prev i) (x i) params
                  Gammat := atpGamma_t M.mu M.rt M.rt_grad }) n
      (fun u t => (⟨u t.succ, (prop t.succ).K_1, (prop t.succ).K_2,
        (prop t.succ).chol, (prop t.succ).chol_inv, M.mu_params t⟩ : AtpMParams MP d))
      (fun u t => (⟨u t.succ, deltas t.succ, ells t.succ, invChol (M.Qs t), M.mu_params t, M.rt_params t⟩ : AtpGParams MP RP d)) where
  M0_rvs key := affine_ker key (m := fun (u : Fin (n + 1) → Vec d) _ => M.mu0 + (prop 0).K_1 *ᵥ ((prop 0).K_2 *ᵥ (u 0 - M.mu0)))
    (by fun_prop) _
  M0_mass key u := affine_mass key (fun _ => M.mu0 + (prop 0).K_1 *ᵥ ((prop 0).K_2 *ᵥ (u 0 - M.mu0))) _
  M0_free key key' u := rfl
  M0_logpdf := measurable_pi_lambda _ fun i => measurable_logpdf_with_inv _ (by fun_prop) (by fun_prop)
  Gamma0 := by
    have h1 := hM.gamma0
    have h2 := hM.r0_grad
    refine (h1.comp measurable_snd).add ?_
    have : Measurable fun p : (Fin (n + 1) → Vec d) × Vec d => sumSq fun j => p.1 0 j - p.2 j - 0.5 * deltas 0 * M.r0_grad p.2 j := by
      unfold sumSq
      fun_prop
    exact this.neg.div_const _
  Mt_rvs key t := affine_ker key (m := fun (p : (Fin (n + 1) → Vec d) × PA (Vec d) N) i => atpMean (M.mu (p.2 i) (M.mu_params t)) (p.1 t.succ)
      (prop t.succ).K_1 (prop t.succ).K_2)
    (measurable_pi_lambda _ fun i => measurable_atpMean_fam hM _ _ t (by fun_prop) (by fun_prop)) _
  Mt_mass key t u Y := affine_mass key (fun i => atpMean (M.mu (Y i) (M.mu_params t)) (u t.succ)
      (prop t.succ).K_1 (prop t.succ).K_2) _
  Mt_free key key' t u Y := rfl
  Mt_logpdf t := measurable_pi_lambda _ fun i => by
    refine measurable_logpdf_with_inv _ (by fun_prop) ?_
    exact measurable_atpMean_fam (u := fun p : (Fin (n + 1) → Vec d) × PA (Vec d) N × PA (Vec d) N => p.1 t.succ) (y := fun p => p.2.1 i)
      hM _ _ t (by fun_prop) (by fun_prop)
  Gammat t := by
    have h1 := hM.gamma t
    have h2 := hM.rt_grad t
    refine (h1.comp measurable_snd).add ?_
    have : Measurable fun p : (Fin (n + 1) → Vec d) × Vec d × Vec d => sumSq fun j => p.1 t.succ j - p.2.2 j -
        0.5 * deltas t.succ * M.rt_grad p.2.1 p.2.2 (M.rt_params t) j := by
      unfold sumSq
      fun_prop
    exact this.neg.div_const _

/-- `atp_csmc_f.kernel` is a step of a Markov chain and its law does not depend on the key. -/
theorem atp_markov_free (svd : Mat d d → SvdOut d) (hM : GaussMeas M) (ells deltas : Fin (n + 1) → ℝ)
    (hR : ∀ key, CondResampling (fun w i j => resampling key w i j true)) (hR' : ∀ key key', resampling key = resampling key')
    (hm : ∀ key, MoveKer (moveIndex mv key)) (hm' : ∀ key, MoveMass (moveIndex mv key)) (hmf : ∀ key key', mv key = mv key')
    (backward : Bool) :
    (∀ key, MarkovStep (fun x b => (atp_kernel svd M key x b ells deltas resampling mv backward : Ex _) >>= fun r => pure (r.xs, r.Bs))) ∧
    ∀ key key' x b f, ((atp_kernel svd M key x b ells deltas resampling mv backward : Ex _) >>= fun r => pure (r.xs, r.Bs)) f =
      ((atp_kernel svd M key' x b ells deltas resampling mv backward : Ex _) >>= fun r => pure (r.xs, r.Bs)) f := by
  have h := atp_family (N := N) (make_proposal svd M ells) hM ells deltas
  refine ⟨fun key => ?_, fun key key' x b f => ?_⟩
  · exact family_markov h hR hm hm' backward (μ := Measure.pi fun _ : Fin (n + 1) => gaussM d)
      (c := auxVars M.r0_grad M.rt_grad M.rt_params deltas (auxStd ells)) (measurable_auxVars_of hM deltas _) (splitKey key 3 0)
      fun x b f hf => rfl
  · have e : ∀ e : Fin (n + 1) → Vec d, _ = _ := fun e => congrFun (family_free h hR' hmf backward (splitKey key 3 0) (splitKey key' 3 0) x b
      (auxVars M.r0_grad M.rt_grad M.rt_params deltas (auxStd ells) x e)) f
    exact lintegral_congr (μ := Measure.pi fun _ : Fin (n + 1) => gaussM d) e

/-- The models of `tp_csmc.kernel` for all values of the auxiliary variables. -/
theorem tp_family (Ks : Fin (n + 1) → Mat d d) (prop : Fin (n + 1) → PropParams d) (hM : GaussMeas M) (ells deltas : Fin (n + 1) → ℝ) :
    FKFamily (Θ := Fin (n + 1) → Vec d) (N := N)
      (fun u => { M0_rvs := fun key => tpM0_rvs key (N + 1) M.mu0 (u 0) (Ks 0) (prop 0).chol
                  M0_logpdf := tpM0_logpdf M.mu0 M.r0_grad (Ks 0) (prop 0).K_inv (ells 0) (deltas 0)
                  Gamma0 := tpGamma_0 M.mu0 (invChol M.P0) M.r0
                  Mt_rvs := fun key x_prev params => tpMt_rvs M.mu key x_prev params
                  Mt_logpdf := tpMt_logpdf M.mu M.rt_grad
                  Gammat := tpGamma_t M.mu M.rt }) n
      (fun u t => (⟨u t.succ, Ks t.succ, (prop t.succ).chol, (prop t.succ).K_inv,
        ells t.succ, deltas t.succ, M.mu_params t, M.rt_params t⟩ : TpMParams MP RP d))
      (fun _ t => (⟨invChol (M.Qs t), M.mu_params t, M.rt_params t⟩ : TpGParams MP RP d)) where
  M0_rvs key := affine_ker key (m := fun (u : Fin (n + 1) → Vec d) _ => M.mu0 + Ks 0 *ᵥ (u 0 - M.mu0)) (by fun_prop) _
  M0_mass key u := affine_mass key (fun _ => M.mu0 + Ks 0 *ᵥ (u 0 - M.mu0)) _
  M0_free key key' u := rfl
  M0_logpdf := measurable_pi_lambda _ fun i => by
    have := hM.r0_grad
    exact (measurable_get_log_H_bis _ _ _ (by fun_prop) (by fun_prop) (by fun_prop) (by fun_prop) (by fun_prop)).neg
  Gamma0 := hM.gamma0.comp measurable_snd
  Mt_rvs key t := affine_ker key (m := fun (p : (Fin (n + 1) → Vec d) × PA (Vec d) N) i => M.mu (p.2 i) (M.mu_params t) +
      Ks t.succ *ᵥ (p.1 t.succ - M.mu (p.2 i) (M.mu_params t)))
    (measurable_pi_lambda _ fun i => measurable_tpMean_fam hM _ t (by fun_prop) (by fun_prop)) _
  Mt_mass key t u Y := affine_mass key (fun i => M.mu (Y i) (M.mu_params t) + Ks t.succ *ᵥ (u t.succ - M.mu (Y i) (M.mu_params t))) _
  Mt_free key key' t u Y := rfl
  Mt_logpdf t := (measurable_tpMt_logpdf_fam hM t 0 (Ks t.succ) (prop t.succ).chol (prop t.succ).K_inv (ells t.succ) (deltas t.succ)).comp measurable_snd
  Gammat t := (hM.gamma t).comp measurable_snd

/-- `tp_csmc.kernel` is a step of a Markov chain and its law does not depend on the key. -/
theorem tp_markov_free (svd : Mat d d → SvdOut d) (hM : GaussMeas M) (ells deltas : Fin (n + 1) → ℝ)
    (hR : ∀ key, CondResampling (fun w i j => resampling key w i j true)) (hR' : ∀ key key', resampling key = resampling key')
    (hm : ∀ key, MoveKer (moveIndex mv key)) (hm' : ∀ key, MoveMass (moveIndex mv key)) (hmf : ∀ key key', mv key = mv key')
    (backward : Bool) :
    (∀ key, MarkovStep (fun x b => (tp_csmc_kernel svd M key x b ells deltas resampling mv backward : Ex _) >>= fun r => pure (r.xs, r.Bs))) ∧
    ∀ key key' x b f, ((tp_csmc_kernel svd M key x b ells deltas resampling mv backward : Ex _) >>= fun r => pure (r.xs, r.Bs)) f =
      ((tp_csmc_kernel svd M key' x b ells deltas resampling mv backward : Ex _) >>= fun r => pure (r.xs, r.Bs)) f := by
  have h := tp_family (N := N) (tpB svd M ells) (make_proposal svd M ells) hM ells deltas
  refine ⟨fun key => ?_, fun key key' x b f => ?_⟩
  · exact family_markov h hR hm hm' backward (μ := Measure.pi fun _ : Fin (n + 1) => gaussM d)
      (c := auxVars M.r0_grad M.rt_grad M.rt_params deltas (auxStd ells)) (measurable_auxVars_of hM deltas _) (splitKey key 2 0)
      fun x b f hf => rfl
  · have e : ∀ e : Fin (n + 1) → Vec d, _ = _ := fun e => congrFun (family_free h hR' hmf backward (splitKey key 2 0) (splitKey key' 2 0) x b
      (auxVars M.r0_grad M.rt_grad M.rt_params deltas (auxStd ells) x e)) f
    exact lintegral_congr (μ := Measure.pi fun _ : Fin (n + 1) => gaussM d) e

end gauss

end Verif
