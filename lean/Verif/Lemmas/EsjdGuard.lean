import Verif.Lemmas.Esjd
import Verif.Lemmas.OneTrajCand
import Verif.Props.DefaultRun
import Verif.Props.OneTrajRun

/-!
# The kernels of `experiments/lgssm_scaling` without the guard of `force_move`
-/

open scoped ENNReal
open MeasureTheory ProbabilityTheory

namespace Verif
open Verif.Model Verif.Spec Verif.Props Matrix

variable {N n d M : ℕ}

/-! ## The candidates of `imh.py` -/

/-- The candidates of the kernel of `imh.get_kernel`. -/
noncomputable def imhCand (D : Dyn n d) (log_pdf : Traj (n + 1) d → ℝ) : Cand (Fin N → Traj (n + 1) d) N n d where
  noise key _ _ := prior_sampling (splitKey key 3 0) D.m0 D.P0 D.Fs D.Qs D.bs N
  W _ x e := imhW log_pdf (imh_init log_pdf x) e
  P _ _ e := e

/-- `imh.kernel` with the move that has no guard against a division by zero. -/
noncomputable def imhExact (key : Key) (s : Traj (n + 1) d × ℝ) (D : Dyn n d) (log_pdf : Traj (n + 1) d → ℝ) (N : ℕ) : Ex (Traj (n + 1) d × ℝ) :=
  drawSelect (prior_sampling (splitKey key 3 0) D.m0 D.P0 D.Fs D.Qs D.bs N) (imhW log_pdf s) (imhStates log_pdf s) liuMove

theorem imh_candOK {D : Dyn n d} (hP : D.P0.PosDef) (hQ : ∀ t, (D.Qs t).PosDef) {log_pdf : Traj (n + 1) d → ℝ} (hl : Measurable log_pdf) (δ : ℝ) :
    (imhCand (N := N) D log_pdf).OK (mtTarget D log_pdf) δ where
  ker key := imh_draws_ker hP hQ _
  mass key x := imh_draws_mass hP hQ _
  free key key' := rfl
  W := (measurable_imhW hl).comp ((((measurable_id.prodMk hl : Measurable (imh_init log_pdf))).comp measurable_fst).prodMk measurable_snd)
  prob x e := normalize_isProb _
  pos x e i := normalize_pos _ i
  P := measurable_snd
  exact key f hf := imh_exact hP hQ hl _ (f := fun s => f s.1) (hf.comp measurable_fst)
  reach key x f hf i h0 := by
    have h2 := imh_draws (N := N) hP hQ (splitKey key 3 0) (F := fun y => f (y i)) (hf.comp (by fun_prop))
    refine pi_eval_null trajVol_ne _ hf (measurable_expR (Finset.measurable_fun_sum _ fun i _ => ?_)) (fun y => by simp [Real.exp_pos]) (h2.symm.trans h0)
    exact measurable_gaussPathLog _ _ _ _ measurable_const (measurable_pi_apply i)

/-! ## One step of a pair -/

section pair
variable {E : Type} [MeasurableSpace E] {C : Cand E N n d} {l : Traj (n + 1) d → ℝ} {δ : ℝ}
  {K K' : KernelPair Ex (n + 1) d} {DELTA : StepSize (n + 1)}

/-- A pair whose step replaces the trajectory by one of the candidates, without guard. -/
theorem cand_pair (h : C.OK l δ) (hl : Measurable l)
    (hZ : ∫⁻ x, ENNReal.ofReal (Real.exp (l x)) ∂trajVol (n + 1) d ≠ 0 ∧
      ∫⁻ x, ENNReal.ofReal (Real.exp (l x)) ∂trajVol (n + 1) d ≠ ∞) (hx : ∀ x, K'.xs (K'.init x) = x)
    (hK' : ∀ key x f, jumpStep K' DELTA key x f = C.emb (fun _ => liuMove) key x (fun _ => 0) (fun _ => δ) fun r => f r.1) :
    PairOK 0 (lawOf (trajVol (n + 1) d) l) K' DELTA := by
  have hp := (Cand.OK.csmcOK (δ := fun _ => δ) h hl).pair (kernel := fun key x b dl => C.emb (fun _ => liuMove) key x b dl)
    (DELTA := .perStep fun _ => δ) hl hZ
  have e : ∀ key, jumpStep K' DELTA key = jumpStep (csmcPair fun key x b dl => C.emb (fun _ => liuMove) key x b dl) (.perStep fun _ => δ) key :=
    fun key => funext fun x => funext fun f => hK' key x f
  exact ⟨hx, fun key => e key ▸ hp.ker key, fun key x => e key ▸ hp.mass key x, fun key key' x f hf => by
    rw [e, e]; exact hp.key_free key key' x f hf, fun key => e key ▸ hp.near key⟩

theorem cand_near (h : C.OK l δ)
    (hK : ∀ key x f, jumpStep K DELTA key x f = C.emb forcedIdx key x (fun _ => 0) (fun _ => δ) fun r => f r.1)
    (hK' : ∀ key x f, jumpStep K' DELTA key x f = C.emb (fun _ => liuMove) key x (fun _ => 0) (fun _ => δ) fun r => f r.1)
    (key : Key) (x : Traj (n + 1) d) : TVLe forceErr (jumpStep K DELTA key x) (jumpStep K' DELTA key x) := fun f hf hf1 => by
  rw [hK, hK']
  exact Cand.OK.two (δ := fun _ => δ) h key x (fun _ => 0) (fun r => f r.1) (hf.comp measurable_fst) fun r => hf1 _

end pair

/-- A pair of states with a value and a gradient. -/
noncomputable def vgPair (ker : Key → VGState (n + 1) d → ℝ → Ex (VGState (n + 1) d × Bool)) (init : Traj (n + 1) d → VGState (n + 1) d) : KernelPair Ex (n + 1) d where
  S := VGState (n + 1) d
  xs := fun s => s.1
  kernel := fun key s delta => do
    let r ← ker key s delta.num
    pure r.1
  init := init

theorem vgPair_jump {ker : Key → VGState (n + 1) d → ℝ → Ex (VGState (n + 1) d × Bool)} {init : Traj (n + 1) d → VGState (n + 1) d}
    {emb : Key → (Fin (n + 1) → Vec d) → (Fin (n + 1) → Fin 2) → (Fin (n + 1) → ℝ) → Ex ((Fin (n + 1) → Vec d) × (Fin (n + 1) → Fin 2))}
    (h : Embeds ker init emb) (δ : ℝ) (key : Key) (x : Traj (n + 1) d) (f : Traj (n + 1) d → ℝ≥0∞) :
    jumpStep (vgPair ker init) (.scalar δ) key x f = emb key x (fun _ => 0) (fun _ => δ) fun r => f r.1 :=
  h.2 key x (fun _ => 0) δ _ _ fun r r' hr => by
    show f r.1.1 = f r'.1
    rw [hr.1, h.1]

/-- The pair of `imh.py`. -/
def imhPair (ker : Key → Traj (n + 1) d × ℝ → Ex (Traj (n + 1) d × ℝ)) (init : Traj (n + 1) d → Traj (n + 1) d × ℝ) : KernelPair Ex (n + 1) d where
  S := Traj (n + 1) d × ℝ
  xs := Prod.fst
  kernel := fun key s _ => ker key s
  init := init

theorem imhPair_jump (D : Dyn n d) (log_pdf : Traj (n + 1) d → ℝ) (N : ℕ) (δ : ℝ) (key : Key) (x : Traj (n + 1) d) (f : Traj (n + 1) d → ℝ≥0∞) :
    jumpStep (imhPair (fun key s => do
      let r ← imh_kernel key s D log_pdf N
      pure r.1) (imh_init log_pdf)) (.scalar δ) key x f =
      (imhCand (N := N) D log_pdf).emb forcedIdx key x (fun _ => 0) (fun _ => δ) fun r => f r.1 :=
  congrFun (imh_step_eq key (imh_init log_pdf x) D log_pdf N) fun s => f s.1

theorem imhExact_jump (D : Dyn n d) (log_pdf : Traj (n + 1) d → ℝ) (N : ℕ) (δ : ℝ) (key : Key) (x : Traj (n + 1) d) (f : Traj (n + 1) d → ℝ≥0∞) :
    jumpStep (imhPair (fun key s => imhExact key s D log_pdf N) (imh_init log_pdf)) (.scalar δ) key x f =
      (imhCand (N := N) D log_pdf).emb (fun _ => liuMove) key x (fun _ => 0) (fun _ => δ) fun r => f r.1 := rfl

/-! ## The kernels that the script can select -/

/-- The kernel constructors of the script with the move that has no guard against a division by zero. -/
noncomputable def lgGuardFree (svd : Mat d d → SvdOut d) (k : LgType) (sigma : ℝ) (style : String) (R : Resampling Ex N) (backward : Bool) :
    Except String (Traj (n + 1) d → KernelPair Ex (n + 1) d) :=
  let mala := fun (stop auxiliary : Bool) (ys : Traj (n + 1) d) =>
    let log_pdf := fun xs => lg_log_pdf xs ys sigma
    let grad := fun xs => if stop then 0 else jaxGrad2 log_pdf xs
    vgPair (fun key s δ => malaExact key s δ log_pdf grad N auxiliary) (tp_init log_pdf grad)
  let malas := fun stop => if style = "marginal" then .ok (mala stop false) else if style = "auxiliary" then .ok (mala stop true)
    else .error "NotImplementedError"
  match k with
  | .TP => .ok fun ys =>
    let log_pdf := fun xs => lg_log_likelihood xs ys
    vgPair (fun key s δ => tpExact key s δ (lgDyn sigma n d) log_pdf (jaxGrad2 log_pdf) N) (tp_init log_pdf (jaxGrad2 log_pdf))
  | .IMH => .ok fun ys =>
    let log_pdf := fun xs => lg_log_likelihood xs ys
    imhPair (fun key s => imhExact key s (lgDyn sigma n d) log_pdf N) (imh_init log_pdf)
  | .MALA => malas false
  | .RW => malas true
  | k => k.kernel_maker svd sigma style R exactMove backward

/-- What is proved of the two kernels. -/
def Guarded (π : Measure (Traj (n + 1) d)) (K K' : KernelPair Ex (n + 1) d) (DELTA : StepSize (n + 1)) : Prop :=
  PairOK 0 π K' DELTA ∧ ∀ key x, TVLe forceErr (jumpStep K DELTA key x) (jumpStep K' DELTA key x)

section kernels
variable {sigma : ℝ} (hs : 0 < sigma) (ys : Traj (n + 1) d)
include hs

theorem lg_guard_tp {δ : ℝ} (hd : 0 < δ) : Guarded (lgPosterior sigma ys) (vgPair (lg_tp_kernel ys sigma N)
      (tp_init (fun xs => lg_log_likelihood xs ys) (jaxGrad2 fun xs => lg_log_likelihood xs ys)))
    (vgPair (fun key s δ => tpExact key s δ (lgDyn sigma n d) (fun xs => lg_log_likelihood xs ys) (jaxGrad2 fun xs => lg_log_likelihood xs ys) N)
      (tp_init (fun xs => lg_log_likelihood xs ys) (jaxGrad2 fun xs => lg_log_likelihood xs ys))) (.scalar δ) := by
  have hP : (lgDyn sigma n d).P0.PosDef := posDef_smul_one (pow_pos hs 2)
  have hQ : ∀ t, ((lgDyn sigma n d).Qs t).PosDef := fun _ => posDef_smul_one (pow_pos hs 2)
  have hC := tp_candOK (N := N) hP hQ (measurable_lg_log_likelihood ys) (measurable_jaxGrad2 fun xs => lg_log_likelihood xs ys) hd
  have h1 := fun key x f => vgPair_jump (tp_embeds (lgDyn sigma n d) (fun xs => lg_log_likelihood xs ys)
    (jaxGrad2 fun xs => lg_log_likelihood xs ys) N) δ key x f
  have h2 := fun key x f => vgPair_jump (tpExact_embeds (lgDyn sigma n d) (fun xs => lg_log_likelihood xs ys)
    (jaxGrad2 fun xs => lg_log_likelihood xs ys) N) δ key x f
  rw [lg_mtTarget] at hC
  exact ⟨cand_pair hC (measurable_lgTarget ys hs) (lgTarget_mass hs ys) (fun _ => rfl) h2, cand_near hC h1 h2⟩

theorem lg_guard_imh (δ : ℝ) : Guarded (lgPosterior sigma ys) (imhPair (fun key s => do
        let r ← lg_imh_kernel ys sigma N key s
        pure r.1) (imh_init fun xs => lg_log_likelihood xs ys))
    (imhPair (fun key s => imhExact key s (lgDyn sigma n d) (fun xs => lg_log_likelihood xs ys) N) (imh_init fun xs => lg_log_likelihood xs ys))
    (.scalar δ) := by
  have hP : (lgDyn sigma n d).P0.PosDef := posDef_smul_one (pow_pos hs 2)
  have hQ : ∀ t, ((lgDyn sigma n d).Qs t).PosDef := fun _ => posDef_smul_one (pow_pos hs 2)
  have hC := imh_candOK (N := N) hP hQ (measurable_lg_log_likelihood ys) δ
  have h1 := imhPair_jump (lgDyn sigma n d) (fun xs => lg_log_likelihood xs ys) N δ
  have h2 := imhExact_jump (lgDyn sigma n d) (fun xs => lg_log_likelihood xs ys) N δ
  rw [lg_mtTarget] at hC
  exact ⟨cand_pair hC (measurable_lgTarget ys hs) (lgTarget_mass hs ys) (fun _ => rfl) h2, cand_near hC h1 h2⟩

theorem lg_guard_mala {δ : ℝ} (hd : 0 < δ) (auxiliary stop : Bool) : Guarded (lgPosterior sigma ys)
    (vgPair (lg_mala_kernel ys sigma N auxiliary stop)
      (tp_init (fun xs => lg_log_pdf xs ys sigma) (fun xs => if stop then 0 else jaxGrad2 (fun xs => lg_log_pdf xs ys sigma) xs)))
    (vgPair (fun key s δ => malaExact key s δ (fun xs => lg_log_pdf xs ys sigma)
        (fun xs => if stop then 0 else jaxGrad2 (fun xs => lg_log_pdf xs ys sigma) xs) N auxiliary)
      (tp_init (fun xs => lg_log_pdf xs ys sigma) (fun xs => if stop then 0 else jaxGrad2 (fun xs => lg_log_pdf xs ys sigma) xs)))
    (.scalar δ) := by
  have e : lgTarget sigma ys = fun xs => lg_log_pdf xs ys sigma := funext fun x => (C55_lgssm_mala hs ys x).symm
  have hl : Measurable fun xs => lg_log_pdf xs ys sigma := e ▸ measurable_lgTarget ys hs
  have hg : Measurable fun xs => if stop then (0 : Traj (n + 1) d) else jaxGrad2 (fun xs => lg_log_pdf xs ys sigma) xs := by
    cases stop
    · exact measurable_jaxGrad2 _
    · exact measurable_const
  have hC := mala_candOK (N := N) hl hg (l := lgTarget sigma ys) (c := 0) (fun x => by rw [e, add_zero]) auxiliary hd
  have h1 := fun key x f => vgPair_jump (mala_embeds (fun xs => lg_log_pdf xs ys sigma)
    (fun xs => if stop then 0 else jaxGrad2 (fun xs => lg_log_pdf xs ys sigma) xs) N auxiliary) δ key x f
  have h2 := fun key x f => vgPair_jump (malaExact_embeds (fun xs => lg_log_pdf xs ys sigma)
    (fun xs => if stop then 0 else jaxGrad2 (fun xs => lg_log_pdf xs ys sigma) xs) N auxiliary) δ key x f
  exact ⟨cand_pair hC (measurable_lgTarget ys hs) (lgTarget_mass hs ys) (fun _ => rfl) h2, cand_near hC h1 h2⟩

end kernels

/-- Conditional SMC kernels with two last moves. -/
theorem csmc_guard {π : Measure (Traj (n + 1) d)} {kernel kernel' : Key → (Fin (n + 1) → Vec d) → (Fin (n + 1) → Fin (N + 1)) → (Fin (n + 1) → ℝ) →
      Ex ((Fin (n + 1) → Vec d) × (Fin (n + 1) → Fin (N + 1)))} {DELTA : StepSize (n + 1)} (h : PairOK 0 π (csmcPair kernel') DELTA)
    (hn : ∀ key x b, TVLe forceErr (kernel key x b DELTA.at) (kernel' key x b DELTA.at)) : Guarded π (csmcPair kernel) (csmcPair kernel') DELTA :=
  ⟨h, fun key x f hf hf1 => hn key x (fun _ => 0) (fun r => f r.1) (hf.comp measurable_fst) fun r => hf1 _⟩

theorem lg_atp_precision {sigma : ℝ} (ys : Traj (n + 1) d) (hs : 0 < sigma) {delta : Fin (n + 1) → ℝ} (hd : ∀ t, 0 < delta t) (stop : Bool)
    {svd : Mat d d → SvdOut d}
    (hsvd : IsSvd (sigma ^ 2 • 1) (svd (sigma ^ 2 • 1)).U (svd (sigma ^ 2 • 1)).Gamma (svd (sigma ^ 2 • 1)).U_t)
    (hfl : ∀ t, 1e-15 ≤ sigma ^ 2 * (delta t / 2) / (sigma ^ 2 + delta t / 2)) (t : Fin (n + 1)) :
    (make_proposal svd (lgGauss ys sigma stop) delta t).chol_invᵀ * (make_proposal svd (lgGauss ys sigma stop) delta t).chol_inv =
      ((make_proposal svd (lgGauss ys sigma stop) delta t).chol * (make_proposal svd (lgGauss ys sigma stop) delta t).cholᵀ)⁻¹ := by
  have h := lgGauss_ok ys hs stop hsvd hd hfl
  rw [svd_chol_eq h t]
  refine (atp_precision_iff (h.posDef t) (h.isSvd t) (h.pos t) (h.floor t)).mpr ?_
  rw [lgGauss_cov]
  exact isotropic_diagonal (pow_pos hs 2) hsvd

/-- Every kernel of the script but the smoothing ones, against the kernel without guard. -/
theorem lg_guarded {svd : Mat d d → SvdOut d} {k : LgType} {sigma : ℝ} (hs : 0 < sigma) {style resampling last_step : String}
    {R : Resampling Ex N} {mv : AncestorMove Ex N} (hR : sel_resampling resampling = .ok R)
    (hm : sel_last_step last_step = .ok mv) (hf : (k = .TP ∨ k = .MALA ∨ k = .RW ∨ k = .IMH) ∨ last_step = "forced")
    {backward : Bool} {make : Traj (n + 1) d → KernelPair Ex (n + 1) d}
    (hk : k.kernel_maker svd sigma style R mv backward = .ok make) (hstyle : style ≠ "smoothing") {delta : ℝ} (hd : 0 < delta)
    (hsvd : k = .TP_CSMC ∨ k = .ADAPTED_CSMC →
      IsSvd (sigma ^ 2 • 1) (svd (sigma ^ 2 • 1)).U (svd (sigma ^ 2 • 1)).Gamma (svd (sigma ^ 2 • 1)).U_t ∧
      1e-15 ≤ sigma ^ 2 * (delta / 2) / (sigma ^ 2 + delta / 2)) :
    ∃ make', lgGuardFree svd k sigma style R backward = .ok make' ∧
      ∀ ys, Guarded (lgPosterior sigma ys) (make ys) (make' ys) (k.shape_delta delta (n + 1)) := by
  have hd' : ∀ _ : Fin (n + 1), 0 < delta * 1 := fun _ => by rwa [mul_one]
  have hS' : SelOK 0 R exactMove := sel_ok_exact hR (.inr rfl)
  have hforced : ¬(k = .TP ∨ k = .MALA ∨ k = .RW ∨ k = .IMH) → mv = forced := fun h => by
    rcases hf with h' | rfl
    · exact absurd h' h
    · exact sel_forced hm
  have mala : ∀ stop, (lg_get_mala_kernel sigma N style stop : Except String (Traj (n + 1) d → KernelPair Ex (n + 1) d)) = .ok make →
      ∃ make', (if style = "marginal" then .ok fun ys => vgPair (fun key s δ => malaExact key s δ (fun xs => lg_log_pdf xs ys sigma)
        (fun xs => if stop then 0 else jaxGrad2 (fun xs => lg_log_pdf xs ys sigma) xs) N false)
      (tp_init (fun xs => lg_log_pdf xs ys sigma) (fun xs => if stop then 0 else jaxGrad2 (fun xs => lg_log_pdf xs ys sigma) xs))
      else if style = "auxiliary" then .ok fun ys => vgPair (fun key s δ => malaExact key s δ (fun xs => lg_log_pdf xs ys sigma)
        (fun xs => if stop then 0 else jaxGrad2 (fun xs => lg_log_pdf xs ys sigma) xs) N true)
      (tp_init (fun xs => lg_log_pdf xs ys sigma) (fun xs => if stop then 0 else jaxGrad2 (fun xs => lg_log_pdf xs ys sigma) xs))
      else .error "NotImplementedError" : Except String (Traj (n + 1) d → KernelPair Ex (n + 1) d)) = .ok make' ∧
      ∀ ys, Guarded (lgPosterior sigma ys) (make ys) (make' ys) (.scalar delta) := by
    intro stop h
    unfold lg_get_mala_kernel at h
    dsimp only at h
    by_cases h1 : style = "marginal"
    · rw [if_pos h1] at h
      rw [if_pos h1]
      cases h
      exact ⟨_, rfl, fun ys => lg_guard_mala hs ys hd false stop⟩
    · by_cases h2 : style = "auxiliary"
      · rw [if_neg h1, if_pos h2] at h
        rw [if_neg h1, if_pos h2]
        cases h
        exact ⟨_, rfl, fun ys => lg_guard_mala hs ys hd true stop⟩
      · rw [if_neg h1, if_neg h2] at h
        cases h
  have hl := fun ys : Traj (n + 1) d => measurable_lgTarget ys hs
  have hZ := fun ys : Traj (n + 1) d => lgTarget_mass hs ys
  have tp : ∀ stop, mv = forced → (IsSvd (sigma ^ 2 • 1) (svd (sigma ^ 2 • 1)).U (svd (sigma ^ 2 • 1)).Gamma (svd (sigma ^ 2 • 1)).U_t ∧
      1e-15 ≤ sigma ^ 2 * (delta / 2) / (sigma ^ 2 + delta / 2)) →
      (lg_get_tp_csmc_kernel svd sigma style stop R mv backward : Except String (Traj (n + 1) d → KernelPair Ex (n + 1) d)) = .ok make →
      ∃ make', lg_get_tp_csmc_kernel svd sigma style stop R exactMove backward = .ok make' ∧
      ∀ ys, Guarded (lgPosterior sigma ys) (make ys) (make' ys) (.perStep fun _ => delta * 1) := by
    rintro stop rfl ⟨hsvd, hfl⟩ h
    have hfl' : ∀ _ : Fin (n + 1), 1e-15 ≤ sigma ^ 2 * (delta * 1 / 2) / (sigma ^ 2 + delta * 1 / 2) := fun _ => by rwa [mul_one]
    simp only [lg_get_tp_csmc_kernel] at h ⊢
    split_ifs at h ⊢ <;> cases h
    · exact ⟨_, rfl, fun ys => csmc_guard (DELTA := .perStep fun _ => delta * 1)
        ((lg_tp_ok ys hS' hs backward hd' stop hsvd hfl').pair (hl ys) (hZ ys)) fun key x b =>
          tp_near (lgGauss_ok ys hs stop hsvd hd' hfl') (lgGauss_meas ys sigma stop) key _ hS'.cond forced_near backward x b⟩
    · exact ⟨_, rfl, fun ys => csmc_guard (DELTA := .perStep fun _ => delta * 1)
        ((lg_atp_ok ys hS' hs backward hd' stop hsvd hfl').pair (hl ys) (hZ ys)) fun key x b =>
          atp_near (lgGauss_ok ys hs stop hsvd hd' hfl') (lgGauss_meas ys sigma stop) (lg_atp_precision ys hs hd' stop hsvd hfl') key _ hS'.cond
            forced_near backward x b⟩
    · exact ⟨_, rfl, fun ys => csmc_guard (DELTA := .perStep fun _ => delta * 1)
        ((lg_twisted_ok ys hS' hs backward hd' stop).pair (hl ys) (hZ ys)) fun key x b => by
          have hr := C36_scalar_partial (d := d) (n := n) (fun _ => 1) (posDef_smul_one (pow_pos hs 2))
            (fun _ => posDef_smul_one (pow_pos hs 2))
          simp only [one_smul] at hr
          exact t_near (lgLin_meas ys sigma stop) hr.final_posDef hr.posDef hd' key _ hS'.cond forced_near backward x b⟩
  cases k with
  | TP =>
    cases hk
    exact ⟨_, rfl, fun ys => lg_guard_tp hs ys hd⟩
  | IMH =>
    cases hk
    exact ⟨_, rfl, fun ys => lg_guard_imh hs ys delta⟩
  | MALA => exact mala false hk
  | RW => exact mala true hk
  | CSMC =>
    obtain rfl := hforced (by simp)
    simp only [LgType.kernel_maker, lg_get_csmc_kernel, lgGuardFree] at hk ⊢
    split_ifs at hk ⊢
    cases hk
    exact ⟨_, rfl, fun ys => csmc_guard ((lg_csmc_ok ys hS' hs backward).pair (hl ys) (hZ ys)) fun key x b =>
      csmc_near key (C19_lgssm_proper ys hs) (tailA ys) (tailA ys) hS'.cond forced_near backward x b⟩
  | RW_CSMC =>
    obtain rfl := hforced (by simp)
    cases hk
    exact ⟨_, rfl, fun ys => csmc_guard (DELTA := .perStep fun _ => delta * 1) ((lg_rw_ok ys hS' hs backward hd').pair (hl ys) (hZ ys))
      fun key x b => rw_near key (tailA ys) (continuous_lgGamma_0 ys hs).measurable (fun y => (continuous_lgGamma_t hs y).measurable) hd'
        hS'.cond forced_near backward x b⟩
  | MALA_CSMC =>
    obtain rfl := hforced (by simp)
    simp only [LgType.kernel_maker, lg_get_mala_csmc_kernel, lgGuardFree] at hk ⊢
    split_ifs at hk ⊢ <;> cases hk
    · exact ⟨_, rfl, fun ys => csmc_guard (DELTA := .perStep fun _ => delta * 1) ((lg_al_ok ys hS' hs backward hd').pair (hl ys) (hZ ys))
        fun key x b => al_near key (tailA ys) _ (continuous_lgGamma_0 ys hs).measurable (fun y => (continuous_lgGamma_t hs y).measurable)
          (measurable_jaxGrad _) (measurable_lgGrad hs) hd' hS'.cond forced_near backward x b⟩
    · exact ⟨_, rfl, fun ys => csmc_guard (DELTA := .perStep fun _ => delta * 1) ((lg_l_ok ys hS' hs backward hd').pair (hl ys) (hZ ys))
        fun key x b => l_near key (tailA ys) _ (continuous_lgGamma_0 ys hs).measurable (fun y => (continuous_lgGamma_t hs y).measurable)
          (measurable_jaxGrad _) (measurable_lgGrad hs) hd' hS'.cond forced_near backward x b⟩
  | TP_CSMC => exact tp false (hforced (by simp)) (hsvd (.inl rfl)) hk
  | ADAPTED_CSMC => exact tp true (hforced (by simp)) (hsvd (.inr rfl)) hk

end Verif
