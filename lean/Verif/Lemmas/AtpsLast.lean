import Verif.Model.AtpCsmcS
import Verif.Spec.LastAlone
import Verif.Lemmas.AtpFlat
import Verif.Lemmas.AtpDensity
import Verif.Lemmas.TAtp
import Verif.Lemmas.CsmcForward
import Verif.Lemmas.Jensen

/-!
# The last state drawn by `atp_csmc_s.kernel`
-/

open scoped ENNReal
open MeasureTheory ProbabilityTheory Finset

namespace Verif
open Verif.Spec Verif.Model Matrix

variable {N n d : ℕ} {MP RP : Type}

/-! ## Programs that end with mass one -/

theorem sum_catP_const {w : Fin (N + 1) → ℝ} (hw : IsProb w) (c : ℝ≥0∞) : ∑ i, catP w i * c = c := by
  rw [← sum_mul]
  simp only [catP_of_isProb hw, sum_ofReal_of_isProb hw, one_mul]

theorem choice_mass (key : Key) (lw : Fin (N + 1) → ℝ) (c : ℝ≥0∞) (Ψ : Fin (N + 1) → ℝ≥0∞) (h : ∀ i, Ψ i = c) :
    (choice key (normalizeW lw) : Ex _) Ψ = c :=
  (sum_congr rfl fun i _ => congrArg (_ * ·) (h i)).trans (sum_catP_const (normalize_isProb lw) c)

/-- A scan whose steps keep a property of the carry and have mass one, applied to a function that is constant where the
property holds. -/
theorem scanM_inv_mass {C I O : Type} {body : C → I → Ex (C × O)} (good : C → Prop) (a : ℝ≥0∞)
    (h : ∀ c i (Ψ : C × O → ℝ≥0∞), good c → (∀ r, good r.1 → Ψ r = a) → body c i Ψ = a) {k : ℕ} (c : C) (inp : Fin k → I)
    (hc : good c) (Ψ : C × (Fin k → O) → ℝ≥0∞) (hΨ : ∀ r, good r.1 → Ψ r = a) :
    (scanM body c inp : Ex _) Ψ = a := by
  induction k generalizing c with
  | zero => exact hΨ _ hc
  | succ k ih =>
    rw [scanM_succ]
    exact h c (inp 0) _ hc fun r hr => ih r.1 (tailA inp) hr _ fun rs hrs => hΨ _ hrs

/-- The backward sampling pass of `al_csmc_s` and `atp_csmc_s`: the last state is chosen by the last weights. -/
theorem als_backward_last {P0 P P1 : Type} (key : Key) (Gt : Vec d → Vec d → Vec d → P → P → ℝ) (Gp : Fin (n + 2) → P)
    (G1 : Vec d → Vec d → P0 → P1 → ℝ) (Gp1 : P0 × P1) (b : Fin (N + 1)) (xs : Fin (n + 3) → Fin (N + 1) → Vec d)
    (xs_m_1 : Fin (n + 2) → Fin (N + 1) → Vec d) (log_ws : Fin (n + 3) → Fin (N + 1) → ℝ) (φ : Vec d → ℝ≥0∞) :
    (als_backward_sampling_pass key Gt Gp G1 Gp1 b xs xs_m_1 log_ws (fun key w k => barker_move key w k) : Ex _)
      (fun r => φ (lastA r.1)) = ∑ k, ENNReal.ofReal (normalizeW (lastA log_ws) k) * φ (lastA xs k) := by
  show ∑ B, catP (normalizeW (lastA log_ws)) B * _ = _
  refine sum_congr rfl fun B _ => ?_
  rw [catP_of_isProb (normalize_isProb _)]
  refine congrArg (_ * ·) ?_
  refine choice_mass _ _ _ _ fun B' => ?_
  refine scanM_inv_mass (fun _ => True) (φ (lastA xs B)) (fun c i Ψ _ hΨ => ?_) _ _ trivial _ fun r _ => ?_
  · exact choice_mass _ _ _ _ fun k => hΨ _ trivial
  · refine choice_mass _ _ _ _ fun k => congrArg φ ?_
    have hl : ∀ (v : Vec d) (a : Fin (n + 1) → Vec d), lastA (insert0 v (snocA a (lastA xs B))) = lastA xs B := fun v a => by
      rw [lastA, ← Fin.succ_last, insert0_succ, snocA_last]
    exact hl _ _

/-- The backward scanning pass: the last state is chosen by the last weights. -/
theorem backward_scanning_last (key : Key) (As : Fin n → Fin (N + 1) → Fin (N + 1)) (b : Fin (N + 1))
    (xs : Fin (n + 1) → Fin (N + 1) → Vec d) (lw : Fin (N + 1) → ℝ) (φ : Vec d → ℝ≥0∞) :
    (backward_scanning_pass key As b xs lw (fun key w k => barker_move key w k) : Ex _)
      (fun r => φ (lastA r.1)) = ∑ k, ENNReal.ofReal (normalizeW lw k) * φ (lastA xs k) := by
  show ∑ B, catP (normalizeW lw) B * _ = _
  refine sum_congr rfl fun B _ => ?_
  rw [catP_of_isProb (normalize_isProb _)]
  refine congrArg (_ * ·) (congrArg φ ?_)
  show insert0 (lastA xs B) _ (Fin.rev (Fin.last n)) = _
  rw [Fin.rev_last]
  rfl

/-! ## The forward pass -/

/-- Mean of `φ` at the selected particle, for particles `m + L y_i` with log-weights `h`. -/
noncomputable def selLast (N : ℕ) (h : Vec d → ℝ) (φ : Vec d → ℝ≥0∞) (L : Mat d d) (m : Vec d) : ℝ≥0∞ :=
  ∫⁻ y, ∑ k, ENNReal.ofReal (normalizeW (fun i => h (m + L *ᵥ y i)) k) * φ (m + L *ᵥ y k)
    ∂(Measure.pi fun _ : Fin (N + 1) => gaussM d)

section
variable {svd : Mat d d → SvdOut d} {M : GaussModel MP RP (n + 2) d} {rt_grad0 : Vec d → Vec d → RP → Vec d}
  {ells deltas : Fin (n + 3) → ℝ} {mT : Vec d} {h : Vec d → ℝ} {resampling : Resampling Ex N}

/-- The law of the last state given its noisy copy. -/
theorem atps_last_bayes (hP : ProposalOK svd M ells) (x u : Vec d) :
    normalLogpdf mT (lastA M.Qs) x + normalLogpdf x (lastA (auxStd ells) ^ 2 • 1) u =
      normalLogpdf mT (lastA (auxStd ells) ^ 2 • 1 + lastA M.Qs) u +
        normalLogpdf (atpMean mT u (lastA (make_proposal svd M ells)).K_1 (lastA (make_proposal svd M ells)).K_2)
          ((lastA (make_proposal svd M ells)).chol * (lastA (make_proposal svd M ells)).cholᵀ) x := by
  have hs : 0 < lastA (auxStd ells) := auxStd_pos hP.pos _
  have hs2 : lastA (auxStd ells) ^ 2 = lastA ells / 2 := by
    have := auxStd_sq hP.pos (Fin.last (n + 2)); simp only [lastA] at *; linarith
  have hLL : (lastA (make_proposal svd M ells)).chol * (lastA (make_proposal svd M ells)).cholᵀ =
      isoPost (lastA ells / 2) (lastA M.Qs) := svd_chol_eq hP (Fin.last _)
  have hK : (lastA (make_proposal svd M ells)).K_1 * (lastA (make_proposal svd M ells)).K_2 =
      isoGain (lastA ells / 2) (lastA M.Qs) := svd_K (hP.posDef (Fin.last _)) (hP.isSvd (Fin.last _)) (hP.pos (Fin.last _))
  have hQ : (lastA M.Qs).PosDef := hP.posDef (Fin.last _)
  have hR : (lastA (auxStd ells) ^ 2 • (1 : Mat d d)).PosDef := posDef_smul_one (pow_pos hs 2)
  have := normal_bayes hQ hR 1 mT x 0 u
  simp only [one_mulVec, add_zero, transpose_one, Matrix.one_mul, Matrix.mul_one] at this
  rw [this, hLL, atpMean, mulVec_mulVec, hK, isoPost, isoGain, ← hs2, add_comm (lastA M.Qs)]

/-- Weights and densities at the last time differ by the log-potential and a constant. -/
theorem atps_last_weight (hP : ProposalOK svd M ells) (hL : LastAlone M rt_grad0 (lastA deltas) mT h)
    (hd : lastA M.Qs = diagonal (svd (lastA M.Qs)).Gamma) (aux : Fin (n + 3) → Vec d) :
    ∃ c : ℝ, ∀ y2 y1 x, atpsGammatTilde M rt_grad0 y2 y1 x (initA (atpsParams M deltas ells aux) (Fin.last n))
        (tailA (atpsParams M deltas ells aux) (Fin.last n)) -
      atpMt_logpdf M.mu y1 x (tailA (atpsMtParams M (make_proposal svd M ells) aux) (Fin.last n)) = h x + c := by
  have hQ : (lastA M.Qs).PosDef := hP.posDef (Fin.last _)
  have hs : 0 < lastA (auxStd ells) := auxStd_pos hP.pos _
  have hLL : (lastA (make_proposal svd M ells)).chol * (lastA (make_proposal svd M ells)).cholᵀ =
      isoPost (lastA ells / 2) (lastA M.Qs) := svd_chol_eq hP (Fin.last _)
  have hex : (lastA (make_proposal svd M ells)).chol_invᵀ * (lastA (make_proposal svd M ells)).chol_inv =
      (isoPost (lastA ells / 2) (lastA M.Qs))⁻¹ :=
    (atp_precision_iff (hP.posDef (Fin.last _)) (hP.isSvd (Fin.last _)) (hP.pos (Fin.last _)) (hP.floor (Fin.last _))).mpr hd
  have hpost : (isoPost (lastA ells / 2) (lastA M.Qs)).PosDef :=
    svd_post_posDef (hP.posDef (Fin.last _)) (hP.isSvd (Fin.last _)) (hP.pos (Fin.last _))
  obtain ⟨c, hc⟩ := (mvn_logpdf_eq_iff hpost 0).mpr hex
  refine ⟨(d / 2 * Real.log (2 * Real.pi) + Real.log (lastA M.Qs).det / 2) + isoC d (lastA (auxStd ells)) +
    normalLogpdf mT (lastA (auxStd ells) ^ 2 • 1 + lastA M.Qs) (lastA aux) + c, fun y2 y1 x => ?_⟩
  have hb := atps_last_bayes (mT := mT) hP x (lastA aux)
  rw [hLL, mvn_shift c hc] at hb
  have e0 : ∀ j, 0.5 * lastA deltas * M.rt_grad y1 x (lastA M.rt_params) j = 0 := fun j => by
    have := congrFun (hL.grad y1 x) j
    simp only [Pi.smul_apply, smul_eq_mul, Pi.zero_apply] at this
    rw [mul_assoc, this, mul_zero]
  have e1 := atp_aug hP.pos (Fin.last (n + 2)) (lastA aux) x 0
  rw [add_zero, ← normalLogpdf_iso (auxStd_pos hP.pos _)] at e1
  have e2 : alsCorrection (lastA aux) (alsMean x (lastA deltas) (M.rt_grad y1 x (lastA M.rt_params))) (lastA ells) =
      -sumSq (fun j => lastA aux j - x j - (0 : Vec d) j) / lastA ells := by
    simp only [alsCorrection, alsMean, e0]
    simp
  have e3 : M.rt y1 x (lastA M.rt_params) = h x := hL.rt y1 x
  have e4 : rt_grad0 y1 x (lastA M.rt_params) = 0 := hL.grad0 y1 x
  have e5 : M.mu y1 (lastA M.mu_params) = mT := hL.mu y1
  have e6 := mvn_logpdf_invChol hQ x mT
  simp only [atpsGammatTilde, atpMt_logpdf, atpsParams, atpsMtParams, tailA, initA, Fin.succ_last]
  simp only [lastA] at *
  rw [e2, e3, e4, e5, e6, e1]
  simp only [zero_add]
  linarith

/-- The last step of the forward scan, for a function of the log-weights and the particles. -/
theorem atpsBody_last (hP : ProposalOK svd M ells) (hL : LastAlone M rt_grad0 (lastA deltas) mT h)
    (hd : lastA M.Qs = diagonal (svd (lastA M.Qs)).Gamma)
    (hR : ∀ key w i j a, IsProb w → (resampling key w i j true : Ex _) (fun _ => a) = a) (key : Key)
    (bstar : Fin (n + 3) → Fin (N + 1)) (aux : Fin (n + 3) → Vec d) (c : AlsCarry N d) (hc : IsProb c.w) (φ : Vec d → ℝ≥0∞) :
    (atpsBody M rt_grad0 resampling c (lastA (atpsInputs key (atpsMtParams M (make_proposal svd M ells) aux)
        (atpsParams M deltas ells aux) bstar)) : Ex _)
      (fun r => ∑ k, ENNReal.ofReal (normalizeW r.2.1 k) * φ (r.2.2.2.2 k)) =
    selLast N h φ (lastA (make_proposal svd M ells)).chol
      (atpMean mT (lastA aux) (lastA (make_proposal svd M ells)).K_1 (lastA (make_proposal svd M ells)).K_2) := by
  obtain ⟨c0, hc0⟩ := atps_last_weight hP hL hd aux
  refine Eq.trans ?_ (hR (splitKey (lastA (atpsInputs key (atpsMtParams M (make_proposal svd M ells) aux)
        (atpsParams M deltas ells aux) bstar)).key 2 0) c.w (lastA (atpsInputs key (atpsMtParams M (make_proposal svd M ells) aux)
        (atpsParams M deltas ells aux) bstar)).bPrev (lastA (atpsInputs key (atpsMtParams M (make_proposal svd M ells) aux)
        (atpsParams M deltas ells aux) bstar)).bCur _ hc)
  refine congrArg (resampling _ c.w _ _ true : Ex _) (funext fun A => ?_)
  have hm : ∀ i, atpMean (M.mu (take c.x1 A i) (lastA M.mu_params)) (lastA aux) (lastA (make_proposal svd M ells)).K_1
      (lastA (make_proposal svd M ells)).K_2 = atpMean mT (lastA aux) (lastA (make_proposal svd M ells)).K_1
      (lastA (make_proposal svd M ells)).K_2 := fun i => by rw [hL.mu]
  refine lintegral_congr fun y => sum_congr rfl fun k _ => ?_
  obtain ⟨X, hX⟩ : ∃ X : Fin (N + 1) → Vec d, X = fun i => atpMean mT (lastA aux) (lastA (make_proposal svd M ells)).K_1
      (lastA (make_proposal svd M ells)).K_2 + (lastA (make_proposal svd M ells)).chol *ᵥ y i := ⟨_, rfl⟩
  have hX' : X = fun i => atpMean (M.mu (take c.x1 A i) (lastA M.mu_params)) (lastA aux) (lastA (make_proposal svd M ells)).K_1
      (lastA (make_proposal svd M ells)).K_2 + (lastA (make_proposal svd M ells)).chol *ᵥ y i := by
    simp only [hX, hm]
  have e : ∀ lw : Fin (N + 1) → ℝ, (∀ i, lw i = h (X i) + c0) → normalizeW (fun i => lw i - maxA lw) = normalizeW fun i => h (X i) := by
    intro lw hlw
    have : (fun i => lw i - maxA lw) = fun i => h (X i) + (c0 - maxA lw) := funext fun i => by rw [hlw i]; ring
    rw [this, normalize_add_const]
  have e' := e (fun i => atpsGammatTilde M rt_grad0 (take c.x2 A i) (take c.x1 A i) (X i)
      (initA (atpsParams M deltas ells aux) (Fin.last n)) (tailA (atpsParams M deltas ells aux) (Fin.last n)) -
      atpMt_logpdf M.mu (take c.x1 A i) (X i) (tailA (atpsMtParams M (make_proposal svd M ells) aux) (Fin.last n)))
      fun i => hc0 _ _ _
  have e'' := congrFun e' k
  have r := congrArg (fun q => ENNReal.ofReal q * φ (X k)) e''
  rw [hX] at r
  refine Eq.trans ?_ r
  rw [← hX, hX']
  rfl

theorem atpM0_mass (key : Key) (u mu0 : Vec d) (K_1 K_2 chol : Mat d d) (a : ℝ≥0∞) (Ψ : (Fin (N + 1) → Vec d) → ℝ≥0∞)
    (h : ∀ x, Ψ x = a) : (atpM0_rvs key (N + 1) u mu0 K_1 K_2 chol : Ex _) Ψ = a := by
  refine (lintegral_congr fun y => h _).trans ?_
  rw [lintegral_const, measure_univ, mul_one]

theorem atpMt_mass (mu : Vec d → MP → Vec d) (key : Key) (x : Fin (N + 1) → Vec d) (p : AtpMParams MP d) (a : ℝ≥0∞)
    (Ψ : (Fin (N + 1) → Vec d) → ℝ≥0∞) (h : ∀ x, Ψ x = a) : (atpMt_rvs mu key x p : Ex _) Ψ = a := by
  refine (lintegral_congr fun y => h _).trans ?_
  rw [lintegral_const, measure_univ, mul_one]

theorem resampling_mass (hR : ∀ key w i j a, IsProb w → (resampling key w i j true : Ex _) (fun _ => a) = a) (key : Key)
    {w : Fin (N + 1) → ℝ} (hw : IsProb w) (i j : Fin (N + 1)) (a : ℝ≥0∞) (Ψ : (Fin (N + 1) → Fin (N + 1)) → ℝ≥0∞)
    (h : ∀ x, Ψ x = a) : (resampling key w i j true : Ex _) Ψ = a := by
  rw [show Ψ = fun _ => a from funext h]
  exact hR key w i j a hw

/-- The forward pass followed by the choice of the last state. -/
theorem atpsForward_last (hP : ProposalOK svd M ells) (hL : LastAlone M rt_grad0 (lastA deltas) mT h)
    (hd : lastA M.Qs = diagonal (svd (lastA M.Qs)).Gamma)
    (hR : ∀ key w i j a, IsProb w → (resampling key w i j true : Ex _) (fun _ => a) = a) (key : Key)
    (bstar : Fin (n + 3) → Fin (N + 1)) (aux : Fin (n + 3) → Vec d) (φ : Vec d → ℝ≥0∞) :
    (atpsForward svd M rt_grad0 key bstar ells deltas resampling aux : Ex _)
      (fun F => ∑ k, ENNReal.ofReal (normalizeW (lastA F.log_ws) k) * φ (lastA F.xs k)) =
    selLast N h φ (lastA (make_proposal svd M ells)).chol
      (atpMean mT (lastA aux) (lastA (make_proposal svd M ells)).K_1 (lastA (make_proposal svd M ells)).K_2) := by
  refine atpM0_mass _ _ _ _ _ _ _ _ fun x0 => ?_
  refine resampling_mass hR _ (normalize_isProb _) _ _ _ _ fun A0 => ?_
  refine atpMt_mass _ _ _ _ _ _ fun x1 => ?_
  have key1 : ∀ c : AlsCarry N d, IsProb c.w → (scanM (atpsBody M rt_grad0 resampling) c (atpsInputs key (atpsMtParams M (make_proposal svd M ells) aux)
      (atpsParams M deltas ells aux) bstar) : Ex _)
      (fun r => ∑ k, ENNReal.ofReal (normalizeW (lastA r.2).1 k) * φ ((lastA r.2).2.2.2 k)) =
    selLast N h φ (lastA (make_proposal svd M ells)).chol
      (atpMean mT (lastA aux) (lastA (make_proposal svd M ells)).K_1 (lastA (make_proposal svd M ells)).K_2) := by
    intro c hcw
    rw [scanM_snoc]
    refine scanM_inv_mass (fun c => IsProb c.w) _ (fun c i Ψ hc hΨ => ?_) c _ hcw _ fun rs hrs => ?_
    · refine resampling_mass hR _ hc _ _ _ _ fun A => ?_
      exact atpMt_mass _ _ _ _ _ _ fun x => hΨ _ (normalize_isProb _)
    · refine Eq.trans ?_ (atpsBody_last hP hL hd hR key bstar aux rs.1 hrs φ)
      refine congrArg (atpsBody M rt_grad0 resampling rs.1 _ : Ex _) (funext fun r => ?_)
      show ∑ k, ENNReal.ofReal (normalizeW (lastA (snocA rs.2 r.2)).1 k) * φ ((lastA (snocA rs.2 r.2)).2.2.2 k) = _
      rw [lastA_snocA]
  exact key1 _ (normalize_isProb _)

/-- The last state drawn by `atp_csmc_s.kernel`: a noisy copy `u` of the last reference state, particles around the
posterior mean given `u`, none of which is the reference state, and a choice among them by the potential. -/
theorem atps_kernel_last (hP : ProposalOK svd M ells) (hL : LastAlone M rt_grad0 (lastA deltas) mT h)
    (hd : lastA M.Qs = diagonal (svd (lastA M.Qs)).Gamma)
    (hR : ∀ key w i j a, IsProb w → (resampling key w i j true : Ex _) (fun _ => a) = a) (key : Key)
    (x : Fin (n + 3) → Vec d) (bstar : Fin (n + 3) → Fin (N + 1)) (backward : Bool) (φ : Vec d → ℝ≥0∞)
    (hm : Measurable fun u => selLast N h φ (lastA (make_proposal svd M ells)).chol
      (atpMean mT u (lastA (make_proposal svd M ells)).K_1 (lastA (make_proposal svd M ells)).K_2)) :
    (atps_kernel svd M rt_grad0 key x bstar ells deltas resampling (fun key w k => barker_move key w k) backward : Ex _)
      (fun r => φ (lastA r.1)) =
    ∫⁻ z, selLast N h φ (lastA (make_proposal svd M ells)).chol
      (atpMean mT (lastA x + lastA (auxStd ells) • z) (lastA (make_proposal svd M ells)).K_1
        (lastA (make_proposal svd M ells)).K_2) ∂gaussM d := by
  have hme := (measurePreserving_eval (fun _ : Fin (n + 3) => gaussM d) (Fin.last _)).lintegral_comp
    (f := fun z => selLast N h φ (lastA (make_proposal svd M ells)).chol
      (atpMean mT (lastA x + lastA (auxStd ells) • z) (lastA (make_proposal svd M ells)).K_1
        (lastA (make_proposal svd M ells)).K_2)) (hm.comp (by fun_prop))
  rw [← hme]
  refine lintegral_congr fun e => ?_
  have hu : (fun j => x (Fin.last _) j + 0.5 * deltas (Fin.last _) * fullGrad M.r0_grad rt_grad0 M.rt_grad M.rt_params x (Fin.last _) j +
      auxStd ells (Fin.last _) * e (Fin.last _) j) = lastA x + lastA (auxStd ells) • e (Fin.last _) := by
    funext j
    have e1 : fullGrad M.r0_grad rt_grad0 M.rt_grad M.rt_params x (Fin.last _) =
        M.rt_grad (initA x (Fin.last _)) (tailA x (Fin.last _)) (lastA M.rt_params) := by
      show insert0 _ _ (Fin.last (n + 1)).succ + snocA _ _ (Fin.last (n + 2)) = _
      rw [insert0_succ, snocA_last, add_zero]
      rfl
    have e2 := congrFun (hL.grad (initA x (Fin.last _)) (tailA x (Fin.last _))) j
    simp only [Pi.smul_apply, smul_eq_mul, Pi.zero_apply, lastA] at e2
    rw [e1]
    simp only [Pi.add_apply, Pi.smul_apply, smul_eq_mul, lastA, mul_assoc, e2, mul_zero, add_zero]
  have hF := atpsForward_last hP hL hd hR key bstar (fun t j => x t j + 0.5 * deltas t *
    fullGrad M.r0_grad rt_grad0 M.rt_grad M.rt_params x t j + auxStd ells t * e t j) φ
  rw [show lastA (fun t j => x t j + 0.5 * deltas t *
    fullGrad M.r0_grad rt_grad0 M.rt_grad M.rt_params x t j + auxStd ells t * e t j) = lastA x + lastA (auxStd ells) • e (Fin.last _) from hu] at hF
  refine Eq.trans ?_ hF
  refine congrArg (atpsForward svd M rt_grad0 key bstar ells deltas resampling _ : Ex _) (funext fun F => ?_)
  cases backward with
  | true => exact als_backward_last _ _ _ _ _ _ _ _ _ φ
  | false => exact backward_scanning_last _ _ _ _ _ φ

end

/-! ## The mean of `exp(-h)` at the selected particle -/

section
variable {h : Vec d → ℝ} {L : Mat d d}

theorem measurable_selLast {φ : Vec d → ℝ≥0∞} (hh : Measurable h) (hφ : Measurable φ) (L : Mat d d) :
    Measurable fun m => selLast N h φ L m := by
  refine Measurable.lintegral_prod_right' (f := fun q : Vec d × (Fin (N + 1) → Vec d) =>
    ∑ k, ENNReal.ofReal (normalizeW (fun i => h (q.1 + L *ᵥ q.2 i)) k) * φ (q.1 + L *ᵥ q.2 k)) ?_
  have hp : ∀ k, Measurable fun q : Vec d × (Fin (N + 1) → Vec d) => q.1 + L *ᵥ q.2 k := fun k => by fun_prop
  have hw : Measurable fun q : Vec d × (Fin (N + 1) → Vec d) => normalizeW fun i => h (q.1 + L *ᵥ q.2 i) :=
    measurable_normalizeW (measurable_pi_lambda _ fun i => hh.comp (hp i))
  exact Finset.measurable_fun_sum _ fun k _ => ((measurable_pi_apply k).comp hw).ennreal_ofReal.mul (hφ.comp (hp k))

theorem selLast_inv (m : Vec d) : selLast N h (fun x => ENNReal.ofReal (Real.exp (-h x))) L m =
    ∫⁻ y, ENNReal.ofReal (((N : ℝ) + 1) / ∑ i, Real.exp (h (m + L *ᵥ y i))) ∂(Measure.pi fun _ : Fin (N + 1) => gaussM d) := by
  refine lintegral_congr fun y => ?_
  have hp := sum_exp_pos fun i => h (m + L *ᵥ y i)
  have : ∀ k, ENNReal.ofReal (normalizeW (fun i => h (m + L *ᵥ y i)) k) * ENNReal.ofReal (Real.exp (-h (m + L *ᵥ y k))) =
      ENNReal.ofReal (1 / ∑ i, Real.exp (h (m + L *ᵥ y i))) := fun k => by
    rw [← ENNReal.ofReal_mul (normalize_pos _ k).le, normalize_eq, div_mul_eq_mul_div, ← Real.exp_add, add_neg_cancel, Real.exp_zero]
  simp only [this, sum_const, card_univ, Fintype.card_fin, nsmul_eq_mul]
  rw [← ENNReal.ofReal_natCast, ← ENNReal.ofReal_mul (by positivity)]
  congr 1
  push_cast
  ring

/-- A function that is not almost everywhere constant is not so at a Gaussian variable. -/
theorem gauss_not_const (hh : Measurable h) (hL : L.det ≠ 0) (hne : ¬ ∃ c, ∀ᵐ x, h x = c) (m : Vec d) :
    ¬ ∃ c, ∀ᵐ v ∂gaussM d, Real.exp (h (m + L *ᵥ v)) = c := by
  rintro ⟨c, hc⟩
  refine hne ⟨Real.log c, ?_⟩
  have hS : MeasurableSet {x : Vec d | h x ≠ Real.log c} := (measurableSet_eq_fun hh measurable_const).compl
  obtain ⟨F, hF⟩ : ∃ F : Vec d → ℝ≥0∞, F = Set.indicator {x : Vec d | h x ≠ Real.log c} fun _ => 1 := ⟨_, rfl⟩
  have hFm : Measurable F := hF ▸ measurable_const.indicator hS
  have h1 := gauss_law hL m F hFm
  have hFc : Measurable fun z => F (m + L *ᵥ z) := hFm.comp (by fun_prop)
  have h0 : ∫⁻ z, F (m + L *ᵥ z) ∂gaussM d = 0 := by
    rw [lintegral_eq_zero_iff hFc]
    filter_upwards [hc] with v hv
    have : h (m + L *ᵥ v) = Real.log c := by rw [← hv, Real.log_exp]
    simp [this, hF]
  have hD : Measurable fun x => ENNReal.ofReal (Real.exp (normalLogpdf m (L * Lᵀ) x)) * F x :=
    (Real.measurable_exp.comp (measurable_normalLogpdf _ measurable_const measurable_id)).ennreal_ofReal.mul hFm
  rw [h0, eq_comm, lintegral_eq_zero_iff hD] at h1
  filter_upwards [h1] with x hx
  by_contra hn
  have hx : ENNReal.ofReal (Real.exp (normalLogpdf m (L * Lᵀ) x)) * F x = 0 := hx
  have hx' := (mul_eq_zero.mp hx).resolve_left (by simp [Real.exp_pos])
  rw [hF, Set.indicator_of_mem (by exact hn)] at hx'
  exact one_ne_zero hx'

theorem selLast_gt (hh : Measurable h) {B : ℝ} (hB : ∀ x, |h x| ≤ B) (hL : L.det ≠ 0) (hne : ¬ ∃ c, ∀ᵐ x, h x = c) (m : Vec d) :
    1 < (∫⁻ v, ENNReal.ofReal (Real.exp (h (m + L *ᵥ v))) ∂gaussM d) *
      selLast N h (fun x => ENNReal.ofReal (Real.exp (-h x))) L m := by
  rw [selLast_inv]
  exact jensen_strict (gaussM d) (w := fun v => Real.exp (h (m + L *ᵥ v))) (Real.measurable_exp.comp (hh.comp (by fun_prop)))
    (Real.exp_pos (-B)) (b := Real.exp B) (fun v => ⟨Real.exp_le_exp.mpr (abs_le.mp (hB _)).1, Real.exp_le_exp.mpr (abs_le.mp (hB _)).2⟩)
    (gauss_not_const hh hL hne m)

end

end Verif
