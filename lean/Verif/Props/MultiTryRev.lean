import Verif.Lemmas.MultiTryRev
import Verif.Props.MultiTryInv
import Verif.Props.ExpMultiTry

/-!
# C81: the multi-try kernels are reversible, up to the guard of `force_move`

The law of the pair (state, next state), when the state carries a trajectory from the target, is exchangeable up to
twice the total-variation error of `force_move`.
-/

open MeasureTheory
open scoped ENNReal

namespace Verif.Props
open Verif Verif.Model Verif.Spec Matrix

variable {N n d T : ℕ}

/-- A kernel that selects with `force_move`. -/
theorem nearRev_of_exact {X S E : Type} [MeasurableSpace X] [MeasurableSpace S] [MeasurableSpace E] {lam : Measure X}
    {logpi : X → ℝ} (hpi : Measurable logpi) {init : X → S} {K : S → Ex S} {D : S → Ex E} (hD : IsKer D)
    (h1 : ∀ s, D s (fun _ => 1) = 1) {W : S → E → Fin (N + 1) → ℝ} (hW : Measurable fun p : S × E => W p.1 p.2)
    (hp : ∀ s e, IsProb (W s e)) {g : S → E → Fin (N + 1) → S} (hg : Measurable fun p : S × E => g p.1 p.2) {key : Key}
    (hK : ∀ s, K s = drawSelect (D s) (W s) (g s) (forcedIdx key))
    (hrev : ∀ H : S × S → ℝ≥0∞, Measurable H → ∫⁻ x, ENNReal.ofReal (Real.exp (logpi x)) *
        drawSelect (D (init x)) (W (init x)) (g (init x)) liuMove (fun s => H (init x, s)) ∂lam =
      ∫⁻ x, ENNReal.ofReal (Real.exp (logpi x)) *
        drawSelect (D (init x)) (W (init x)) (g (init x)) liuMove (fun s => H (s, init x)) ∂lam) :
    StateNearReversible (2 * forceErr) lam logpi init K :=
  nearPair_of hpi hD h1 hW hp hg (force_moveKer key) liu_moveInvariant.ker (fun _ hw k => force_near_liu key hw k) hK hrev

/-! ## `mala.py` -/

section mala
variable {delta : ℝ} (hd : 0 < delta) {log_pdf : Traj T d → ℝ} (hl : Measurable log_pdf) {grad : Traj T d → Traj T d}
  (hg : Measurable grad)
include hd hl hg

theorem mala_exact_pair (key : Key) (auxiliary : Bool) (H : VGState T d × VGState T d → ℝ≥0∞) (hH : Measurable H) :
    ∫⁻ x, ENNReal.ofReal (Real.exp (log_pdf x)) *
      drawSelect (malaNoise key N T d) (malaW delta log_pdf grad auxiliary (tp_init log_pdf grad x))
        (fun e => candStates log_pdf grad (tp_init log_pdf grad x) (malaProp delta (tp_init log_pdf grad x) e)) liuMove
        (fun s => H (tp_init log_pdf grad x, s)) ∂trajVol T d =
    ∫⁻ x, ENNReal.ofReal (Real.exp (log_pdf x)) *
      drawSelect (malaNoise key N T d) (malaW delta log_pdf grad auxiliary (tp_init log_pdf grad x))
        (fun e => candStates log_pdf grad (tp_init log_pdf grad x) (malaProp delta (tp_init log_pdf grad x) e)) liuMove
        (fun s => H (s, tp_init log_pdf grad x)) ∂trajVol T d := by
  have hi := measurable_tp_init hl hg
  have hpair : Measurable (Function.uncurry fun x y => H (tp_init log_pdf grad x, tp_init log_pdf grad y)) :=
    hH.comp ((hi.comp measurable_fst).prodMk (hi.comp measurable_snd))
  have e1 := fun x => mala_exact_eq (N := N) hd hl hg key auxiliary
    (f := fun s => H (tp_init log_pdf grad x, s)) (hH.comp measurable_prodMk_left) x
  have e2 := fun x => mala_exact_eq (N := N) hd hl hg key auxiliary
    (f := fun s => H (s, tp_init log_pdf grad x)) (hH.comp measurable_prodMk_right) x
  cases auxiliary
  · simp only [mala_marg_weight hd] at e1 e2
    simp only [e1, e2]
    refine mt_marg_pair (N := N) (lam := trajVol T d) (μ := trajVol T d)
      (logpi := log_pdf) (r := fun x u => isoT (Real.sqrt (0.5 * delta)) (malaCenter delta grad x) u)
      (q := fun u y => isoT (Real.sqrt (0.5 * delta)) u y)
      (H := fun x y => H (tp_init log_pdf grad x, tp_init log_pdf grad y))
      (lw := fun z k => log_pdf (z k) + ∑ t, logH (Real.sqrt (0.5 * delta)) (fun j => 0.5 * delta * grad (z k) t j)
          (fun i => z i t) k)
      (C := fun z => ∫⁻ u, ENNReal.ofReal (Real.exp (∑ i, isoT (Real.sqrt (0.5 * delta)) u (z i))) ∂trajVol T d) hl
      (measurable_malaR hg delta) (measurable_malaQ delta) ?_ ?_ ?_ liu_reversible liu_equivariant hpair
    · refine measurable_pi_lambda _ fun k => ?_
      have hk : Measurable fun z : Fin (N + 1) → Traj T d => grad (z k) := hg.comp (measurable_pi_apply k)
      refine (hl.comp (measurable_pi_apply k)).add (Finset.measurable_fun_sum _ fun t _ => ?_)
      exact measurable_logH _ (by fun_prop) (by fun_prop) k
    · intro z k
      exact mala_marg_density log_pdf (fun x t j => 0.5 * delta * grad x t j) z k
    · intro z k i
      have hm : ∀ t, meanP (fun i => z (Equiv.swap 0 k i) t) = meanP (fun i => z i t) := fun t => by
        funext j
        simp only [meanP]
        congr 1
        exact Equiv.sum_comp (Equiv.swap 0 k) fun i => z i t j
      simp only [logH, hm]
  · simp only [mala_aux_weight hd] at e1 e2
    simp only [e1, e2]
    exact mt_aux_pair (N := N) (lam := trajVol T d) (μ := trajVol T d)
      (logpi := log_pdf) (r := fun x u => isoT (Real.sqrt (0.5 * delta)) (malaCenter delta grad x) u)
      (q := fun u y => isoT (Real.sqrt (0.5 * delta)) u y)
      (H := fun x y => H (tp_init log_pdf grad x, tp_init log_pdf grad y)) hl
      (measurable_malaR hg delta) (measurable_malaQ delta) liu_reversible liu_equivariant hpair

/-- **C81** (`mala.kernel`, with or without the auxiliary variable). -/
theorem C81_mala (key : Key) (N : ℕ) (auxiliary : Bool) :
    StateNearReversible (2 * forceErr) (trajVol T d) log_pdf (tp_init log_pdf grad) (fun s => do
      let r ← mala_kernel key s delta log_pdf grad N auxiliary
      pure r.1) :=
  nearRev_of_exact hl (malaNoise_ker key) (fun _ => malaNoise_mass key) (measurable_malaW hl hg delta auxiliary)
    (fun _ _ => normalize_isProb _) (g := fun s e => candStates log_pdf grad s (malaProp delta s e))
    (measurable_candStates hl hg measurable_fst (measurable_malaProp delta))
    (fun s => mala_step_eq key s delta log_pdf grad N auxiliary) (mala_exact_pair hd hl hg key auxiliary)

end mala

/-- A Gaussian target with its gradient: five proposals, three times, dimension two. -/
example (key : Key) (auxiliary : Bool) := C81_mala (T := 3) (d := 2) (delta := 0.7) (by norm_num)
  (log_pdf := fun x => -0.5 * ∑ t, ∑ j, x t j ^ 2) (by fun_prop) (grad := fun x t j => -x t j) (by fun_prop) key 5 auxiliary

/-! ## `tp.py` -/

section tp
variable {delta : ℝ} (hd : 0 < delta) {D : Dyn n d} (hP : D.P0.PosDef) (hQ : ∀ t, (D.Qs t).PosDef)
  {log_pdf : Traj (n + 1) d → ℝ} (hl : Measurable log_pdf) {grad : Traj (n + 1) d → Traj (n + 1) d} (hg : Measurable grad)
include hd hP hQ hl hg

/-- The selection of the kernel of `tp.get_kernel` with the exact move, as an integral against densities. -/
theorem tp_exact_eq (key : Key) {f : VGState (n + 1) d → ℝ≥0∞} (hf : Measurable f) (x : Traj (n + 1) d) :
    drawSelect (mtpNoise key delta D N (tp_init log_pdf grad x)) (tpW delta log_pdf grad (tp_init log_pdf grad x))
        (fun e => candStates log_pdf grad (tp_init log_pdf grad x) e.2) liuMove f =
    ∫⁻ u, ENNReal.ofReal (Real.exp (isoT (Real.sqrt (0.5 * delta)) (malaCenter delta grad x) u)) *
      ∫⁻ y, ENNReal.ofReal (Real.exp (∑ i, tpQ delta D u (y i))) *
        liuMove (normalizeW fun k => mtTarget D log_pdf ((insert0 x y : Fin (N + 1) → Traj (n + 1) d) k) +
          isoT (Real.sqrt (0.5 * delta)) (malaCenter delta grad ((insert0 x y : Fin (N + 1) → Traj (n + 1) d) k)) u -
          tpQ delta D u ((insert0 x y : Fin (N + 1) → Traj (n + 1) d) k)) 0
          (fun k => f (tp_init log_pdf grad ((insert0 x y : Fin (N + 1) → Traj (n + 1) d) k)))
        ∂(Measure.pi fun _ : Fin N => trajVol (n + 1) d) ∂trajVol (n + 1) d := by
  have hz : Measurable fun p : Traj (n + 1) d × (Fin N → Traj (n + 1) d) =>
      (insert0 x p.2 : Fin (N + 1) → Traj (n + 1) d) := measurable_insert0 measurable_const measurable_snd
  have hzi : ∀ i, Measurable fun p : Traj (n + 1) d × (Fin N → Traj (n + 1) d) =>
      (insert0 x p.2 : Fin (N + 1) → Traj (n + 1) d) i := fun i => (measurable_pi_apply i).comp hz
  have hM : Measurable fun p : Traj (n + 1) d × (Fin N → Traj (n + 1) d) =>
      liuMove (normalizeW (tpLogWeights delta p.1 (insert0 x p.2)
          (fun i => log_pdf ((insert0 x p.2 : Fin (N + 1) → Traj (n + 1) d) i))
          (fun i => grad ((insert0 x p.2 : Fin (N + 1) → Traj (n + 1) d) i)))) 0
          (fun k => f (tp_init log_pdf grad ((insert0 x p.2 : Fin (N + 1) → Traj (n + 1) d) k))) :=
    measurable_move liu_moveInvariant.ker (measurable_normalizeW (measurable_tpLogWeights _ measurable_fst hz
      (measurable_pi_lambda _ fun i => hl.comp (hzi i)) (measurable_pi_lambda _ fun i => hg.comp (hzi i)))) 0
      (measurable_pi_lambda _ fun i => hf.comp ((measurable_tp_init hl hg).comp (hzi i)))
  have h := mtpNoise_law hP hQ hd key log_pdf grad x (M := fun u y =>
      liuMove (normalizeW (tpLogWeights delta u (insert0 x y)
          (fun i => log_pdf ((insert0 x y : Fin (N + 1) → Traj (n + 1) d) i))
          (fun i => grad ((insert0 x y : Fin (N + 1) → Traj (n + 1) d) i)))) 0
          (fun k => f (tp_init log_pdf grad ((insert0 x y : Fin (N + 1) → Traj (n + 1) d) k)))) hM
  simp only [tp_weight (D := D) hd log_pdf grad] at h
  refine Eq.trans ?_ h
  refine congrArg (mtpNoise key delta D N (tp_init log_pdf grad x)) (funext fun e => ?_)
  rw [← tp_weight (D := D) hd log_pdf grad e.1 (insert0 x e.2)]
  simp only [← cand_vals log_pdf, ← cand_vals grad, ← cand_states]
  rfl

theorem tp_exact_pair (key : Key) (H : VGState (n + 1) d × VGState (n + 1) d → ℝ≥0∞) (hH : Measurable H) :
    ∫⁻ x, ENNReal.ofReal (Real.exp (mtTarget D log_pdf x)) *
      drawSelect (mtpNoise key delta D N (tp_init log_pdf grad x)) (tpW delta log_pdf grad (tp_init log_pdf grad x))
        (fun e => candStates log_pdf grad (tp_init log_pdf grad x) e.2) liuMove
        (fun s => H (tp_init log_pdf grad x, s)) ∂trajVol (n + 1) d =
    ∫⁻ x, ENNReal.ofReal (Real.exp (mtTarget D log_pdf x)) *
      drawSelect (mtpNoise key delta D N (tp_init log_pdf grad x)) (tpW delta log_pdf grad (tp_init log_pdf grad x))
        (fun e => candStates log_pdf grad (tp_init log_pdf grad x) e.2) liuMove
        (fun s => H (s, tp_init log_pdf grad x)) ∂trajVol (n + 1) d := by
  have hi := measurable_tp_init hl hg
  have hpair : Measurable (Function.uncurry fun x y => H (tp_init log_pdf grad x, tp_init log_pdf grad y)) :=
    hH.comp ((hi.comp measurable_fst).prodMk (hi.comp measurable_snd))
  have e1 := fun x => tp_exact_eq (N := N) hd hP hQ hl hg key
    (f := fun s => H (tp_init log_pdf grad x, s)) (hH.comp measurable_prodMk_left) x
  have e2 := fun x => tp_exact_eq (N := N) hd hP hQ hl hg key
    (f := fun s => H (s, tp_init log_pdf grad x)) (hH.comp measurable_prodMk_right) x
  simp only [e1, e2]
  exact mt_aux_pair (N := N) (lam := trajVol (n + 1) d)
    (μ := trajVol (n + 1) d) (logpi := mtTarget D log_pdf)
    (r := fun x u => isoT (Real.sqrt (0.5 * delta)) (malaCenter delta grad x) u)
    (q := tpQ delta D) (H := fun x y => H (tp_init log_pdf grad x, tp_init log_pdf grad y)) (measurable_mtTarget D hl)
    (measurable_malaR hg delta) (measurable_tpQ hP hQ hd) liu_reversible liu_equivariant hpair

/-- **C81** (the kernel of `tp.get_kernel`). -/
theorem C81_tp (key : Key) (N : ℕ) :
    StateNearReversible (2 * forceErr) (trajVol (n + 1) d) (mtTarget D log_pdf) (tp_init log_pdf grad) (fun s => do
      let r ← tp_kernel key s delta D log_pdf grad N
      pure r.1) :=
  nearRev_of_exact (measurable_mtTarget D hl) (mtpNoise_ker hP hQ hd key) (fun s => mtpNoise_mass hP hQ hd key s)
    (measurable_tpW hl hg delta) (fun _ _ => normalize_isProb _) (g := fun s e => candStates log_pdf grad s e.2)
    (measurable_candStates hl hg measurable_fst (by fun_prop))
    (fun s => tp_step_eq key s delta D log_pdf grad N) (tp_exact_pair hd hP hQ hl hg key)

end tp

/-- An autoregressive prior in dimension two observed in noise. -/
noncomputable example (key : Key) (ys : Traj 4 2) := C81_tp (delta := 0.3) (by norm_num)
  (D := (⟨0, 1, fun _ => !![0.9, 0.1; 0, 0.8], fun _ => (0.5 : ℝ) • 1, fun _ => ![1, 0]⟩ : Dyn 3 2)) PosDef.one
  (fun _ => posDef_smul_one (by norm_num)) (log_pdf := fun x => -0.5 * ∑ t, ∑ j, (x t j - ys t j) ^ 2) (by fun_prop)
  (grad := fun x t j => ys t j - x t j) (by fun_prop) key 5

/-! ## `imh.py` -/

section imh
variable {D : Dyn n d} (hP : D.P0.PosDef) (hQ : ∀ t, (D.Qs t).PosDef) {log_pdf : Traj (n + 1) d → ℝ}
  (hl : Measurable log_pdf)
include hP hQ hl

/-- The selection of the kernel of `imh.get_kernel` with any move, as an integral against densities. -/
theorem imh_select_eq (key : Key) {move : (Fin (N + 1) → ℝ) → Fin (N + 1) → Ex (Fin (N + 1))} (hm : MoveKer move)
    {f : Traj (n + 1) d × ℝ → ℝ≥0∞} (hf : Measurable f) (x : Traj (n + 1) d) :
    drawSelect (prior_sampling key D.m0 D.P0 D.Fs D.Qs D.bs N) (imhW log_pdf (imh_init log_pdf x))
        (imhStates log_pdf (imh_init log_pdf x)) move f =
    ∫⁻ y, ENNReal.ofReal (Real.exp (∑ i, gaussPathLog D.m0 D.P0 D.Fs D.Qs D.bs (y i))) *
      move (normalizeW fun k => log_pdf ((insert0 x y : Fin (N + 1) → Traj (n + 1) d) k)) 0
        (fun k => f (imh_init log_pdf ((insert0 x y : Fin (N + 1) → Traj (n + 1) d) k)))
      ∂(Measure.pi fun _ : Fin N => trajVol (n + 1) d) := by
  have hi : Measurable (imh_init (T := n + 1) (d := d) log_pdf) := measurable_id.prodMk hl
  have hz : Measurable fun y : Fin N → Traj (n + 1) d => (insert0 x y : Fin (N + 1) → Traj (n + 1) d) :=
    measurable_insert0 measurable_const measurable_id
  have hzi : ∀ i, Measurable fun y : Fin N → Traj (n + 1) d => (insert0 x y : Fin (N + 1) → Traj (n + 1) d) i :=
    fun i => (measurable_pi_apply i).comp hz
  have hM : Measurable fun y : Fin N → Traj (n + 1) d =>
      move (normalizeW fun k => log_pdf ((insert0 x y : Fin (N + 1) → Traj (n + 1) d) k)) 0
        (fun k => f (imh_init log_pdf ((insert0 x y : Fin (N + 1) → Traj (n + 1) d) k))) :=
    measurable_move hm (measurable_normalizeW (measurable_pi_lambda _ fun i => hl.comp (hzi i))) 0
      (measurable_pi_lambda _ fun i => hf.comp (hi.comp (hzi i)))
  refine Eq.trans ?_ (imh_draws hP hQ key hM)
  refine congrArg (prior_sampling key D.m0 D.P0 D.Fs D.Qs D.bs N : Ex _) (funext fun e => ?_)
  have hs : ∀ k, imh_init log_pdf ((insert0 x e : Fin (N + 1) → Traj (n + 1) d) k) =
      imhStates log_pdf (imh_init log_pdf x) e k := fun k => Fin.cases rfl (fun _ => rfl) k
  simp only [← cand_vals log_pdf, hs]
  rfl

theorem imh_exact_pair (key : Key) (H : (Traj (n + 1) d × ℝ) × (Traj (n + 1) d × ℝ) → ℝ≥0∞) (hH : Measurable H) :
    ∫⁻ x, ENNReal.ofReal (Real.exp (mtTarget D log_pdf x)) *
      drawSelect (prior_sampling key D.m0 D.P0 D.Fs D.Qs D.bs N) (imhW log_pdf (imh_init log_pdf x))
        (imhStates log_pdf (imh_init log_pdf x)) liuMove (fun s => H (imh_init log_pdf x, s)) ∂trajVol (n + 1) d =
    ∫⁻ x, ENNReal.ofReal (Real.exp (mtTarget D log_pdf x)) *
      drawSelect (prior_sampling key D.m0 D.P0 D.Fs D.Qs D.bs N) (imhW log_pdf (imh_init log_pdf x))
        (imhStates log_pdf (imh_init log_pdf x)) liuMove (fun s => H (s, imh_init log_pdf x)) ∂trajVol (n + 1) d := by
  have hi : Measurable (imh_init (T := n + 1) (d := d) log_pdf) := measurable_id.prodMk hl
  have hq : Measurable fun p : Unit × Traj (n + 1) d => gaussPathLog D.m0 D.P0 D.Fs D.Qs D.bs p.2 :=
    measurable_gaussPathLog _ _ _ _ measurable_const measurable_snd
  have e1 := fun x => imh_select_eq (N := N) hP hQ hl key liu_moveInvariant.ker
    (f := fun s => H (imh_init log_pdf x, s)) (hH.comp measurable_prodMk_left) x
  have e2 := fun x => imh_select_eq (N := N) hP hQ hl key liu_moveInvariant.ker
    (f := fun s => H (s, imh_init log_pdf x)) (hH.comp measurable_prodMk_right) x
  have h := mt_aux_pair (N := N) (lam := trajVol (n + 1) d)
    (μ := Measure.dirac ()) (logpi := mtTarget D log_pdf) (r := fun _ (_ : Unit) => 0)
    (q := fun _ y => gaussPathLog D.m0 D.P0 D.Fs D.Qs D.bs y) (measurable_mtTarget D hl) measurable_const hq
    liu_reversible liu_equivariant (H := fun x y => H (imh_init log_pdf x, imh_init log_pdf y))
    (hH.comp ((hi.comp measurable_fst).prodMk (hi.comp measurable_snd)))
  simp only [lintegral_dirac, Real.exp_zero, ENNReal.ofReal_one, one_mul, mtTarget, add_zero, add_sub_cancel_left] at h
  simp only [e1, e2]
  exact h

/-- **C81** (the kernel of `imh.get_kernel`). -/
theorem C81_imh (key : Key) (N : ℕ) :
    StateNearReversible (2 * forceErr) (trajVol (n + 1) d) (mtTarget D log_pdf) (imh_init log_pdf) (fun s => do
      let r ← imh_kernel key s D log_pdf N
      pure r.1) :=
  nearRev_of_exact (measurable_mtTarget D hl) (imh_draws_ker hP hQ (splitKey key 3 0)) (fun _ => imh_draws_mass hP hQ _)
    (measurable_imhW hl) (fun _ _ => normalize_isProb _) (measurable_imhStates hl)
    (fun s => imh_step_eq key s D log_pdf N) (imh_exact_pair hP hQ hl _)

end imh

/-- The same prior and observations. -/
noncomputable example (key : Key) (ys : Traj 4 2) := C81_imh
  (D := (⟨0, 1, fun _ => !![0.9, 0.1; 0, 0.8], fun _ => (0.5 : ℝ) • 1, fun _ => ![1, 0]⟩ : Dyn 3 2)) PosDef.one
  (fun _ => posDef_smul_one (by norm_num)) (log_pdf := fun x => -0.5 * ∑ t, ∑ j, (x t j - ys t j) ^ 2) (by fun_prop)
  key 5

/-! ## The experiments -/

/-- **C81** (`lgssm`, `TP`, `MALA` with both styles, `RW`, and `IMH`): with respect to the posterior. -/
theorem C81_lgssm (ys : Traj (n + 1) d) {sigma : ℝ} (hs : 0 < sigma) {delta : ℝ} (hd : 0 < delta) (auxiliary stop : Bool) (key : Key)
    (N : ℕ) :
    StateNearReversible (2 * forceErr) (trajVol (n + 1) d) (lgTarget sigma ys)
      (tp_init (fun xs => lg_log_likelihood xs ys) (jaxGrad2 fun xs => lg_log_likelihood xs ys)) (fun s => do
        let r ← lg_tp_kernel ys sigma N key s delta
        pure r.1) ∧
    StateNearReversible (2 * forceErr) (trajVol (n + 1) d) (lgTarget sigma ys)
      (tp_init (fun xs => lg_log_pdf xs ys sigma)
        (fun xs => if stop then 0 else jaxGrad2 (fun xs => lg_log_pdf xs ys sigma) xs)) (fun s => do
        let r ← lg_mala_kernel ys sigma N auxiliary stop key s delta
        pure r.1) ∧
    StateNearReversible (2 * forceErr) (trajVol (n + 1) d) (lgTarget sigma ys)
      (imh_init fun xs => lg_log_likelihood xs ys) (fun s => do
        let r ← lg_imh_kernel ys sigma N key s
        pure r.1) := by
  have h : lgTarget sigma ys = fun xs => lg_log_pdf xs ys sigma := funext fun x => (C55_lgssm_mala hs ys x).symm
  have hl : Measurable fun xs => lg_log_pdf xs ys sigma := by
    rw [← h, ← lg_mtTarget ys]
    exact measurable_mtTarget _ (measurable_lg_log_likelihood ys)
  have hg : Measurable fun xs => if stop then (0 : Traj (n + 1) d) else jaxGrad2 (fun xs => lg_log_pdf xs ys sigma) xs := by
    cases stop
    · exact measurable_jaxGrad2 _
    · exact measurable_const
  refine ⟨?_, ?_, ?_⟩
  · rw [← lg_mtTarget ys]
    exact C81_tp hd (posDef_smul_one (pow_pos hs 2)) (fun _ => posDef_smul_one (pow_pos hs 2))
      (measurable_lg_log_likelihood ys) (measurable_jaxGrad2 _) key N
  · rw [h]
    exact C81_mala hd hl hg key N auxiliary
  · rw [← lg_mtTarget ys]
    exact C81_imh (posDef_smul_one (pow_pos hs 2)) (fun _ => posDef_smul_one (pow_pos hs 2))
      (measurable_lg_log_likelihood ys) key N

/-- **C81** (stochastic volatility, `TP`). -/
theorem C81_sv_tp (ys : Traj (n + 1) d) {D : SvDyn d} (hP : D.P0.PosDef) (hQ : D.Q.PosDef) {delta : ℝ} (hd : 0 < delta) (key : Key)
    (N : ℕ) :
    StateNearReversible (2 * forceErr) (trajVol (n + 1) d) (svTarget D.m0 D.P0 D.F D.Q D.b ys)
      (tp_init (fun xs => sv_log_likelihood xs ys) (jaxGrad2 fun xs => sv_log_likelihood xs ys)) (fun s => do
        let r ← sv_tp_kernel ys D N key s delta
        pure r.1) := by
  have h : svTarget D.m0 D.P0 D.F D.Q D.b ys = mtTarget (svDyn D n) (fun xs => sv_log_likelihood xs ys) :=
    funext fun x => (C55_sv_tp D ys x).symm
  rw [h]
  exact C81_tp hd hP (fun _ => hQ) (measurable_sv_log_likelihood ys) (measurable_jaxGrad2 _) key N

/-- Instances of the experiments. -/
example (ys : Traj 10 3) (key : Key) (auxiliary stop : Bool) :=
  C81_lgssm ys (sigma := 0.1) (by norm_num) (delta := 0.01) (by norm_num) auxiliary stop key 25

example (ys : Traj 10 5) (key : Key) := C81_sv_tp ys (sv_P0_posDef 0 (phi := 0.9) (tau := 2) (rho := 0.25) (by norm_num)
  (by norm_num) (by norm_num) (by norm_num) 5) (sv_Q_posDef 0 0.9 (by norm_num) (by norm_num) (by norm_num) 5)
  (delta := 0.1) (by norm_num) key 25

end Verif.Props
