import Verif.Lemmas.CsmcParam
import Verif.Lemmas.Proposal

/-!
# Unconditional particle systems

The forward pass without a reference trajectory, weighted by the product of the mean weights, gives the target back.
-/

open scoped ENNReal
open MeasureTheory ProbabilityTheory Finset

namespace Verif
open Verif.Spec Verif.Model

variable {X : Type} [MeasurableSpace X] {N n : ℕ}

/-- A particle system whose particles and ancestors are drawn without a reference: unbiased resampling, and particles that
represent the target when weighted by `exp (c + LW)`. -/
structure Sys.Uncond {n : ℕ} (S : Sys X N n) (c0 : ℝ) (c : Fin n → ℝ) : Prop where
  G0_ker : IsKer (fun _ : Unit => S.G0)
  G_ker : ∀ t, IsKer (S.G t)
  meas : SysMeas (fun _ : Unit => S)
  unb : ∀ t w i j, IsProb w → ∀ g : Fin (N + 1) → ℝ≥0∞,
    S.R t w i j (fun a => ∑ k, g (a k)) = (N + 1) * ∑ i, ENNReal.ofReal (w i) * g i
  id0 : ∀ b x k (g : X → ℝ≥0∞), Measurable g →
    ENNReal.ofReal (Real.exp c0) * S.Q0 b x (fun Xs => ENNReal.ofReal (Real.exp (S.LW0 Xs k)) * g (Xs k)) = S.G0 g
  idt : ∀ t Y b x k (g : X → ℝ≥0∞), Measurable g →
    ENNReal.ofReal (Real.exp (c t)) * S.Q t Y b x (fun Xs => ENNReal.ofReal (Real.exp (S.LW t Y Xs k)) * g (Xs k)) = S.G t (Y k) g

theorem Sys.Uncond.init {S : Sys X N (n + 1)} {c0 : ℝ} {c : Fin (n + 1) → ℝ} (h : S.Uncond c0 c) : S.init.Uncond c0 (initA c) where
  G0_ker := h.G0_ker
  G_ker t := h.G_ker t.castSucc
  meas := h.meas.init
  unb t := h.unb t.castSucc
  id0 := h.id0
  idt t := h.idt t.castSucc

/-- The mean weight of the last time step. -/
noncomputable def meanW (c : ℝ) (lw : Fin (N + 1) → ℝ) : ℝ≥0∞ := ENNReal.ofReal (Real.exp c) * sumExp lw / (N + 1)

/-- The product of the mean weights of all time steps. -/
noncomputable def Sys.zhat {X : Type} {N : ℕ} : {n : ℕ} → Sys X N n → ℝ → (Fin n → ℝ) → Hist X N n → ℝ≥0∞
  | 0, S, c0, _, h => meanW c0 (S.lwLast h)
  | _ + 1, S, c0, c, h => S.init.zhat c0 (initA c) h.init * meanW (lastA c) (S.lwLast h)

omit [MeasurableSpace X] in
theorem Sys.zhat_eq {n : ℕ} (S : Sys X N n) (c0 : ℝ) (c : Fin n → ℝ) (h : Hist X N n) :
    S.zhat c0 c h = meanW c0 (S.lws h 0) * ∏ t, meanW (c t) (S.lws h t.succ) := by
  induction n with
  | zero => simp [Sys.zhat, Sys.lws]
  | succ n ih =>
    show S.init.zhat c0 (initA c) h.init * meanW (lastA c) (S.lwLast h) = _
    rw [ih, Fin.prod_univ_castSucc, ← mul_assoc, ← S.lws_last h]
    congr 1
    rw [← S.lws_init h]
    congr 1

theorem SysMeas.measurable_zhat {S : Sys X N n} (hS : SysMeas (fun _ : Unit => S)) (c0 : ℝ) (c : Fin n → ℝ) :
    Measurable (S.zhat c0 c) := by
  have hl : ∀ {n : ℕ} {S : Sys X N n}, SysMeas (fun _ : Unit => S) → Measurable fun h => S.lwLast h := fun hS =>
    hS.measurable_lwLast.comp (by fun_prop : Measurable fun h => ((), h))
  have hm : ∀ (c : ℝ), Measurable fun lw : Fin (N + 1) → ℝ => meanW c lw := fun c => by
    unfold meanW
    exact (Measurable.const_mul (measurable_sumExp measurable_id) _).div_const _
  induction n with
  | zero => exact (hm c0).comp (hl hS)
  | succ n ih =>
    exact ((ih hS.init (initA c)).comp (by fun_prop : Measurable fun h : Hist X N (n + 1) => h.init)).mul ((hm _).comp (hl hS))

theorem meanW_mul_wLast (c : ℝ) (lw g : Fin (N + 1) → ℝ) (F : Fin (N + 1) → ℝ≥0∞) :
    meanW c lw * ∑ k, ENNReal.ofReal (normalizeW lw k) * F k =
      (N + 1 : ℝ≥0∞)⁻¹ * ∑ k, ENNReal.ofReal (Real.exp c) * (ENNReal.ofReal (Real.exp (lw k)) * F k) := by
  rw [meanW, div_eq_mul_inv, mul_comm _ ((N + 1 : ℝ≥0∞)⁻¹), mul_assoc, mul_assoc]
  congr 1
  rw [← Finset.mul_sum]
  congr 1
  rw [Finset.mul_sum]
  exact Finset.sum_congr rfl fun k _ => by rw [← mul_assoc, sumExp_mul_normalize]

theorem inv_count_mul (a : ℝ≥0∞) : (N + 1 : ℝ≥0∞)⁻¹ * ((N + 1) * a) = a := by
  rw [← mul_assoc, ENNReal.inv_mul_cancel (by simp) (by finiteness), one_mul]

section free
variable {S : Sys X N n} {c0 : ℝ} {c : Fin n → ℝ}

theorem Sys.Uncond.path_ker {n : ℕ} {S : Sys X N n} {c0 : ℝ} {c : Fin n → ℝ} (hS : S.Uncond c0 c) : IsKer (fun _ : Unit => S.path) := by
  induction n with
  | zero => exact hS.G0_ker.bind (IsKer.pure (by fun_prop))
  | succ n ih =>
    refine (ih hS.init).bind (F := fun _ x => do
      let x' ← S.G (Fin.last n) (lastA x)
      pure (snocA x x')) ?_
    exact ((hS.G_ker (Fin.last n)).comp (g := fun p : Unit × (Fin (n + 1) → X) => lastA p.2) (by fun_prop)).bind
      (F := fun p x' => pure (snocA p.2 x')) (IsKer.pure (by fun_prop))

/-- The first time step. -/
theorem Sys.Uncond.first {S : Sys X N 0} {c : Fin 0 → ℝ} (hS : S.Uncond c0 c) (b : Fin 1 → Fin (N + 1)) (x : Fin 1 → X)
    (f : (Fin 1 → X) → ℝ≥0∞) (hf : Measurable f) :
    S.fwd b x (fun h => S.zhat c0 c h * ∑ k, ENNReal.ofReal (S.wLast h k) * f (fun _ => h.2 0 k)) = S.path f := by
  show S.Q0 (b 0) (x 0) (fun x0 => meanW c0 (S.LW0 x0) * ∑ k, ENNReal.ofReal (normalizeW (S.LW0 x0) k) * f (fun _ => x0 k)) =
    S.G0 fun x => f fun _ => x
  have hq : IsKer fun _ : Unit => S.Q0 (b 0) (x 0) := hS.meas.Q0_ker.comp (g := fun _ : Unit => ((), b 0, x 0)) measurable_const
  have hlw : ∀ k, Measurable fun Xs : PA X N => ENNReal.ofReal (Real.exp (S.LW0 Xs k)) := fun k =>
    measurable_expR ((measurable_pi_apply k).comp (hS.meas.LW0_meas.comp (by fun_prop : Measurable fun Xs : PA X N => ((), Xs))))
  have hm : ∀ k, Measurable fun Xs : PA X N => ENNReal.ofReal (Real.exp (S.LW0 Xs k)) * f (fun _ => Xs k) := fun k =>
    (hlw k).mul (hf.comp (by fun_prop))
  simp only [meanW_mul_wLast c0 _ (fun _ => 0)]
  rw [hq.const_mul () _ (Finset.measurable_fun_sum _ fun k _ => (hm k).const_mul _), hq.sum () _ fun k _ => (hm k).const_mul _]
  simp only [hq.const_mul () _ (hm _)]
  rw [Finset.sum_congr rfl fun k _ => hS.id0 (b 0) (x 0) k (fun x => f fun _ => x) (by fun_prop)]
  rw [Finset.sum_const, Finset.card_univ, Fintype.card_fin, nsmul_eq_mul, Nat.cast_add, Nat.cast_one, inv_count_mul]

/-- One more time step: a function `g i` of the ancestor and of the new particle. -/
theorem Sys.Uncond.step {S : Sys X N (n + 1)} {c : Fin (n + 1) → ℝ} (hS : S.Uncond c0 c) (b : Fin (n + 2) → Fin (N + 1)) (x : Fin (n + 2) → X)
    (g : Hist X N n → Fin (N + 1) → X → ℝ≥0∞)
    (hg : ∀ h i, Measurable (g h i)) (F : Hist X N (n + 1) → Fin (N + 1) → ℝ≥0∞)
    (hF : ∀ h a Xs k, F (h.snoc a Xs) k = g h (a k) (Xs k)) :
    S.fwd b x (fun h => S.zhat c0 c h * ∑ k, ENNReal.ofReal (S.wLast h k) * F h k) =
      S.init.fwd (initA b) (initA x) (fun h => S.init.zhat c0 (initA c) h *
        ∑ i, ENNReal.ofReal (S.init.wLast h i) * S.G (Fin.last n) (lastA h.2 i) (g h i)) := by
  set L := Fin.last n
  show S.init.fwd (initA b) (initA x) (fun h => S.R L (S.init.wLast h) (b L.castSucc) (b (Fin.last (n + 1))) fun a =>
    S.Q L (take (lastA h.2) a) (b (Fin.last (n + 1))) (x (Fin.last (n + 1))) fun Xs =>
      S.init.zhat c0 (initA c) (h.snoc a Xs).init * meanW (lastA c) (S.lwLast (h.snoc a Xs)) *
        ∑ k, ENNReal.ofReal (S.wLast (h.snoc a Xs) k) * F (h.snoc a Xs) k) = _
  refine Ex.congr_fun' _ fun h => ?_
  simp only [Hist.init_snoc, Sys.wLast, Sys.lwLast_snoc, hF, mul_assoc, meanW_mul_wLast (lastA c) _ (fun _ => 0)]
  set y := lastA h.2
  have hr : IsKer fun _ : Unit => S.R L (S.init.wLast h) (b L.castSucc) (b (Fin.last (n + 1))) :=
    (hS.meas.R_ker L).comp (g := fun _ : Unit => ((), S.init.wLast h, b L.castSucc, b (Fin.last (n + 1)))) measurable_const
  have e1 : ∀ a, S.Q L (take y a) (b (Fin.last (n + 1))) (x (Fin.last (n + 1))) (fun Xs =>
      S.init.zhat c0 (initA c) h * ((N + 1 : ℝ≥0∞)⁻¹ * ∑ k, ENNReal.ofReal (Real.exp (lastA c)) *
        (ENNReal.ofReal (Real.exp (S.LW L (take y a) Xs k)) * g h (a k) (Xs k)))) =
      S.init.zhat c0 (initA c) h * ((N + 1 : ℝ≥0∞)⁻¹ * ∑ k, S.G L (y (a k)) (g h (a k))) := by
    intro a
    have hq : IsKer fun _ : Unit => S.Q L (take y a) (b (Fin.last (n + 1))) (x (Fin.last (n + 1))) :=
      (hS.meas.Q_ker L).comp (g := fun _ : Unit => ((), take y a, b (Fin.last (n + 1)), x (Fin.last (n + 1)))) measurable_const
    have hlw : ∀ k, Measurable fun Xs : PA X N => ENNReal.ofReal (Real.exp (S.LW L (take y a) Xs k)) := fun k =>
      measurable_expR ((measurable_pi_apply k).comp ((hS.meas.LW_meas L).comp
        (by fun_prop : Measurable fun Xs : PA X N => ((), take y a, Xs))))
    have hm : ∀ k, Measurable fun Xs : PA X N => ENNReal.ofReal (Real.exp (S.LW L (take y a) Xs k)) * g h (a k) (Xs k) := fun k =>
      (hlw k).mul ((hg h (a k)).comp (measurable_pi_apply k))
    have hs := Finset.measurable_fun_sum univ fun k _ => (hm k).const_mul (ENNReal.ofReal (Real.exp (lastA c)))
    rw [hq.const_mul () _ (hs.const_mul _), hq.const_mul () _ hs, hq.sum () _ fun k _ => (hm k).const_mul _]
    congr 2
    refine Finset.sum_congr rfl fun k _ => ?_
    rw [hq.const_mul () _ (hm k)]
    exact hS.idt L (take y a) _ _ k (g h (a k)) (hg h (a k))
  refine (Ex.congr_fun' _ e1).trans ?_
  show S.R L (S.init.wLast h) (b L.castSucc) (b (Fin.last (n + 1))) (fun a =>
    S.init.zhat c0 (initA c) h * ((N + 1 : ℝ≥0∞)⁻¹ * ∑ k, S.G L (y (a k)) (g h (a k)))) = _
  rw [hr.const_mul () _ (measurable_of_countable _), hr.const_mul () _ (measurable_of_countable _),
    hS.unb L (S.init.wLast h) _ _ (normalize_isProb _) (fun i => S.G L (y i) (g h i)), inv_count_mul]
  rfl

/-- **Proper weighting** of the genealogies. -/
theorem Sys.Uncond.scan {n : ℕ} {S : Sys X N n} {c : Fin n → ℝ} (hS : S.Uncond c0 c) (b : Fin (n + 1) → Fin (N + 1)) (x : Fin (n + 1) → X)
    (f : (Fin (n + 1) → X) → ℝ≥0∞) (hf : Measurable f) :
    S.fwd b x (fun h => S.zhat c0 c h * ∑ k, ENNReal.ofReal (S.wLast h k) * f (h.tracex k)) = S.path f := by
  induction n with
  | zero => exact hS.first b x f hf
  | succ n ih =>
    rw [hS.step b x (fun h i xl => f (snocA (h.tracex i) xl)) (fun h i => by fun_prop) _ (fun h a Xs k => by rw [Hist.tracex_snoc])]
    have h1 := ih hS.init (initA b) (initA x) (fun x' => S.G (Fin.last n) (lastA x') fun xl => f (snocA x' xl))
      (((hS.G_ker _).comp (g := fun x : Fin (n + 1) → X => lastA x) (by fun_prop)).measurable
        (f := fun x xl => f (snocA x xl)) (by unfold Function.uncurry; fun_prop))
    refine Eq.trans ?_ h1
    refine Ex.congr_fun' _ fun h => ?_
    congr 1
    refine Finset.sum_congr rfl fun i _ => ?_
    have : lastA (h.tracex i) = lastA h.2 i := h.tracex_last i
    rw [this]

theorem Sys.Uncond.bs_ker (hS : S.Uncond c0 c) {Γ : Fin n → X → X → ℝ} (hΓ : ∀ t, Measurable fun p : X × X => Γ t p.1 p.2) :
    IsKer (fun p : Hist X N n × Fin (N + 1) => S.bs Γ p.1 p.2) :=
  (hS.meas.bs_ker (Γ := fun _ => Γ) fun t => (hΓ t).comp measurable_snd).comp
    (g := fun p : Hist X N n × Fin (N + 1) => ((), p.1, p.2)) (by fun_prop)

/-- Backward sampling from a particle `xl` of the next time step, before its ancestor is known. -/
noncomputable def Sys.back {X : Type} {N n : ℕ} (S : Sys X N (n + 1)) (Γ : Fin (n + 1) → X → X → ℝ) (f : (Fin (n + 2) → X) → ℝ≥0∞)
    (h : Hist X N n) (xl : X) : ℝ≥0∞ :=
  ∑ i, ENNReal.ofReal (normalizeW (fun i => S.init.lwLast h i + Γ (Fin.last n) (lastA h.2 i) xl) i) *
    S.init.bs (initA Γ) h i (fun r => f (snocA r.1 xl))

omit [MeasurableSpace X] in
theorem Sys.bs_snoc (S : Sys X N (n + 1)) (Γ : Fin (n + 1) → X → X → ℝ) (f : (Fin (n + 2) → X) → ℝ≥0∞) (h : Hist X N n) (a : Anc N)
    (Xs : PA X N) (k : Fin (N + 1)) : S.bs Γ (h.snoc a Xs) k (fun r => f r.1) = S.back Γ f h (Xs k) := by
  show (∑ i, catP (normalizeW fun i => S.init.lwLast (h.snoc a Xs).init i +
    Γ (Fin.last n) (lastA (h.snoc a Xs).init.2 i) (lastA (h.snoc a Xs).2 k)) i *
    S.init.bs (initA Γ) (h.snoc a Xs).init i (fun r => f (snocA r.1 (lastA (h.snoc a Xs).2 k)))) = _
  rw [Hist.init_snoc]
  have : lastA (h.snoc a Xs).2 = Xs := lastA_snocA _ _
  rw [this]
  refine Finset.sum_congr rfl fun i _ => ?_
  rw [catP_normalize]

theorem Sys.Uncond.measurable_back {S : Sys X N (n + 1)} {c : Fin (n + 1) → ℝ} (hS : S.Uncond c0 c) {Γ : Fin (n + 1) → X → X → ℝ}
    (hΓ : ∀ t, Measurable fun p : X × X => Γ t p.1 p.2) {f : (Fin (n + 2) → X) → ℝ≥0∞} (hf : Measurable f) :
    Measurable fun p : Hist X N n × X => S.back Γ f p.1 p.2 := by
  refine Finset.measurable_fun_sum _ fun i _ => Measurable.mul (ENNReal.measurable_ofReal.comp ((measurable_pi_apply i).comp
    (measurable_normalizeW (measurable_pi_lambda _ fun l => Measurable.add ?_ ?_)))) ?_
  · exact (measurable_pi_apply l).comp (hS.init.meas.measurable_lwLast.comp (by fun_prop : Measurable fun p : Hist X N n × X => ((), p.1)))
  · exact (hΓ (Fin.last n)).comp (by fun_prop : Measurable fun p : Hist X N n × X => (lastA p.1.2 l, p.2))
  · exact ((hS.init.bs_ker (Γ := initA Γ) fun t => hΓ t.castSucc).comp (g := fun p : Hist X N n × X => (p.1, i)) (by fun_prop)).measurable
      (f := fun p r => f (snocA r.1 p.2))
      (hf.comp (by fun_prop : Measurable fun q : (Hist X N n × X) × ((Fin (n + 1) → X) × (Fin (n + 1) → Fin (N + 1))) => snocA q.2.1 q.1.2))

omit [MeasurableSpace X] in
theorem Sys.back_eq (S : Sys X N (n + 1)) (Γ : Fin (n + 1) → X → X → ℝ) (f : (Fin (n + 2) → X) → ℝ≥0∞) (h : Hist X N n) (xl : X) :
    S.back Γ f h xl = ∑ i, ENNReal.ofReal (normalizeW (fun i => S.init.lwLast h i + Γ (Fin.last n) (lastA h.2 i) xl) i) *
      S.init.bs (initA Γ) h i (fun r => f (snocA r.1 xl)) := rfl

attribute [irreducible] Sys.back

theorem Sys.Uncond.measurable_back' {S : Sys X N (n + 1)} {c : Fin (n + 1) → ℝ} (hS : S.Uncond c0 c) {Γ : Fin (n + 1) → X → X → ℝ}
    (hΓ : ∀ t, Measurable fun p : X × X => Γ t p.1 p.2) {f : (Fin (n + 2) → X) → ℝ≥0∞} (hf : Measurable f) (h : Hist X N n) :
    Measurable (S.back Γ f h) :=
  (hS.measurable_back hΓ hf).comp (by fun_prop : Measurable fun xl : X => (h, xl))

/-- The backward kernel inverts the weights. -/
theorem Sys.Uncond.back_sum {S : Sys X N (n + 1)} {c : Fin (n + 1) → ℝ} (hS : S.Uncond c0 c) {lam : Measure X} [SFinite lam]
    {Γ : Fin (n + 1) → X → X → ℝ} (hd : S.Density lam Γ) {f : (Fin (n + 2) → X) → ℝ≥0∞} (hf : Measurable f) (h : Hist X N n) :
    ∑ i, ENNReal.ofReal (S.init.wLast h i) * S.G (Fin.last n) (lastA h.2 i) (S.back Γ f h) =
      ∑ i, ENNReal.ofReal (S.init.wLast h i) * S.init.bs (initA Γ) h i
        (fun r => S.G (Fin.last n) (lastA r.1) fun xl => f (snocA r.1 xl)) := by
  set S' := S.init
  set L := Fin.last n
  have hdi : S'.Density lam (initA Γ) := hd.init
  have hΓL := hd.meas L
  have hSi : S'.Uncond c0 (initA c) := hS.init
  let p : X → Fin (N + 1) → ℝ := fun xl => normalizeW (fun i => S'.lwLast h i + Γ L (lastA h.2 i) xl)
  let D : X → Fin (N + 1) → ℝ≥0∞ := fun xl i => S'.bs (initA Γ) h i (fun r => f (snocA r.1 xl))
  have hDm : ∀ i, Measurable fun xl => D xl i := by
    intro i
    refine ((hSi.bs_ker hdi.meas).comp (g := fun _ : X => (h, i)) measurable_const).measurable
      (f := fun xl r => f (snocA r.1 xl)) ?_
    exact hf.comp (by fun_prop : Measurable fun q : X × ((Fin (n + 1) → X) × (Fin (n + 1) → Fin (N + 1))) => snocA q.2.1 q.1)
  have hCm : Measurable (S.back Γ f h) := hS.measurable_back' hd.meas hf h
  have hC : ∀ xl, S.back Γ f h xl = ∑ i, ENNReal.ofReal (p xl i) * D xl i := fun xl => S.back_eq Γ f h xl
  generalize S.back Γ f h = C at hCm hC ⊢
  set w := S'.wLast h with hw
  set y := lastA h.2 with hy
  -- the backward kernel inverts the weights
  have hGm : ∀ i, Measurable fun xl => ENNReal.ofReal (Real.exp (Γ L (y i) xl)) := fun i =>
    ENNReal.measurable_ofReal.comp (Real.measurable_exp.comp
      (hΓL.comp (by fun_prop : Measurable fun xl : X => (y i, xl))))
  have e6 : ∀ (i : Fin (N + 1)) (g : X → ℝ≥0∞), Measurable g →
      ENNReal.ofReal (w i) * S.G L (y i) g =
      ∫⁻ xl, ENNReal.ofReal (w i) * (ENNReal.ofReal (Real.exp (Γ L (y i) xl)) * g xl) ∂lam := by
    intro i g hg
    rw [hd.eq L (y i) g hg]
    exact (lintegral_const_mul _ ((hGm i).mul hg)).symm
  have e5 : ∑ i, ENNReal.ofReal (w i) * S.G L (y i) C = ∑ i, ENNReal.ofReal (w i) * S.G L (y i) (fun xl => D xl i) := by
    simp only [e6 _ _ hCm, e6 _ _ (hDm _)]
    have hC2 : ∀ i, Measurable fun xl => ENNReal.ofReal (w i) *
        (ENNReal.ofReal (Real.exp (Γ L (y i) xl)) * C xl) := fun i => ((hGm i).mul hCm).const_mul _
    have hD2 : ∀ i, Measurable fun xl => ENNReal.ofReal (w i) *
        (ENNReal.ofReal (Real.exp (Γ L (y i) xl)) * D xl i) := fun i => ((hGm i).mul (hDm i)).const_mul _
    rw [← lintegral_finsetSum _ fun i _ => hC2 i, ← lintegral_finsetSum _ fun i _ => hD2 i]
    refine lintegral_congr fun xl => ?_
    have hZ : ∀ i, (∑ j, ENNReal.ofReal (w j) * ENNReal.ofReal (Real.exp (Γ L (y j) xl))) *
        ENNReal.ofReal (p xl i) = ENNReal.ofReal (w i) * ENNReal.ofReal (Real.exp (Γ L (y i) xl)) := by
      intro i
      have h1 := sumExp_mul_normalize (fun i => S'.lwLast h i + Γ L (y i) xl) i
      have h2 : ∀ j, ENNReal.ofReal (Real.exp (S'.lwLast h j + Γ L (y j) xl)) =
          sumExp (S'.lwLast h) * (ENNReal.ofReal (w j) * ENNReal.ofReal (Real.exp (Γ L (y j) xl))) := by
        intro j
        rw [← mul_assoc, hw, Sys.wLast, sumExp_mul_normalize, Real.exp_add,
          ENNReal.ofReal_mul (Real.exp_pos _).le]
      rw [h2 i, sumExp] at h1
      simp only [h2] at h1
      rw [← Finset.mul_sum, mul_assoc] at h1
      have hpos : sumExp (S'.lwLast h) ≠ 0 := by
        rw [sumExp_eq]
        exact (ENNReal.ofReal_pos.mpr (Finset.sum_pos (fun i _ => Real.exp_pos _)
          Finset.univ_nonempty)).ne'
      have htop : sumExp (S'.lwLast h) ≠ ⊤ := by rw [sumExp_eq]; exact ENNReal.ofReal_ne_top
      exact (ENNReal.mul_right_inj hpos htop).mp h1
    calc ∑ i, ENNReal.ofReal (w i) * (ENNReal.ofReal (Real.exp (Γ L (y i) xl)) * C xl)
        = (∑ j, ENNReal.ofReal (w j) * ENNReal.ofReal (Real.exp (Γ L (y j) xl))) * C xl := by
          rw [Finset.sum_mul]; exact Finset.sum_congr rfl fun i _ => (mul_assoc _ _ _).symm
      _ = ∑ i, ENNReal.ofReal (w i) * (ENNReal.ofReal (Real.exp (Γ L (y i) xl)) * D xl i) := by
          rw [hC, Finset.mul_sum]
          refine Finset.sum_congr rfl fun i _ => ?_
          rw [← mul_assoc, hZ, mul_assoc]
  refine e5.trans (Finset.sum_congr rfl fun i _ => ?_)
  congr 1
  rw [Sys.bs_last S' (initA Γ) h i (fun z r => S.G L z (fun xl => f (snocA r.1 xl)))]
  refine (hS.G_ker L).swap (y i) (hSi.bs_ker hdi.meas) (h, i) (f := fun xl r => f (snocA r.1 xl)) ?_
  exact hf.comp (by fun_prop : Measurable fun q : X × ((Fin (n + 1) → X) × (Fin (n + 1) → Fin (N + 1))) => snocA q.2.1 q.1)

/-- **Proper weighting** of the trajectories of backward sampling. -/
theorem Sys.Uncond.sampling {n : ℕ} {S : Sys X N n} {c : Fin n → ℝ} (hS : S.Uncond c0 c) {lam : Measure X} [SFinite lam]
    {Γ : Fin n → X → X → ℝ} (hd : S.Density lam Γ) (b : Fin (n + 1) → Fin (N + 1)) (x : Fin (n + 1) → X)
    (f : (Fin (n + 1) → X) → ℝ≥0∞) (hf : Measurable f) :
    S.fwd b x (fun h => S.zhat c0 c h * ∑ k, ENNReal.ofReal (S.wLast h k) * S.bs Γ h k (fun r => f r.1)) = S.path f := by
  induction n with
  | zero => exact hS.first b x f hf
  | succ n ih =>
    refine (hS.step b x (fun h _ => S.back Γ f h)
      (fun h _ => hS.measurable_back' hd.meas hf h)
      (fun h k => S.bs Γ h k fun r => f r.1) (fun h a Xs k => S.bs_snoc Γ f h a Xs k)).trans ?_
    have hGf : Measurable fun x' : Fin (n + 1) → X => S.G (Fin.last n) (lastA x') fun xl => f (snocA x' xl) :=
      ((hS.G_ker _).comp (g := fun x : Fin (n + 1) → X => lastA x) (by fun_prop)).measurable
        (f := fun x xl => f (snocA x xl)) (by unfold Function.uncurry; fun_prop)
    refine Eq.trans ?_ (ih hS.init hd.init (initA b) (initA x) _ hGf)
    exact Ex.congr_fun' _ fun h => congrArg _ (hS.back_sum hd hf h)

end free

end Verif
