import Verif.Spec.Reversible
import Verif.Lemmas.SecondOrderInv
import Verif.Lemmas.AlsCsmc
import Verif.Lemmas.MarkovKernels
import Verif.Lemmas.GaussSys
import Verif.Lemmas.ChainInv

/-!
# Two successive states of a stationary conditional SMC chain

Given all particles of one step, the current state is the genealogy of a last index drawn from the last weights. So
the law of two successive states is that of the two genealogies (or the genealogy and the backward sample) of the two
indices before and after the last move, started from the weights.
-/

open scoped ENNReal
open MeasureTheory ProbabilityTheory Finset

namespace Verif
open Verif.Spec Verif.Model

variable {X : Type} [MeasurableSpace X] {N n : ℕ}

/-- The representation of two successive states: `w ω` are the last weights, `p ω k` is the genealogy of the last
particle `k`, `out ω k` is the law of the new state if the last index moves to `k`. -/
def Sliced (lam : Measure X) (logpi : (Fin (n + 1) → X) → ℝ)
    (K : AncestorMove Ex N → (Fin (n + 1) → X) → (Fin (n + 1) → Fin (N + 1)) → Ex (PathState X N n))
    (backward : Bool) : Prop :=
  ∃ (Ω : Type) (_ : MeasurableSpace Ω) (Φ : Ex Ω) (w : Ω → Fin (N + 1) → ℝ) (p : Ω → Fin (N + 1) → PathState X N n)
    (out : Ω → Fin (N + 1) → Ex (PathState X N n)) (kk : Key),
    IsKer (fun _ : Unit => Φ) ∧ Measurable w ∧ (Measurable fun q : Ω × Fin (N + 1) => p q.1 q.2) ∧
    IsKer (fun q : Ω × Fin (N + 1) => out q.1 q.2) ∧ (∀ ω, IsProb (w ω)) ∧ (∀ ω i, 0 < w ω i) ∧
    (backward = false → ∀ ω k, out ω k = pure (p ω k)) ∧
    (∀ ω k (f : X → ℝ≥0∞), Measurable f → out ω k (fun z => f (lastA z.1)) = f (lastA (p ω k).1)) ∧
    (∀ f : PathState X N n → ℝ≥0∞, Measurable f → Φ (fun ω => ∑ k, ENNReal.ofReal (w ω k) * f (p ω k)) =
      ∑ b, ∫⁻ x, ENNReal.ofReal (Real.exp (logpi x)) * f (x, b) ∂(Measure.pi fun _ => lam)) ∧
    ∀ mv : AncestorMove Ex N, (∀ key, MoveKer (moveIndex mv key)) →
      ∀ H : PathState X N n → PathState X N n → ℝ≥0∞, Measurable (Function.uncurry H) →
        stationaryPair lam logpi (K mv) H = Φ (fun ω => ∑ k, ENNReal.ofReal (w ω k) *
          moveIndex mv kk (w ω) k (fun l => out ω l (H (p ω k))))

/-- Given the history, the reference may be replaced by the genealogy of an index drawn from the last weights. -/
theorem Sys.OK.refresh {S : Sys X N n} (hS : S.OK)
    (F : Hist X N n → (Fin (n + 1) → Fin (N + 1)) → (Fin (n + 1) → X) → ℝ≥0∞)
    (hF : Measurable fun p : Hist X N n × (Fin (n + 1) → Fin (N + 1)) × (Fin (n + 1) → X) => F p.1 p.2.1 p.2.2) :
    ∑ b, S.path (fun x => S.fwd b x (fun h => F h b x)) =
      ∑ b, S.path (fun x => S.fwd b x (fun h => ∑ k, ENNReal.ofReal (S.wLast h k) * F h (h.trace k) (h.tracex k))) := by
  have hm : Measurable fun h : Hist X N n => ∑ k, ENNReal.ofReal (S.wLast h k) * F h (h.trace k) (h.tracex k) :=
    Finset.measurable_fun_sum _ fun k _ => Measurable.mul
      (ENNReal.measurable_ofReal.comp ((measurable_pi_apply k).comp hS.measurable_wLast))
      (hF.comp (by fun_prop : Measurable fun h : Hist X N n => (h, h.trace k, h.tracex k)))
  rw [hS.forward_identity F hF, hS.forward_identity
    (fun h _ _ => ∑ k, ENNReal.ofReal (S.wLast h k) * F h (h.trace k) (h.tracex k)) (hm.comp measurable_fst)]
  congr 1
  funext h
  have hw : IsProb (S.wLast h) := normalize_isProb (S.lwLast h)
  rw [← Finset.sum_mul, ← ENNReal.ofReal_sum_of_nonneg fun i _ => hw.nonneg i]
  rw [hw.sum_one, ENNReal.ofReal_one, one_mul]

section mixture
variable {Y Θ : Type} [MeasurableSpace Y] [MeasurableSpace Θ]

/-- The law of `θ` and of the history when the reference is drawn from the target. -/
noncomputable def mixLaw (μ : Measure Θ) (lam : Measure X) (logpi : (Fin (n + 1) → X) → ℝ)
    (q : (Fin (n + 1) → X) → Θ → ℝ) (S : Θ → Sys Y N n) (lift : (Fin (n + 1) → X) → (Fin (n + 1) → Y)) :
    Ex (Θ × Hist Y N n) := fun g => ∑ b, ∫⁻ θ, ∫⁻ x,
  ENNReal.ofReal (Real.exp (logpi x + q x θ)) * (S θ).fwd b (lift x) (fun h => g (θ, h)) ∂(Measure.pi fun _ => lam) ∂μ

theorem mixLaw_ker {μ : Measure Θ} [SFinite μ] {lam : Measure X} [SigmaFinite lam] {logpi : (Fin (n + 1) → X) → ℝ}
    (hlp : Measurable logpi) {q : (Fin (n + 1) → X) → Θ → ℝ}
    (hq : Measurable fun p : (Fin (n + 1) → X) × Θ => q p.1 p.2)
    {S : Θ → Sys Y N n} (hS : SysMeas S) {lift : (Fin (n + 1) → X) → (Fin (n + 1) → Y)} (hlift : Measurable lift) :
    IsKer (fun _ : Unit => mixLaw μ lam logpi q S lift) := by
  have hlq : Measurable fun p : (Fin (n + 1) → X) × Θ => logpi p.1 + q p.1 p.2 := by fun_prop
  have hfwd := hS.fwd_ker
  have h1 : IsKer (fun _ : Unit => (fun f => ∫⁻ p, f p ∂(((Measure.count : Measure (Fin (n + 1) → Fin (N + 1))).prod
      (μ.prod (Measure.pi fun _ => lam))).withDensity fun p => ENNReal.ofReal (Real.exp (logpi p.2.2 + q p.2.2 p.2.1))) :
      Ex ((Fin (n + 1) → Fin (N + 1)) × Θ × (Fin (n + 1) → X)))) :=
    IsKer.const _ fun _ _ => rfl
  have h2 := h1.bind (F := fun _ p => (S p.2.1).fwd p.1 (lift p.2.2) >>= fun h => pure (p.2.1, h)) (by
    refine IsKer.bind (P := fun p : Unit × (Fin (n + 1) → Fin (N + 1)) × Θ × (Fin (n + 1) → X) =>
      (S p.2.2.1).fwd p.2.1 (lift p.2.2.2)) (F := fun p h => pure (p.2.2.1, h))
      (hfwd.comp (g := fun p : Unit × (Fin (n + 1) → Fin (N + 1)) × Θ × (Fin (n + 1) → X) =>
        (p.2.2.1, p.2.1, lift p.2.2.2)) (by fun_prop)) (IsKer.pure (by fun_prop)))
  refine h2.congr fun _ g hg => ?_
  have hden : Measurable fun p : (Fin (n + 1) → Fin (N + 1)) × Θ × (Fin (n + 1) → X) =>
      ENNReal.ofReal (Real.exp (logpi p.2.2 + q p.2.2 p.2.1)) :=
    ENNReal.measurable_ofReal.comp (Real.measurable_exp.comp (hlq.comp (by fun_prop :
      Measurable fun p : (Fin (n + 1) → Fin (N + 1)) × Θ × (Fin (n + 1) → X) => (p.2.2, p.2.1))))
  have hint : Measurable fun p : (Fin (n + 1) → Fin (N + 1)) × Θ × (Fin (n + 1) → X) =>
      (S p.2.1).fwd p.1 (lift p.2.2) (fun h => g (p.2.1, h)) :=
    (hfwd.comp (g := fun p : (Fin (n + 1) → Fin (N + 1)) × Θ × (Fin (n + 1) → X) =>
        (p.2.1, p.1, lift p.2.2)) (by fun_prop)).measurable (f := fun p h => g (p.2.1, h)) (by
      unfold Function.uncurry; fun_prop)
  show ∫⁻ p : (Fin (n + 1) → Fin (N + 1)) × Θ × (Fin (n + 1) → X), (S p.2.1).fwd p.1 (lift p.2.2) (fun h =>
    g (p.2.1, h)) ∂_ = _
  rw [lintegral_withDensity_eq_lintegral_mul _ hden hint,
    lintegral_prod _ (hden.mul hint).aemeasurable, lintegral_count]
  rw [tsum_fintype]
  refine Finset.sum_congr rfl fun b _ => ?_
  have := lintegral_prod (μ := μ) (ν := Measure.pi fun _ : Fin (n + 1) => lam) _ ((hden.mul hint).comp (by fun_prop :
    Measurable fun p : Θ × (Fin (n + 1) → X) => (b, p))).aemeasurable
  exact this

theorem fwdMix_meas {S : Θ → Sys Y N n} (hS : SysMeas S) {lift : (Fin (n + 1) → X) → (Fin (n + 1) → Y)}
    (hlift : Measurable lift) (b : Fin (n + 1) → Fin (N + 1)) {g : (Fin (n + 1) → X) × Θ → Hist Y N n → ℝ≥0∞}
    (hg : Measurable fun p : ((Fin (n + 1) → X) × Θ) × Hist Y N n => g p.1 p.2) :
    Measurable fun p : (Fin (n + 1) → X) × Θ => (S p.2).fwd b (lift p.1) (g p) :=
  (hS.fwd_ker.comp (g := fun p : (Fin (n + 1) → X) × Θ => (p.2, b, lift p.1)) (by fun_prop)).measurable hg

/-- The reference replaced by the genealogy of an index drawn from the last weights, for a mixture of systems. -/
theorem mixLaw_refresh {μ : Measure Θ} [SFinite μ] {lam : Measure X} [SigmaFinite lam] {logpi : (Fin (n + 1) → X) → ℝ}
    (hlp : Measurable logpi) {q : (Fin (n + 1) → X) → Θ → ℝ}
    (hq : Measurable fun p : (Fin (n + 1) → X) × Θ => q p.1 p.2)
    {S : Θ → Sys Y N n} (hS : SysMeas S) {lift : (Fin (n + 1) → X) → (Fin (n + 1) → Y)} (hlift : Measurable lift)
    (href : ∀ θ (F : Hist Y N n → (Fin (n + 1) → Fin (N + 1)) → (Fin (n + 1) → Y) → ℝ≥0∞),
      (Measurable fun p : Hist Y N n × (Fin (n + 1) → Fin (N + 1)) × (Fin (n + 1) → Y) => F p.1 p.2.1 p.2.2) →
      ∑ b, ∫⁻ x, ENNReal.ofReal (Real.exp (logpi x + q x θ)) * (S θ).fwd b (lift x) (fun h => F h b (lift x))
        ∂(Measure.pi fun _ => lam) =
      ∑ b, ∫⁻ x, ENNReal.ofReal (Real.exp (logpi x + q x θ)) * (S θ).fwd b (lift x) (fun h =>
        ∑ k, ENNReal.ofReal ((S θ).wLast h k) * F h (h.trace k) (h.tracex k)) ∂(Measure.pi fun _ => lam))
    {F : Θ → Hist Y N n → (Fin (n + 1) → Fin (N + 1)) → (Fin (n + 1) → Y) → ℝ≥0∞}
    (hF : Measurable fun p : Θ × Hist Y N n × (Fin (n + 1) → Fin (N + 1)) × (Fin (n + 1) → Y) =>
      F p.1 p.2.1 p.2.2.1 p.2.2.2) :
    ∑ b, ∫⁻ x, ENNReal.ofReal (Real.exp (logpi x)) * ∫⁻ θ, ENNReal.ofReal (Real.exp (q x θ)) *
      (S θ).fwd b (lift x) (fun h => F θ h b (lift x)) ∂μ ∂(Measure.pi fun _ => lam) =
    mixLaw μ lam logpi q S lift (fun p => ∑ k, ENNReal.ofReal ((S p.1).wLast p.2 k) *
      F p.1 p.2 (p.2.trace k) (p.2.tracex k)) := by
  have hlq : Measurable fun p : (Fin (n + 1) → X) × Θ => logpi p.1 + q p.1 p.2 := by fun_prop
  have hFθ : ∀ θ, Measurable fun p : Hist Y N n × (Fin (n + 1) → Fin (N + 1)) × (Fin (n + 1) → Y) =>
      F θ p.1 p.2.1 p.2.2 := fun θ => hF.comp (by fun_prop : Measurable fun p : Hist Y N n × (Fin (n + 1) →
        Fin (N + 1)) × (Fin (n + 1) → Y) => (θ, p))
  have hA : ∀ b, Measurable fun p : (Fin (n + 1) → X) × Θ => (S p.2).fwd b (lift p.1) (fun h => F p.2 h b (lift p.1)) :=
    fun b => fwdMix_meas hS hlift b (g := fun p h => F p.2 h b (lift p.1)) <| hF.comp (by fun_prop : Measurable
      fun p : ((Fin (n + 1) → X) × Θ) × Hist Y N n => (p.1.2, p.2, b, lift p.1.1))
  have hsm : Measurable fun p : Θ × Hist Y N n => ∑ k, ENNReal.ofReal ((S p.1).wLast p.2 k) *
      F p.1 p.2 (p.2.trace k) (p.2.tracex k) := Finset.measurable_fun_sum _ fun k _ => Measurable.mul
    (ENNReal.measurable_ofReal.comp ((measurable_pi_apply k).comp hS.measurable_wLast))
    (hF.comp (by fun_prop : Measurable fun p : Θ × Hist Y N n => (p.1, p.2, p.2.trace k, p.2.tracex k)))
  obtain ⟨W, hW⟩ : ∃ W : Θ × Hist Y N n → ℝ≥0∞, W = fun p => ∑ k, ENNReal.ofReal ((S p.1).wLast p.2 k) *
    F p.1 p.2 (p.2.trace k) (p.2.tracex k) := ⟨_, rfl⟩
  rw [← hW] at hsm ⊢
  have hB : ∀ b, Measurable fun p : (Fin (n + 1) → X) × Θ => (S p.2).fwd b (lift p.1) (fun h => W (p.2, h)) :=
    fun b => fwdMix_meas hS hlift b (g := fun p h => W (p.2, h)) <| hsm.comp (by fun_prop : Measurable
      fun p : ((Fin (n + 1) → X) × Θ) × Hist Y N n => (p.1.2, p.2))
  have h1 : ∀ b, ∫⁻ x, ENNReal.ofReal (Real.exp (logpi x)) * ∫⁻ θ, ENNReal.ofReal (Real.exp (q x θ)) *
      (S θ).fwd b (lift x) (fun h => F θ h b (lift x)) ∂μ ∂(Measure.pi fun _ => lam) =
      ∫⁻ θ, ∫⁻ x, ENNReal.ofReal (Real.exp (logpi x + q x θ)) * (S θ).fwd b (lift x) (fun h => F θ h b (lift x))
        ∂(Measure.pi fun _ => lam) ∂μ := by
    intro b
    have e : ∀ x, ENNReal.ofReal (Real.exp (logpi x)) * ∫⁻ θ, ENNReal.ofReal (Real.exp (q x θ)) *
        (S θ).fwd b (lift x) (fun h => F θ h b (lift x)) ∂μ =
        ∫⁻ θ, ENNReal.ofReal (Real.exp (logpi x + q x θ)) * (S θ).fwd b (lift x) (fun h => F θ h b (lift x)) ∂μ := by
      intro x
      have hmx : Measurable fun θ => ENNReal.ofReal (Real.exp (q x θ)) *
          (S θ).fwd b (lift x) (fun h => F θ h b (lift x)) :=
        measurable_expR_mul (hq.comp (by fun_prop : Measurable fun θ : Θ => (x, θ)))
          ((hA b).comp (by fun_prop : Measurable fun θ : Θ => (x, θ)))
      rw [← lintegral_const_mul _ hmx]
      refine lintegral_congr fun θ => ?_
      rw [Real.exp_add, ENNReal.ofReal_mul (Real.exp_pos _).le, mul_assoc]
    simp only [e]
    exact lintegral_lintegral_swap (measurable_expR_mul hlq (hA b)).aemeasurable
  have hm1 : ∀ b ∈ (Finset.univ : Finset (Fin (n + 1) → Fin (N + 1))), Measurable fun θ =>
      ∫⁻ x, ENNReal.ofReal (Real.exp (logpi x + q x θ)) * (S θ).fwd b (lift x) (fun h => F θ h b (lift x))
        ∂(Measure.pi fun _ => lam) := fun b _ => (measurable_expR_mul hlq (hA b)).lintegral_prod_left'
  have hm2 : ∀ b ∈ (Finset.univ : Finset (Fin (n + 1) → Fin (N + 1))), Measurable fun θ =>
      ∫⁻ x, ENNReal.ofReal (Real.exp (logpi x + q x θ)) * (S θ).fwd b (lift x) (fun h => W (θ, h))
        ∂(Measure.pi fun _ => lam) := fun b _ => (measurable_expR_mul hlq (hB b)).lintegral_prod_left'
  simp only [h1]
  rw [mixLaw, ← lintegral_finsetSum _ hm1, ← lintegral_finsetSum _ hm2]
  refine lintegral_congr fun θ => ?_
  rw [href θ (F θ) (hFθ θ), hW]

/-- Kernels that draw `θ` given the current trajectory and then run a conditional particle system. -/
theorem sliced_mixture {μ : Measure Θ} [SFinite μ] {lam : Measure X} [SigmaFinite lam] {logpi : (Fin (n + 1) → X) → ℝ}
    (hlp : Measurable logpi) {q : (Fin (n + 1) → X) → Θ → ℝ}
    (hq : Measurable fun p : (Fin (n + 1) → X) × Θ => q p.1 p.2)
    (hq1 : ∀ x, ∫⁻ θ, ENNReal.ofReal (Real.exp (q x θ)) ∂μ = 1)
    {S : Θ → Sys Y N n} (hS : SysMeas S) (hmass : ∀ θ b y, (S θ).fwd b y (fun _ => 1) = 1)
    {lift : (Fin (n + 1) → X) → (Fin (n + 1) → Y)} (hlift : Measurable lift)
    {down : (Fin (n + 1) → Y) → (Fin (n + 1) → X)} (hdown : Measurable down) (hdl : ∀ x, down (lift x) = x)
    (href : ∀ θ (F : Hist Y N n → (Fin (n + 1) → Fin (N + 1)) → (Fin (n + 1) → Y) → ℝ≥0∞),
      (Measurable fun p : Hist Y N n × (Fin (n + 1) → Fin (N + 1)) × (Fin (n + 1) → Y) => F p.1 p.2.1 p.2.2) →
      ∑ b, ∫⁻ x, ENNReal.ofReal (Real.exp (logpi x + q x θ)) * (S θ).fwd b (lift x) (fun h => F h b (lift x))
        ∂(Measure.pi fun _ => lam) =
      ∑ b, ∫⁻ x, ENNReal.ofReal (Real.exp (logpi x + q x θ)) * (S θ).fwd b (lift x) (fun h =>
        ∑ k, ENNReal.ofReal ((S θ).wLast h k) * F h (h.trace k) (h.tracex k)) ∂(Measure.pi fun _ => lam))
    {out : Θ → Hist Y N n → Fin (N + 1) → Ex (PathState X N n)}
    (hout : IsKer (fun p : (Θ × Hist Y N n) × Fin (N + 1) => out p.1.1 p.1.2 p.2)) {backward : Bool}
    (hfalse : backward = false → ∀ θ h k, out θ h k = pure (down (h.tracex k), h.trace k))
    (hlast : ∀ θ h k (f : X → ℝ≥0∞), Measurable f →
      out θ h k (fun z => f (lastA z.1)) = f (lastA (down (h.tracex k)))) {kk : Key}
    {K : AncestorMove Ex N → (Fin (n + 1) → X) → (Fin (n + 1) → Fin (N + 1)) → Ex (PathState X N n)}
    (hK : ∀ mv, (∀ key, MoveKer (moveIndex mv key)) → ∀ x b f, Measurable f →
      K mv x b f = ∫⁻ θ, ENNReal.ofReal (Real.exp (q x θ)) * (S θ).fwd b (lift x) (fun h =>
        moveIndex mv kk ((S θ).wLast h) (lastA b) (fun l => out θ h l f)) ∂μ) :
    Sliced lam logpi K backward := by
  refine ⟨Θ × Hist Y N n, inferInstance, mixLaw μ lam logpi q S lift, fun ω => (S ω.1).wLast ω.2,
    fun ω k => (down (ω.2.tracex k), ω.2.trace k), fun ω k => out ω.1 ω.2 k, kk,
    mixLaw_ker hlp hq hS hlift, hS.measurable_wLast, ?_, hout,
    fun ω => normalize_isProb _, fun ω => normalize_pos _, fun hb ω k => hfalse hb _ _ _,
    fun ω k f hf => hlast _ _ _ f hf, fun f hf => ?_, ?_⟩
  · exact Measurable.prodMk (hdown.comp (by fun_prop : Measurable fun q : (Θ × Hist Y N n) × Fin (N + 1) =>
      q.1.2.tracex q.2)) (by fun_prop)
  · refine (mixLaw_refresh hlp hq hS hlift href (F := fun _ _ b y => f (down y, b)) (hf.comp (by fun_prop :
      Measurable fun p : Θ × Hist Y N n × (Fin (n + 1) → Fin (N + 1)) × (Fin (n + 1) → Y) =>
        (down p.2.2.2, p.2.2.1)))).symm.trans ?_
    refine Finset.sum_congr rfl fun b _ => lintegral_congr fun x => ?_
    have e : ∀ θ, (S θ).fwd b (lift x) (fun _ => f (down (lift x), b)) = f (x, b) := fun θ => by
      rw [hS.fwd_ker.const_fun (θ, b, lift x), hdl]
      show f (x, b) * (S θ).fwd b (lift x) (fun _ => 1) = _
      rw [hmass, mul_one]
    simp only [e]
    rw [lintegral_mul_const _ (by
      have := hq.comp (by fun_prop : Measurable fun θ : Θ => (x, θ))
      exact ENNReal.measurable_ofReal.comp (Real.measurable_exp.comp this)), hq1, one_mul]
  intro mv hm H hH
  have hFall : Measurable fun p : Θ × Hist Y N n × (Fin (n + 1) → Fin (N + 1)) × (Fin (n + 1) → Y) =>
      moveIndex mv kk ((S p.1).wLast p.2.1) (lastA p.2.2.1)
        (fun l => out p.1 p.2.1 l (H (down p.2.2.2, p.2.2.1))) := by
    have hw : Measurable fun p : Θ × Hist Y N n × (Fin (n + 1) → Fin (N + 1)) × (Fin (n + 1) → Y) =>
        (S p.1).wLast p.2.1 := hS.measurable_wLast.comp (by fun_prop : Measurable fun p : Θ × Hist Y N n ×
          (Fin (n + 1) → Fin (N + 1)) × (Fin (n + 1) → Y) => (p.1, p.2.1))
    refine ((hm kk).comp (g := fun p : Θ × Hist Y N n × (Fin (n + 1) → Fin (N + 1)) × (Fin (n + 1) → Y) =>
      ((S p.1).wLast p.2.1, lastA p.2.2.1)) (hw.prodMk (by fun_prop))).measurable
      (f := fun p l => out p.1 p.2.1 l (H (down p.2.2.2, p.2.2.1))) ?_
    refine (hout.comp (g := fun p : (Θ × Hist Y N n × (Fin (n + 1) → Fin (N + 1)) × (Fin (n + 1) → Y)) × Fin (N + 1) =>
      ((p.1.1, p.1.2.1), p.2)) (by fun_prop)).measurable (f := fun p z => H (down p.1.2.2.2, p.1.2.2.1) z) ?_
    exact hH.comp (by fun_prop : Measurable fun p : ((Θ × Hist Y N n × (Fin (n + 1) → Fin (N + 1)) ×
      (Fin (n + 1) → Y)) × Fin (N + 1)) × PathState X N n => ((down p.1.1.2.2.2, p.1.1.2.2.1), p.2))
  obtain ⟨F, hFd⟩ : ∃ F : Θ → Hist Y N n → (Fin (n + 1) → Fin (N + 1)) → (Fin (n + 1) → Y) → ℝ≥0∞,
    F = fun θ h b y => moveIndex mv kk ((S θ).wLast h) (lastA b) (fun l => out θ h l (H (down y, b))) := ⟨_, rfl⟩
  have hF : Measurable fun p : Θ × Hist Y N n × (Fin (n + 1) → Fin (N + 1)) × (Fin (n + 1) → Y) =>
      F p.1 p.2.1 p.2.2.1 p.2.2.2 := by rw [hFd]; exact hFall
  have e3 : (fun ω : Θ × Hist Y N n => ∑ k, ENNReal.ofReal ((S ω.1).wLast ω.2 k) *
      moveIndex mv kk ((S ω.1).wLast ω.2) k (fun l => out ω.1 ω.2 l (H (down (ω.2.tracex k), ω.2.trace k)))) =
      fun p => ∑ k, ENNReal.ofReal ((S p.1).wLast p.2 k) * F p.1 p.2 (p.2.trace k) (p.2.tracex k) := by
    funext ω
    have : ∀ k, lastA (ω.2.trace k) = k := fun k => ω.2.trace_last k
    rw [hFd]
    simp only [this]
  rw [e3, ← mixLaw_refresh hlp hq hS hlift href hF]
  refine Finset.sum_congr rfl fun b _ => lintegral_congr fun x => ?_
  rw [hK mv hm x b (H (x, b)) (hH.comp (by fun_prop : Measurable fun z : PathState X N n => ((x, b), z)))]
  simp only [hFd, hdl]

end mixture

section kernels

/-- Two successive states of the kernel of one conditional particle system. -/
theorem Sys.OK.sliced {S : Sys X N n} (hS : S.OK) {lam : Measure X} [SigmaFinite lam]
    {Γ0 : X → ℝ} {Γ : Fin n → X → X → ℝ} (h0 : Measurable Γ0)
    (hG0 : ∀ f, Measurable f → S.G0 f = ∫⁻ x, ENNReal.ofReal (Real.exp (Γ0 x)) * f x ∂lam)
    (hd : S.Density lam Γ) (backward : Bool) {kk : Key}
    {K : AncestorMove Ex N → (Fin (n + 1) → X) → (Fin (n + 1) → Fin (N + 1)) → Ex (PathState X N n)}
    (hK : ∀ mv, (∀ key, MoveKer (moveIndex mv key)) → ∀ x b f, Measurable f →
      K mv x b f = S.kernel Γ (moveIndex mv kk) backward x b f) :
    Sliced lam (pathLogDensity Γ0 Γ) K backward := by
  have hSM := hS.sysMeas (Θ := Unit)
  refine sliced_mixture (μ := Measure.dirac ()) (Θ := Unit) (measurable_pathLogDensity h0 hd.meas)
    (q := fun _ _ => 0) measurable_const (fun x => by simp) hSM (fun _ => hS.fwd_mass) (lift := fun x => x) (down := fun x => x) measurable_id measurable_id
    (fun _ => rfl) (fun _ F hF => ?_)
    (out := fun _ h k => if backward = true then S.bs Γ h k else (pure (h.tracex k, h.trace k) : Ex _)) ?_
    (fun hb _ h k => by rw [hb]; rfl) (fun _ h k f hf => ?_) (kk := kk) (fun mv hm x b f hf => ?_)
  · have hm1 : ∀ b, Measurable fun x => S.fwd b x (fun h => F h b x) := fun b =>
      (hS.fwd_ker.comp (g := fun x : Fin (n + 1) → X => (b, x)) (by fun_prop)).measurable (f := fun x h => F h b x)
        (hF.comp (by fun_prop : Measurable fun p : (Fin (n + 1) → X) × Hist X N n => (p.2, b, p.1)))
    have hm2 : ∀ b, Measurable fun x => S.fwd b x (fun h => ∑ k, ENNReal.ofReal (S.wLast h k) *
        F h (h.trace k) (h.tracex k)) := fun b =>
      (hS.fwd_ker.measurable' (Finset.measurable_fun_sum _ fun k _ => Measurable.mul
      (ENNReal.measurable_ofReal.comp ((measurable_pi_apply k).comp hS.measurable_wLast))
      (hF.comp (by fun_prop : Measurable fun h : Hist X N n => (h, h.trace k, h.tracex k))))).comp
      (by fun_prop : Measurable fun x : Fin (n + 1) → X => (b, x))
    simp only [add_zero]
    simp only [← hS.path_eq h0 hG0 hd _ (hm1 _), ← hS.path_eq h0 hG0 hd _ (hm2 _)]
    exact hS.refresh F hF
  · cases backward with
    | true => simpa using (hS.bs_ker hd.meas).comp (by fun_prop : Measurable fun p : (Unit × Hist X N n) × Fin (N + 1) =>
        (p.1.2, p.2))
    | false => simpa using IsKer.pure (by fun_prop : Measurable fun p : (Unit × Hist X N n) × Fin (N + 1) =>
        (p.1.2.tracex p.2, p.1.2.trace p.2))
  · cases backward with
    | true =>
      refine (S.bs_last Γ h k (fun v _ => f v)).trans ?_
      refine ((hS.bs_ker hd.meas).const_fun (h, k) (f (lastA h.2 k))).trans ?_
      rw [S.bs_mass, mul_one, ← h.tracex_last]
      rfl
    | false => rfl
  · rw [hK mv hm x b f hf]
    simp only [lintegral_dirac, Real.exp_zero, ENNReal.ofReal_one, one_mul]
    rfl

variable {d : ℕ}

/-- Two successive states of a kernel that draws auxiliary variables around `m x` and then runs the particle system
given them. -/
theorem sliced_aux {S : (Fin (n + 1) → Vec d) → Sys (Vec d) N n} (hOK : ∀ u, (S u).OK) (hM : SysMeas S)
    {g0 : (Fin (n + 1) → Vec d) → Vec d → ℝ} {g : (Fin (n + 1) → Vec d) → Fin n → Vec d → Vec d → ℝ}
    (hg0 : ∀ u, Measurable (g0 u)) (hg : ∀ t, Measurable fun p : (Fin (n + 1) → Vec d) × Vec d × Vec d => g p.1 t p.2.1 p.2.2)
    (hG0 : ∀ u f, Measurable f → (S u).G0 f = ∫⁻ x, ENNReal.ofReal (Real.exp (g0 u x)) * f x)
    (hG : ∀ u t y f, Measurable f → (S u).G t y f = ∫⁻ x, ENNReal.ofReal (Real.exp (g u t y x)) * f x)
    {logpi : (Fin (n + 1) → Vec d) → ℝ} (hpi : Measurable logpi) {s : Fin (n + 1) → ℝ} (hs : ∀ t, 0 < s t)
    {m : (Fin (n + 1) → Vec d) → Fin (n + 1) → Vec d} (hmm : Measurable m)
    (hinc : ∀ u, ∃ c, ∀ x, logpi x + ∑ t, isoLogpdf (s t) (m x t) (u t) = c + pathLogDensity (g0 u) (g u) x)
    (backward : Bool) {kk : Key}
    {K : AncestorMove Ex N → (Fin (n + 1) → Vec d) → (Fin (n + 1) → Fin (N + 1)) → Ex (PathState (Vec d) N n)}
    (hK : ∀ mv, (∀ key, MoveKer (moveIndex mv key)) → ∀ x b f, Measurable f →
      K mv x b f = ∫⁻ e, (S (fun t j => m x t j + s t * e t j)).kernel (g (fun t j => m x t j + s t * e t j))
        (moveIndex mv kk) backward x b f ∂(Measure.pi fun _ : Fin (n + 1) => gaussM d)) :
    Sliced volume logpi K backward := by
  have hq : Measurable fun p : (Fin (n + 1) → Vec d) × (Fin (n + 1) → Vec d) =>
      ∑ t, isoLogpdf (s t) (m p.1 t) (p.2 t) :=
    Finset.measurable_fun_sum _ fun t _ => by fun_prop
  have hq1 : ∀ x, ∫⁻ u, ENNReal.ofReal (Real.exp (∑ t, isoLogpdf (s t) (m x t) (u t)))
      ∂(Measure.pi fun _ : Fin (n + 1) => (volume : Measure (Vec d))) = 1 := fun x => by
    have := iso_pi_law hs (m x) (fun _ => 1) measurable_const
    simpa using this.symm
  have hgu : ∀ u t, Measurable fun p : Vec d × Vec d => g u t p.1 p.2 := fun u t => by
    have := (hg t).comp (measurable_const.prodMk measurable_id : Measurable fun p : Vec d × Vec d => (u, p))
    exact this
  refine sliced_mixture (μ := Measure.pi fun _ : Fin (n + 1) => (volume : Measure (Vec d))) hpi
    (q := fun x u => ∑ t, isoLogpdf (s t) (m x t) (u t)) hq hq1 hM
    (fun u => (hOK u).fwd_mass) (lift := fun x => x) (down := fun x => x) measurable_id measurable_id (fun _ => rfl) (fun u F hF => ?_)
    (out := fun u h k => if backward = true then (S u).bs (g u) h k else (pure (h.tracex k, h.trace k) : Ex _)) ?_
    (fun hb _ h k => by rw [hb]; rfl) (fun u h k f hf => ?_) (kk := kk) (fun mv hm x b f hf => ?_)
  · have hS := hOK u
    have hm1 : ∀ b, Measurable fun x => (S u).fwd b x (fun h => F h b x) := fun b =>
      (hS.fwd_ker.comp (g := fun x : Fin (n + 1) → Vec d => (b, x)) (by fun_prop)).measurable (f := fun x h => F h b x)
        (hF.comp (by fun_prop : Measurable fun p : (Fin (n + 1) → Vec d) × Hist (Vec d) N n => (p.2, b, p.1)))
    have hm2 : ∀ b, Measurable fun x => (S u).fwd b x (fun h => ∑ k, ENNReal.ofReal ((S u).wLast h k) *
        F h (h.trace k) (h.tracex k)) := fun b =>
      (hS.fwd_ker.measurable' (Finset.measurable_fun_sum _ fun k _ => Measurable.mul
      (ENNReal.measurable_ofReal.comp ((measurable_pi_apply k).comp hS.measurable_wLast))
      (hF.comp (by fun_prop : Measurable fun h : Hist (Vec d) N n => (h, h.trace k, h.tracex k))))).comp
      (by fun_prop : Measurable fun x : Fin (n + 1) → Vec d => (b, x))
    obtain ⟨c, hc⟩ := hinc u
    have hpd := measurable_pathLogDensity (hg0 u) (hgu u)
    have e : ∀ G : (Fin (n + 1) → Vec d) → ℝ≥0∞, Measurable G → ∫⁻ x, ENNReal.ofReal (Real.exp (logpi x +
        ∑ t, isoLogpdf (s t) (m x t) (u t))) * G x ∂(Measure.pi fun _ => volume) =
        ENNReal.ofReal (Real.exp c) * (S u).path G := by
      intro G hGm
      rw [hS.path_eq (hg0 u) (hG0 u) ⟨hgu u, hG u⟩ G hGm, ← lintegral_const_mul _ (measurable_expR_mul hpd hGm)]
      refine lintegral_congr fun x => ?_
      rw [hc x, Real.exp_add, ENNReal.ofReal_mul (Real.exp_pos _).le, mul_assoc]
    simp only [e _ (hm1 _), e _ (hm2 _), ← Finset.mul_sum]
    rw [hS.refresh F hF]
  · cases backward with
    | true => simpa using (hM.bs_ker hg).comp (by fun_prop : Measurable fun p : ((Fin (n + 1) → Vec d) ×
        Hist (Vec d) N n) × Fin (N + 1) => (p.1.1, p.1.2, p.2))
    | false => simpa using IsKer.pure (by fun_prop : Measurable fun p : ((Fin (n + 1) → Vec d) ×
        Hist (Vec d) N n) × Fin (N + 1) => (p.1.2.tracex p.2, p.1.2.trace p.2))
  · cases backward with
    | true =>
      refine ((S u).bs_last (g u) h k (fun v _ => f v)).trans ?_
      refine (((hOK u).bs_ker (hgu u)).const_fun (h, k) (f (lastA h.2 k))).trans ?_
      rw [(S u).bs_mass, mul_one, ← h.tracex_last]
      rfl
    | false => rfl
  · rw [hK mv hm x b f hf]
    have hker := hM.kernel_ker (Γ := g) hg (hm kk) backward
    exact iso_pi_law hs (m x) (fun u => (S u).kernel (g u) (moveIndex mv kk) backward x b f)
      ((hker.measurable' hf).comp (by fun_prop : Measurable fun u : Fin (n + 1) → Vec d => (u, x, b)))

/-- The same for systems of pairs. -/
theorem sliced_aux2 {S : (Fin (n + 1) → Vec d) → Sys (Vec d × Vec d) N n} (hOK : ∀ u, (S u).OK) (hM : SysMeas S)
    {g0 : (Fin (n + 1) → Vec d) → Vec d → ℝ} {g : (Fin (n + 1) → Vec d) → Fin n → Vec d × Vec d → Vec d → ℝ}
    (hg0 : ∀ u, Measurable (g0 u))
    (hg : ∀ t, Measurable fun p : (Fin (n + 1) → Vec d) × (Vec d × Vec d) × Vec d => g p.1 t p.2.1 p.2.2)
    (hG0 : ∀ u f, Measurable f → (S u).G0 f = ∫⁻ x, ENNReal.ofReal (Real.exp (g0 u x)) * f (0, x))
    (hG : ∀ u t y f, Measurable f → (S u).G t y f = ∫⁻ x, ENNReal.ofReal (Real.exp (g u t y x)) * f (y.2, x))
    {logpi : (Fin (n + 1) → Vec d) → ℝ} (hpi : Measurable logpi) {s : Fin (n + 1) → ℝ} (hs : ∀ t, 0 < s t)
    {m : (Fin (n + 1) → Vec d) → Fin (n + 1) → Vec d} (hmm : Measurable m)
    (hinc : ∀ u x, logpi x + ∑ t, isoLogpdf (s t) (m x t) (u t) = pathLogDensity2 0 (g0 u) (g u) x)
    (backward : Bool) {kk : Key}
    {K : AncestorMove Ex N → (Fin (n + 1) → Vec d) → (Fin (n + 1) → Fin (N + 1)) → Ex (PathState (Vec d) N n)}
    (hK : ∀ mv, (∀ key, MoveKer (moveIndex mv key)) → ∀ x b f, Measurable f →
      K mv x b f = ∫⁻ e, (S (fun t j => m x t j + s t * e t j)).kernel2 0 (g (fun t j => m x t j + s t * e t j))
        (moveIndex mv kk) backward x b f ∂(Measure.pi fun _ : Fin (n + 1) => gaussM d)) :
    Sliced volume logpi K backward := by
  have hq : Measurable fun p : (Fin (n + 1) → Vec d) × (Fin (n + 1) → Vec d) =>
      ∑ t, isoLogpdf (s t) (m p.1 t) (p.2 t) :=
    Finset.measurable_fun_sum _ fun t _ => by fun_prop
  have hq1 : ∀ x, ∫⁻ u, ENNReal.ofReal (Real.exp (∑ t, isoLogpdf (s t) (m x t) (u t)))
      ∂(Measure.pi fun _ : Fin (n + 1) => (volume : Measure (Vec d))) = 1 := fun x => by
    have := iso_pi_law hs (m x) (fun _ => 1) measurable_const
    simpa using this.symm
  have hgu : ∀ u t, Measurable fun p : (Vec d × Vec d) × Vec d => g u t p.1 p.2 := fun u t => by
    have := (hg t).comp (measurable_const.prodMk measurable_id : Measurable fun p : (Vec d × Vec d) × Vec d => (u, p))
    exact this
  have hbs : IsKer (fun p : (Fin (n + 1) → Vec d) × Hist (Vec d × Vec d) N n × Fin (N + 1) =>
    (S p.1).bs2 (g p.1) (fun _ => 0) p.2.1 p.2.2) := hM.bs2_ker hg (τ := fun _ _ => 0) measurable_const
  refine sliced_mixture (μ := Measure.pi fun _ : Fin (n + 1) => (volume : Measure (Vec d))) hpi
    (q := fun x u => ∑ t, isoLogpdf (s t) (m x t) (u t)) hq hq1 hM
    (fun u => (hOK u).fwd_mass) (lift := lift2 0) (down := fun z t => (z t).2)
    (measurable_lift2 0 measurable_id) (by fun_prop) (fun x => funext fun t => lift2_snd 0 x t) (fun u F hF => ?_)
    (out := fun u h k => if backward = true then (S u).bs2 (g u) (fun _ => 0) h k
      else (pure (fun t => (h.tracex k t).2, h.trace k) : Ex _)) ?_
    (fun hb _ h k => by rw [hb]; rfl) (fun u h k f hf => ?_) (kk := kk) (fun mv hm x b f hf => ?_)
  · have hS := hOK u
    have hm1 : ∀ b, Measurable fun x => (S u).fwd b x (fun h => F h b x) := fun b =>
      (hS.fwd_ker.comp (g := fun x : Fin (n + 1) → Vec d × Vec d => (b, x)) (by fun_prop)).measurable
        (f := fun x h => F h b x)
        (hF.comp (by fun_prop : Measurable fun p : (Fin (n + 1) → Vec d × Vec d) × Hist (Vec d × Vec d) N n =>
          (p.2, b, p.1)))
    have hm2 : ∀ b, Measurable fun x => (S u).fwd b x (fun h => ∑ k, ENNReal.ofReal ((S u).wLast h k) *
        F h (h.trace k) (h.tracex k)) := fun b =>
      (hS.fwd_ker.measurable' (Finset.measurable_fun_sum _ fun k _ => Measurable.mul
      (ENNReal.measurable_ofReal.comp ((measurable_pi_apply k).comp hS.measurable_wLast))
      (hF.comp (by fun_prop : Measurable fun h : Hist (Vec d × Vec d) N n => (h, h.trace k, h.tracex k))))).comp
      (by fun_prop : Measurable fun x : Fin (n + 1) → Vec d × Vec d => (b, x))
    have e : ∀ G : (Fin (n + 1) → Vec d × Vec d) → ℝ≥0∞, Measurable G → ∫⁻ x, ENNReal.ofReal (Real.exp (logpi x +
        ∑ t, isoLogpdf (s t) (m x t) (u t))) * G (lift2 0 x) ∂(Measure.pi fun _ => volume) = (S u).path G := by
      intro G hGm
      rw [hS.path_eq2 (hg0 u) (hG0 u) ⟨hgu u, hG u⟩ G hGm]
      refine lintegral_congr fun x => ?_
      rw [hinc u x]
    simp only [e _ (hm1 _), e _ (hm2 _)]
    exact hS.refresh F hF
  · cases backward with
    | true => simpa using hbs.comp (by fun_prop : Measurable fun p : ((Fin (n + 1) → Vec d) ×
        Hist (Vec d × Vec d) N n) × Fin (N + 1) => (p.1.1, p.1.2, p.2))
    | false => simpa using IsKer.pure (by fun_prop : Measurable fun p : ((Fin (n + 1) → Vec d) ×
        Hist (Vec d × Vec d) N n) × Fin (N + 1) => (fun t => (p.1.2.tracex p.2 t).2, p.1.2.trace p.2))
  · cases backward with
    | true =>
      refine ((S u).bs2_last (g u) (fun _ => 0) h k (fun v _ => f v)).trans ?_
      refine (hbs.const_fun (u, h, k) (f (lastA h.2 k).2)).trans ?_
      rw [(S u).bs2_mass, mul_one, ← h.tracex_last]
      rfl
    | false => rfl
  · have hker := hM.kernel2_ker 0 (Γ := g) hg (hm kk) backward
    have hKm : Measurable fun u => (S u).kernel2 0 (g u) (moveIndex mv kk) backward x b f :=
      (hker.measurable' hf).comp (by fun_prop : Measurable fun u : Fin (n + 1) → Vec d => (u, x, b))
    rw [hK mv hm x b f hf]
    exact iso_pi_law hs (m x) (fun u => (S u).kernel2 0 (g u) (moveIndex mv kk) backward x b f) hKm

end kernels

end Verif
