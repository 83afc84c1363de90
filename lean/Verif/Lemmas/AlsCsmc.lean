import Verif.Lemmas.SecondOrderPass
import Verif.Lemmas.MargCsmc
import Verif.Lemmas.AlCsmc

/-!
# Particle-aMALA+: the particle system given the auxiliary variables

The centre of the auxiliary variable of time `t` depends on the values at times `t - 1`, `t` and `t + 1`, so that
the target given the auxiliary variables has memory two.
-/

open scoped ENNReal
open MeasureTheory ProbabilityTheory

namespace Verif
open Verif.Spec Verif.Model

variable {N n d : ℕ}

/-- The part of the drift at time `t` that the pair (previous value, value) determines. -/
def s2Own (a0 : Vec d → Vec d) (a : Fin n → Vec d → Vec d → Vec d) : Fin (n + 1) → Vec d × Vec d → Vec d :=
  insert0 (fun p => a0 p.2) (fun t p => a t p.1 p.2)

/-- The increments of the target given the auxiliary variables. -/
noncomputable def s2G (Γ : Fin n → Vec d → Vec d → ℝ) (a0 : Vec d → Vec d) (a c : Fin n → Vec d → Vec d → Vec d)
    (s : Fin (n + 1) → ℝ) (u : Fin (n + 1) → Vec d) (t : Fin n) (y : Vec d × Vec d) (x : Vec d) : ℝ :=
  Γ t y.2 x + (isoLogpdf (s t.castSucc) (y.2 + s2Own a0 a t.castSucc y + c t y.2 x) (u t.castSucc) +
    isoLogpdf (s t.succ) (x + a t y.2 x) (u t.succ) -
    isoLogpdf (s t.castSucc) (y.2 + s2Own a0 a t.castSucc y) (u t.castSucc))

/-- Centres of the auxiliary variables given the trajectory. -/
def s2Center (a0 : Vec d → Vec d) (a c : Fin n → Vec d → Vec d → Vec d) (x : Fin (n + 1) → Vec d) :
    Fin (n + 1) → Vec d := fun t =>
  x t + s2Own a0 a t (lift2 0 x t) + snocA (fun t : Fin n => c t (x t.castSucc) (x t.succ)) 0 t

/-- The increments telescope. -/
theorem pathLogDensity2_s2 (Γ0 : Vec d → ℝ) (a0 : Vec d → Vec d) (Γ : Fin n → Vec d → Vec d → ℝ)
    (a c : Fin n → Vec d → Vec d → Vec d) (s : Fin (n + 1) → ℝ) (u : Fin (n + 1) → Vec d) (x : Fin (n + 1) → Vec d) :
    pathLogDensity2 0 (augG0 Γ0 a0 s u) (s2G Γ a0 a c s u) x =
      pathLogDensity Γ0 Γ x + ∑ t, isoLogpdf (s t) (s2Center a0 a c x t) (u t) := by
  set p : Fin (n + 1) → ℝ := fun t => isoLogpdf (s t) (x t + s2Own a0 a t (lift2 0 x t)) (u t) with hp
  have h1 : ∀ t : Fin n, s2G Γ a0 a c s u t (lift2 0 x t.castSucc) (x t.succ) =
      Γ t (x t.castSucc) (x t.succ) + isoLogpdf (s t.castSucc) (s2Center a0 a c x t.castSucc) (u t.castSucc) +
        p t.succ - p t.castSucc := by
    intro t
    simp only [s2G, s2Center, lift2_snd, snocA_castSucc, hp]
    have : s2Own a0 a t.succ (lift2 0 x t.succ) = a t (x t.castSucc) (x t.succ) := rfl
    rw [this]
    ring
  have h2 : isoLogpdf (s (Fin.last n)) (s2Center a0 a c x (Fin.last n)) (u (Fin.last n)) = p (Fin.last n) := by
    simp only [s2Center, snocA_last, hp, add_zero]
  have h3 : augG0 Γ0 a0 s u (x 0) = Γ0 (x 0) + p 0 := rfl
  have h4 : ∑ t : Fin n, p t.castSucc + p (Fin.last n) = p 0 + ∑ t : Fin n, p t.succ := by
    rw [← Fin.sum_univ_castSucc, Fin.sum_univ_succ]
  unfold pathLogDensity2 pathLogDensity
  simp only [h1]
  rw [Fin.sum_univ_castSucc (f := fun t => isoLogpdf (s t) (s2Center a0 a c x t) (u t)), h2, h3,
    Finset.sum_sub_distrib, Finset.sum_add_distrib, Finset.sum_add_distrib]
  linarith

/-- The particle system given the auxiliary variables `u`: particles are pairs (value of the parent, value). -/
noncomputable def alsSys (Γ0 : Vec d → ℝ) (Γ : Fin n → Vec d → Vec d → ℝ) (a0 : Vec d → Vec d)
    (a c : Fin n → Vec d → Vec d → Vec d) (s : Fin (n + 1) → ℝ)
    (R : Fin n → (Fin (N + 1) → ℝ) → Fin (N + 1) → Fin (N + 1) → Ex (Anc N)) (u : Fin (n + 1) → Vec d) :
    Sys (Vec d × Vec d) N n where
  G0 f := ∫⁻ x, ENNReal.ofReal (Real.exp (augG0 Γ0 a0 s u x)) * f (0, x)
  G t y f := ∫⁻ x, ENNReal.ofReal (Real.exp (s2G Γ a0 a c s u t y x)) * f (y.2, x)
  Q0 b z := isoP N [] (s 0) (u 0) >>= fun Xs => pure (fun i => (0, atSet Xs b z.2 i))
  LW0 Xs i := augG0 Γ0 a0 s u (Xs i).2 - isoLogpdf (s 0) (u 0) (Xs i).2
  Q t Y b z := isoP N [] (s t.succ) (u t.succ) >>= fun Xs => pure (fun i => ((Y i).2, atSet Xs b z.2 i))
  LW t Y Xs i := s2G Γ a0 a c s u t (Y i) (Xs i).2 - isoLogpdf (s t.succ) (u t.succ) (Xs i).2
  R := R
  Z0 := isoP N [] (s 0) (u 0) >>= fun Xs => pure (fun i => (0, Xs i))
  Z t Y := isoP N [] (s t.succ) (u t.succ) >>= fun Xs => pure (fun i => ((Y i).2, Xs i))

/-- Its noise. -/
noncomputable def alsNoise (N : ℕ) (s : Fin (n + 1) → ℝ) (u : Fin (n + 1) → Vec d) :
    Noise1 (Vec d × Vec d) (Fin (N + 1) → Vec d) N n where
  Q0 e b z := pure (fun i => (0, atSet (fun i j => u 0 j + s 0 * e i j) b z.2 i))
  Q t e Y b z := pure (fun i => ((Y i).2, atSet (fun i j => u t.succ j + s t.succ * e i j) b z.2 i))

section
variable {Γ0 : Vec d → ℝ} {Γ : Fin n → Vec d → Vec d → ℝ} {a0 : Vec d → Vec d}
  {a c : Fin n → Vec d → Vec d → Vec d} {s : Fin (n + 1) → ℝ}
  {R : Fin n → (Fin (N + 1) → ℝ) → Fin (N + 1) → Fin (N + 1) → Ex (Anc N)}

theorem measurable_s2Own (h0 : Measurable a0) (h : ∀ t, Measurable fun p : Vec d × Vec d => a t p.1 p.2)
    (t : Fin (n + 1)) : Measurable (s2Own a0 a t) := by
  refine Fin.cases ?_ (fun t => ?_) t
  · exact h0.comp measurable_snd
  · exact h t

theorem measurable_s2G (hΓ : ∀ t, Measurable fun p : Vec d × Vec d => Γ t p.1 p.2) (h0 : Measurable a0)
    (h : ∀ t, Measurable fun p : Vec d × Vec d => a t p.1 p.2)
    (hc : ∀ t, Measurable fun p : Vec d × Vec d => c t p.1 p.2) (s : Fin (n + 1) → ℝ) (t : Fin n) {β : Type}
    [MeasurableSpace β] {u : β → Fin (n + 1) → Vec d} {y : β → Vec d × Vec d} {x : β → Vec d} (hu : Measurable u)
    (hy : Measurable y) (hx : Measurable x) : Measurable fun p => s2G Γ a0 a c s (u p) t (y p) (x p) := by
  have e1 : Measurable fun p => Γ t (y p).2 (x p) := (hΓ t).comp ((measurable_snd.comp hy).prodMk hx)
  have e2 : Measurable fun p => a t (y p).2 (x p) := (h t).comp ((measurable_snd.comp hy).prodMk hx)
  have e3 : Measurable fun p => c t (y p).2 (x p) := (hc t).comp ((measurable_snd.comp hy).prodMk hx)
  have e4 : Measurable fun p => s2Own a0 a t.castSucc (y p) := (measurable_s2Own h0 h t.castSucc).comp hy
  unfold s2G
  fun_prop

theorem measurable_s2Center (h0 : Measurable a0) (h : ∀ t, Measurable fun p : Vec d × Vec d => a t p.1 p.2)
    (hc : ∀ t, Measurable fun p : Vec d × Vec d => c t p.1 p.2) : Measurable (s2Center a0 a c) := by
  refine measurable_pi_lambda _ fun t => ?_
  have e1 : Measurable fun x : Fin (n + 1) → Vec d => lift2 0 x t :=
    (measurable_pi_apply t).comp (measurable_lift2 0 measurable_id)
  have e2 : Measurable fun x : Fin (n + 1) → Vec d => s2Own a0 a t (lift2 0 x t) := (measurable_s2Own h0 h t).comp e1
  have e3 : Measurable fun x : Fin (n + 1) → Vec d =>
      snocA (fun t : Fin n => c t (x t.castSucc) (x t.succ)) 0 t := by
    refine Fin.lastCases ?_ (fun t => ?_) t
    · simp only [snocA_last]
      fun_prop
    · simp only [snocA_castSucc]
      exact (hc t).comp (by fun_prop : Measurable fun x : Fin (n + 1) → Vec d => (x t.castSucc, x t.succ))
  unfold s2Center
  fun_prop

theorem isKer_alsQ {β : Type} [MeasurableSpace β] (s : ℝ) {u : β → Vec d} {b : β → Fin (N + 1)} {y : β → PA (Vec d) N}
    {x : β → Vec d} (hu : Measurable u) (hb : Measurable b) (hy : Measurable y) (hx : Measurable x) :
    IsKer (fun p => isoP N [] s (u p) >>= fun Xs => pure (fun i => (y p i, atSet Xs (b p) (x p) i))) := by
  refine ((isoP_ker [] s).comp hu).bind (F := fun p Xs => pure (fun i => (y p i, atSet Xs (b p) (x p) i)))
    (IsKer.pure ?_)
  refine measurable_pi_lambda _ fun i => ?_
  have e : Measurable fun p : β × (Fin (N + 1) → Vec d) => atSet p.2 (b p.1) (x p.1) := by fun_prop
  have e2 : Measurable fun p : β × (Fin (N + 1) → Vec d) => y p.1 i := by fun_prop
  exact e2.prodMk ((measurable_pi_apply i).comp e)

theorem alsSys_meas (h0 : Measurable Γ0) (h : ∀ t, Measurable fun p : Vec d × Vec d => Γ t p.1 p.2)
    (ha0 : Measurable a0) (ha : ∀ t, Measurable fun p : Vec d × Vec d => a t p.1 p.2)
    (hc : ∀ t, Measurable fun p : Vec d × Vec d => c t p.1 p.2)
    (hR : ∀ t, CondResampling (R t)) : SysMeas (alsSys Γ0 Γ a0 a c s R) where
  Q0_ker := isKer_alsQ (s 0) (u := fun p : (Fin (n + 1) → Vec d) × Fin (N + 1) × Vec d × Vec d => p.1 0)
    (y := fun _ _ => 0) (by fun_prop) (by fun_prop) (by fun_prop) (by fun_prop)
  Q_ker t := isKer_alsQ (s t.succ) (u := fun p : (Fin (n + 1) → Vec d) × PA (Vec d × Vec d) N × Fin (N + 1) ×
    Vec d × Vec d => p.1 t.succ) (y := fun p i => (p.2.1 i).2) (by fun_prop) (by fun_prop) (by fun_prop) (by fun_prop)
  LW0_meas := by
    refine measurable_pi_lambda _ fun i => ?_
    show Measurable fun p : (Fin (n + 1) → Vec d) × PA (Vec d × Vec d) N =>
      augG0 Γ0 a0 s p.1 (p.2 i).2 - isoLogpdf (s 0) (p.1 0) (p.2 i).2
    fun_prop
  LW_meas t := by
    refine measurable_pi_lambda _ fun i => ?_
    have := measurable_s2G h ha0 ha hc s t
      (u := fun p : (Fin (n + 1) → Vec d) × PA (Vec d × Vec d) N × PA (Vec d × Vec d) N => p.1)
      (y := fun p => p.2.1 i) (x := fun p => (p.2.2 i).2) (by fun_prop) (by fun_prop) (by fun_prop)
    show Measurable fun p : (Fin (n + 1) → Vec d) × PA (Vec d × Vec d) N × PA (Vec d × Vec d) N =>
      s2G Γ a0 a c s p.1 t (p.2.1 i) (p.2.2 i).2 - isoLogpdf (s t.succ) (p.1 t.succ) (p.2.2 i).2
    fun_prop
  R_ker t := (hR t).ker.comp measurable_snd

theorem measurable_pairUp {β : Type} [MeasurableSpace β] {y X : β → PA (Vec d) N} (hy : Measurable y)
    (hX : Measurable X) : Measurable fun p => fun i => (y p i, X p i) := by
  refine measurable_pi_lambda _ fun i => ?_
  exact ((measurable_pi_apply i).comp hy).prodMk ((measurable_pi_apply i).comp hX)

theorem alsSys_OK (h0 : Measurable Γ0) (h : ∀ t, Measurable fun p : Vec d × Vec d => Γ t p.1 p.2)
    (ha0 : Measurable a0) (ha : ∀ t, Measurable fun p : Vec d × Vec d => a t p.1 p.2)
    (hc : ∀ t, Measurable fun p : Vec d × Vec d => c t p.1 p.2)
    (hs : ∀ t, 0 < s t) (hR : ∀ t, CondResampling (R t)) (u : Fin (n + 1) → Vec d) :
    (alsSys Γ0 Γ a0 a c s R u).OK where
  G0_ker := by
    have := isKer_density (lam := volume) (g := fun _ : Unit => augG0 Γ0 a0 s u) (by fun_prop)
    refine (this.bind (F := fun _ x => pure ((0 : Vec d), x)) (IsKer.pure (by fun_prop))).congr fun _ f hf => rfl
  G_ker t := by
    have := isKer_density (lam := volume) (g := s2G Γ a0 a c s u t) (measurable_s2G h ha0 ha hc s t measurable_const
      (by fun_prop) (by fun_prop))
    refine (this.bind (F := fun y x => pure (y.2, x)) (IsKer.pure (by fun_prop))).congr fun _ f hf => rfl
  Q0_ker := isKer_alsQ (s 0) (u := fun _ : Fin (N + 1) × Vec d × Vec d => u 0) (y := fun _ _ => 0) (by fun_prop)
    (by fun_prop) (by fun_prop) (by fun_prop)
  Q_ker t := isKer_alsQ (s t.succ) (u := fun _ : PA (Vec d × Vec d) N × Fin (N + 1) × Vec d × Vec d => u t.succ)
    (y := fun p i => (p.1 i).2) (by fun_prop) (by fun_prop) (by fun_prop) (by fun_prop)
  Q0_mass b x := by
    have := (iso_samplesFrom (N := N) (hs 0) (u 0) []).mass
    exact this
  Q_mass t Y b x := by
    have := (iso_samplesFrom (N := N) (hs t.succ) (u t.succ) []).mass
    exact this
  LW0_meas := by
    refine measurable_pi_lambda _ fun i => ?_
    show Measurable fun p : PA (Vec d × Vec d) N => augG0 Γ0 a0 s u (p i).2 - isoLogpdf (s 0) (u 0) (p i).2
    fun_prop
  LW_meas t := by
    refine measurable_pi_lambda _ fun i => ?_
    have := measurable_s2G h ha0 ha hc s t (u := fun _ : PA (Vec d × Vec d) N × PA (Vec d × Vec d) N => u)
      (y := fun p => p.1 i) (x := fun p => (p.2 i).2) (by fun_prop) (by fun_prop) (by fun_prop)
    show Measurable fun p : PA (Vec d × Vec d) N × PA (Vec d × Vec d) N =>
      s2G Γ a0 a c s u t (p.1 i) (p.2 i).2 - isoLogpdf (s t.succ) (u t.succ) (p.2 i).2
    fun_prop
  R_ok := hR
  Z0_ker := ((isoP_ker (N := N) [] (s 0)).comp (g := fun _ : Unit => u 0) measurable_const).bind
    (F := fun _ (Xs : PA (Vec d) N) => pure (fun i => ((0 : Vec d), Xs i)))
    (IsKer.pure (g := fun p : Unit × PA (Vec d) N => fun i => ((0 : Vec d), p.2 i))
      (measurable_pairUp (y := fun _ _ => 0) measurable_const (by fun_prop)))
  Z_ker t := ((isoP_ker (N := N) [] (s t.succ)).comp (g := fun _ : PA (Vec d × Vec d) N => u t.succ)
    measurable_const).bind
    (F := fun (Y : PA (Vec d × Vec d) N) (Xs : PA (Vec d) N) => pure (fun i => ((Y i).2, Xs i)))
    (IsKer.pure (g := fun p : PA (Vec d × Vec d) N × PA (Vec d) N => fun i => ((p.1 i).2, p.2 i))
      (measurable_pairUp (y := fun (p : PA (Vec d × Vec d) N × PA (Vec d) N) i => (p.1 i).2) (X := fun p => p.2)
        (by fun_prop) (by fun_prop)))
  id0 b f hf := by
    have hf' : Measurable (Function.uncurry fun (x : Vec d) (Xs : PA (Vec d) N) => f (0, x) (fun i => (0, Xs i))) := by
      have e : Measurable fun p : Vec d × PA (Vec d) N => fun i => ((0 : Vec d), p.2 i) :=
        measurable_pairUp (y := fun _ _ => 0) measurable_const (by fun_prop)
      exact hf.comp ((by fun_prop : Measurable fun p : Vec d × PA (Vec d) N => ((0 : Vec d), p.1)).prodMk e)
    have := (iso_samplesFrom (N := N) (hs 0) (u 0) []).conditional (g := augG0 Γ0 a0 s u) (by fun_prop) b
      (fun x Xs => f (0, x) (fun i => (0, Xs i))) hf'
    exact this
  idt t Y b f hf := by
    have hf' : Measurable (Function.uncurry fun (x : Vec d) (Xs : PA (Vec d) N) =>
        f ((Y b).2, x) (fun i => ((Y i).2, Xs i))) := by
      have e : Measurable fun p : Vec d × PA (Vec d) N => fun i => ((Y i).2, p.2 i) :=
        measurable_pairUp (y := fun _ i => (Y i).2) measurable_const (by fun_prop)
      exact hf.comp ((by fun_prop : Measurable fun p : Vec d × PA (Vec d) N => ((Y b).2, p.1)).prodMk e)
    have := (iso_samplesFrom (N := N) (hs t.succ) (u t.succ) []).conditional (g := s2G Γ a0 a c s u t (Y b))
      (measurable_s2G h ha0 ha hc s t measurable_const measurable_const (by fun_prop)) b
      (fun x Xs => f ((Y b).2, x) (fun i => ((Y i).2, Xs i))) hf'
    exact this

theorem alsSys_hasNoise (u : Fin (n + 1) → Vec d) :
    (alsSys Γ0 Γ a0 a c s R u).HasNoise1 (alsNoise N s u) (Measure.pi fun _ => gaussM d) where
  Q0_eq b x f hf := rfl
  Q_eq t Y b x f hf := rfl
  Q0_ker := by
    refine IsKer.pure (measurable_pairUp (y := fun _ _ => 0) measurable_const ?_)
    show Measurable fun p : (Fin (N + 1) → Vec d) × Fin (N + 1) × Vec d × Vec d =>
      atSet (fun i j => u 0 j + s 0 * p.1 i j) p.2.1 p.2.2.2
    fun_prop
  Q_ker t := by
    refine IsKer.pure (measurable_pairUp (y := fun (p : (Fin (N + 1) → Vec d) × PA (Vec d × Vec d) N × Fin (N + 1) ×
      Vec d × Vec d) i => (p.2.1 i).2) (by fun_prop) ?_)
    show Measurable fun p : (Fin (N + 1) → Vec d) × PA (Vec d × Vec d) N × Fin (N + 1) × Vec d × Vec d =>
      atSet (fun i j => u t.succ j + s t.succ * p.1 i j) p.2.2.1 p.2.2.2.2
    fun_prop

/-- A kernel that draws auxiliary variables around `s2Center`, and then runs a conditional particle system targeting
the law given them. -/
theorem aux_mixture2
    (h0 : Measurable Γ0) (h : ∀ t, Measurable fun p : Vec d × Vec d => Γ t p.1 p.2)
    (ha0 : Measurable a0) (ha : ∀ t, Measurable fun p : Vec d × Vec d => a t p.1 p.2)
    (hc : ∀ t, Measurable fun p : Vec d × Vec d => c t p.1 p.2) (hs : ∀ t, 0 < s t)
    {S : (Fin (n + 1) → Vec d) → Sys (Vec d × Vec d) N n} (hOK : ∀ u, (S u).OK) (hM : SysMeas S)
    (hG0 : ∀ u f, Measurable f → (S u).G0 f = ∫⁻ x, ENNReal.ofReal (Real.exp (augG0 Γ0 a0 s u x)) * f (0, x))
    (hG : ∀ u t y f, Measurable f →
      (S u).G t y f = ∫⁻ x, ENNReal.ofReal (Real.exp (s2G Γ a0 a c s u t y x)) * f (y.2, x))
    {move : (Fin (N + 1) → ℝ) → Fin (N + 1) → Ex (Fin (N + 1))} (hm : MoveInvariant move) (backward : Bool)
    {K : (Fin (n + 1) → Vec d) → (Fin (n + 1) → Fin (N + 1)) →
      Ex ((Fin (n + 1) → Vec d) × (Fin (n + 1) → Fin (N + 1)))}
    (hK : ∀ x b f, Measurable f → K x b f = ∫⁻ e, (S (fun t j => s2Center a0 a c x t j + s t * e t j)).kernel2 0
      (s2G Γ a0 a c s (fun t j => s2Center a0 a c x t j + s t * e t j)) move backward x b f
        ∂(Measure.pi fun _ : Fin (n + 1) => gaussM d)) :
    LeavesInvariant volume (pathLogDensity Γ0 Γ) K := by
  have hcm := measurable_s2Center ha0 ha hc
  have hq : Measurable fun p : (Fin (n + 1) → Vec d) × (Fin (n + 1) → Vec d) =>
      ∑ t, isoLogpdf (s t) (s2Center a0 a c p.1 t) (p.2 t) :=
    Finset.measurable_fun_sum _ fun t _ => by fun_prop
  have hker := hM.kernel2_ker 0 (Γ := fun u => s2G Γ a0 a c s u)
    (fun t => measurable_s2G h ha0 ha hc s t (by fun_prop) (by fun_prop) (by fun_prop)) hm.ker backward
  refine leavesInvariant_mixture (μ := Measure.pi fun _ : Fin (n + 1) => (volume : Measure (Vec d)))
    (measurable_pathLogDensity h0 h) (q := fun x u => ∑ t, isoLogpdf (s t) (s2Center a0 a c x t) (u t)) hq ?_
    (Kθ := fun u => (S u).kernel2 0 (s2G Γ a0 a c s u) move backward) hker ?_ ?_
  · intro x
    have := iso_pi_law hs (s2Center a0 a c x) (fun _ => 1) measurable_const
    simpa using this.symm
  · intro u
    have := (hOK u).kernel2_invariant (lam := volume) (Γ0 := augG0 Γ0 a0 s u) (Γ := s2G Γ a0 a c s u) (by fun_prop)
      (hG0 u) ⟨fun t => measurable_s2G h ha0 ha hc s t measurable_const (by fun_prop) (by fun_prop), hG u⟩ hm backward
    have e : (fun x => pathLogDensity Γ0 Γ x + ∑ t, isoLogpdf (s t) (s2Center a0 a c x t) (u t)) =
        pathLogDensity2 0 (augG0 Γ0 a0 s u) (s2G Γ a0 a c s u) := by
      funext x; rw [pathLogDensity2_s2]
    rw [e]
    exact this
  · intro x b f hf
    have hKm : Measurable fun u => (S u).kernel2 0 (s2G Γ a0 a c s u) move backward x b f :=
      (hker.measurable' hf).comp (by fun_prop : Measurable fun u : Fin (n + 1) → Vec d => (u, x, b))
    rw [hK x b f hf, iso_pi_law hs (s2Center a0 a c x)
      (fun u => (S u).kernel2 0 (s2G Γ a0 a c s u) move backward x b f) hKm]

end

end Verif
