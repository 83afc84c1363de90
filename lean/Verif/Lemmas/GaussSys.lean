import Verif.Lemmas.TpCsmc

/-!
# Measurable families of conditional particle systems with Gaussian proposals
-/

open scoped ENNReal
open MeasureTheory ProbabilityTheory

namespace Verif
open Verif.Spec Verif.Model Matrix

variable {N n d : ℕ} {Θ : Type} [MeasurableSpace Θ]

/-- Particles around `d0` and `dt t y`, covariances `L Lᵀ`, target increments `g0`, `g`. -/
noncomputable def gSys (g0 : Vec d → ℝ) (g : Fin n → Vec d → Vec d → ℝ) (L : Fin (n + 1) → Mat d d) (d0 : Vec d)
    (dt : Fin n → Vec d → Vec d) (R : Fin n → (Fin (N + 1) → ℝ) → Fin (N + 1) → Fin (N + 1) → Ex (Anc N)) :
    Sys (Vec d) N n where
  G0 f := ∫⁻ x, ENNReal.ofReal (Real.exp (g0 x)) * f x
  G t y f := ∫⁻ x, ENNReal.ofReal (Real.exp (g t y x)) * f x
  Q0 b x := gaussP N (L 0) (fun _ => d0) >>= fun Xs => pure (atSet Xs b x)
  LW0 Xs i := g0 (Xs i) - normalLogpdf d0 (L 0 * (L 0)ᵀ) (Xs i)
  Q t Y b x := gaussP N (L t.succ) (fun i => dt t (Y i)) >>= fun Xs => pure (atSet Xs b x)
  LW t Y Xs i := g t (Y i) (Xs i) - normalLogpdf (dt t (Y i)) (L t.succ * (L t.succ)ᵀ) (Xs i)
  R := R
  Z0 := gaussP N (L 0) (fun _ => d0)
  Z t Y := gaussP N (L t.succ) (fun i => dt t (Y i))

section
variable {g0 : Θ → Vec d → ℝ} {g : Θ → Fin n → Vec d → Vec d → ℝ} {L : Fin (n + 1) → Mat d d} {d0 : Θ → Vec d}
  {dt : Θ → Fin n → Vec d → Vec d} {R : Fin n → (Fin (N + 1) → ℝ) → Fin (N + 1) → Fin (N + 1) → Ex (Anc N)}

/-- Measurability of the ingredients of `gSys`. -/
structure GSysMeas (g0 : Θ → Vec d → ℝ) (g : Θ → Fin n → Vec d → Vec d → ℝ) (d0 : Θ → Vec d)
    (dt : Θ → Fin n → Vec d → Vec d) : Prop where
  inc0 : Measurable fun p : Θ × Vec d => g0 p.1 p.2
  inc : ∀ t, Measurable fun p : Θ × Vec d × Vec d => g p.1 t p.2.1 p.2.2
  mean0 : Measurable d0
  mean : ∀ t, Measurable fun p : Θ × Vec d => dt p.1 t p.2

theorem gSys_mean (hM : GSysMeas g0 g d0 dt) (t : Fin n) {β : Type} [MeasurableSpace β] {u : β → Θ}
    {Y : β → PA (Vec d) N} (hu : Measurable u) (hY : Measurable Y) :
    Measurable fun p i => dt (u p) t (Y p i) :=
  measurable_pi_lambda _ fun i => (hM.mean t).comp (hu.prodMk ((measurable_pi_apply i).comp hY))

theorem gSys_meas (hM : GSysMeas g0 g d0 dt) (hR : ∀ t, CondResampling (R t)) :
    SysMeas (fun θ => gSys (g0 θ) (g θ) L (d0 θ) (dt θ) R) where
  Q0_ker := isKer_gaussSet (L 0) (c := fun (p : Θ × Fin (N + 1) × Vec d) _ => d0 p.1) (b := fun p => p.2.1)
    (x := fun p => p.2.2) (measurable_pi_lambda _ fun _ => hM.mean0.comp measurable_fst) (by fun_prop) (by fun_prop)
  Q_ker t := isKer_gaussSet (L t.succ) (c := fun (p : Θ × PA (Vec d) N × Fin (N + 1) × Vec d) i =>
    dt p.1 t (p.2.1 i)) (b := fun p => p.2.2.1) (x := fun p => p.2.2.2)
    (gSys_mean hM t (by fun_prop) (by fun_prop)) (by fun_prop) (by fun_prop)
  LW0_meas := by
    refine measurable_pi_lambda _ fun i => ?_
    have h1 := hM.inc0.comp (by fun_prop : Measurable fun p : Θ × PA (Vec d) N => (p.1, p.2 i))
    have h2 := hM.mean0.comp (measurable_fst : Measurable fun p : Θ × PA (Vec d) N => p.1)
    exact h1.sub (measurable_normalLogpdf _ h2 (by fun_prop))
  LW_meas t := by
    refine measurable_pi_lambda _ fun i => ?_
    have h1 := (hM.inc t).comp (by fun_prop : Measurable fun p : Θ × PA (Vec d) N × PA (Vec d) N => (p.1, p.2.1 i, p.2.2 i))
    have h2 := (hM.mean t).comp (by fun_prop : Measurable fun p : Θ × PA (Vec d) N × PA (Vec d) N => (p.1, p.2.1 i))
    exact h1.sub (measurable_normalLogpdf _ h2 (by fun_prop))
  R_ker t := (hR t).ker.comp measurable_snd

theorem gSys_inc0 (hM : GSysMeas g0 g d0 dt) (θ : Θ) : Measurable (g0 θ) := by
  have := hM.inc0.comp (measurable_const.prodMk measurable_id : Measurable fun p : Vec d => (θ, p))
  exact this

theorem gSys_inc (hM : GSysMeas g0 g d0 dt) (θ : Θ) (t : Fin n) :
    Measurable fun p : Vec d × Vec d => g θ t p.1 p.2 := by
  have := (hM.inc t).comp (measurable_const.prodMk measurable_id : Measurable fun p : Vec d × Vec d => (θ, p))
  exact this

theorem gSys_OK (hM : GSysMeas g0 g d0 dt) (hL : ∀ t, (L t).det ≠ 0) (hR : ∀ t, CondResampling (R t)) (θ : Θ) :
    (gSys (g0 θ) (g θ) L (d0 θ) (dt θ) R).OK := by
  have hS := gSys_meas (L := L) hM hR
  have hg0 := gSys_inc0 hM θ
  have hg := gSys_inc hM θ
  exact {
  G0_ker := by
    have := isKer_density (lam := volume) (g := fun _ : Unit => g0 θ) (by fun_prop)
    exact this
  G_ker t := by
    have := isKer_density (lam := volume) (g := g θ t) (hg t)
    exact this
  Q0_ker := hS.Q0_ker.comp
    (g := fun p : Fin (N + 1) × Vec d => (θ, p)) (by fun_prop)
  Q_ker t := (hS.Q_ker t).comp
    (g := fun p : PA (Vec d) N × Fin (N + 1) × Vec d => (θ, p)) (by fun_prop)
  Q0_mass b x := by
    have := gaussP_mass (N := N) (hL 0) (fun _ => d0 θ)
    exact this
  Q_mass t Y b x := by
    have := gaussP_mass (N := N) (hL t.succ) (fun i => dt θ t (Y i))
    exact this
  LW0_meas := by
    have := hS.LW0_meas.comp (measurable_const.prodMk measurable_id : Measurable fun p : PA (Vec d) N => (θ, p))
    exact this
  LW_meas t := by
    have := (hS.LW_meas t).comp
      (measurable_const.prodMk measurable_id : Measurable fun p : PA (Vec d) N × PA (Vec d) N => (θ, p))
    exact this
  R_ok := hR
  Z0_ker := (gaussP_ker (L 0)).comp measurable_const
  Z_ker t := (gaussP_ker (L t.succ)).comp (gSys_mean hM t measurable_const measurable_id)
  id0 b f hf := by
    have := (gaussP_samplesFrom (N := N) (hL 0) (fun _ => d0 θ)).conditional (g := g0 θ) hg0 b f hf
    exact this
  idt t Y b f hf := by
    have hgy : Measurable (g θ t (Y b)) := (hg t).comp (measurable_const.prodMk measurable_id)
    have := (gaussP_samplesFrom (N := N) (hL t.succ) (fun i => dt θ t (Y i))).conditional
      (g := g θ t (Y b)) hgy b f hf
    exact this }

/-- Auxiliary variables `u ~ N(m(x), s²)`, then the kernel given them: if the increments given `u` sum to the joint
log-density up to a constant, the target is left invariant. -/
theorem gSys_mixture {g0 : (Fin (n + 1) → Vec d) → Vec d → ℝ} {g : (Fin (n + 1) → Vec d) → Fin n → Vec d → Vec d → ℝ}
    {d0 : (Fin (n + 1) → Vec d) → Vec d} {dt : (Fin (n + 1) → Vec d) → Fin n → Vec d → Vec d}
    (hM : GSysMeas g0 g d0 dt) (hL : ∀ t, (L t).det ≠ 0) (hR : ∀ t, CondResampling (R t))
    {logpi : (Fin (n + 1) → Vec d) → ℝ} (hpi : Measurable logpi) {s : Fin (n + 1) → ℝ} (hs : ∀ t, 0 < s t)
    {m : (Fin (n + 1) → Vec d) → Fin (n + 1) → Vec d} (hmm : Measurable m)
    (hinc : ∀ u, ∃ c, ∀ x, logpi x + ∑ t, isoLogpdf (s t) (m x t) (u t) = c + pathLogDensity (g0 u) (g u) x)
    {move : (Fin (N + 1) → ℝ) → Fin (N + 1) → Ex (Fin (N + 1))} (hm : MoveInvariant move) (backward : Bool)
    {K : (Fin (n + 1) → Vec d) → (Fin (n + 1) → Fin (N + 1)) →
      Ex ((Fin (n + 1) → Vec d) × (Fin (n + 1) → Fin (N + 1)))}
    (hK : ∀ x b f, Measurable f → K x b f = ∫⁻ e,
      (gSys (g0 (fun t j => m x t j + s t * e t j)) (g (fun t j => m x t j + s t * e t j)) L
        (d0 (fun t j => m x t j + s t * e t j)) (dt (fun t j => m x t j + s t * e t j)) R).kernel
        (g (fun t j => m x t j + s t * e t j)) move backward x b f ∂(Measure.pi fun _ : Fin (n + 1) => gaussM d)) :
    LeavesInvariant volume logpi K := by
  have hq : Measurable fun p : (Fin (n + 1) → Vec d) × (Fin (n + 1) → Vec d) =>
      ∑ t, isoLogpdf (s t) (m p.1 t) (p.2 t) :=
    Finset.measurable_fun_sum _ fun t _ => by fun_prop
  have hker := (gSys_meas (L := L) hM hR).kernel_ker (Γ := g) hM.inc hm.ker backward
  refine leavesInvariant_mixture (μ := Measure.pi fun _ : Fin (n + 1) => (volume : Measure (Vec d)))
    hpi (q := fun x u => ∑ t, isoLogpdf (s t) (m x t) (u t)) hq ?_
    (Kθ := fun u => (gSys (g0 u) (g u) L (d0 u) (dt u) R).kernel (g u) move backward) hker ?_ ?_
  · intro x
    have := iso_pi_law hs (m x) (fun _ => 1) measurable_const
    simpa using this.symm
  · intro u
    obtain ⟨c, hc⟩ := hinc u
    have := (gSys_OK hM hL hR u).kernel_invariant (lam := volume) (Γ0 := g0 u) (Γ := g u) (gSys_inc0 hM u)
      (fun f _ => rfl) ⟨gSys_inc hM u, fun t y f _ => rfl⟩ hm backward
    exact this.shift c hc
  · intro x b f hf
    rw [hK x b f hf]
    exact iso_pi_law hs (m x) (fun u => (gSys (g0 u) (g u) L (d0 u) (dt u) R).kernel (g u) move backward x b f)
      ((hker.measurable' hf).comp (by fun_prop : Measurable fun u : Fin (n + 1) → Vec d => (u, x, b)))

end

end Verif
