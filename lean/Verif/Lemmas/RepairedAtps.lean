import Verif.Lemmas.AlsKernel
import Verif.Lemmas.AtpCsmc

/-!
# Particle-aGRAD+ with the reference written into the particles: the particle system given the auxiliary variables
-/

open scoped ENNReal
open MeasureTheory ProbabilityTheory

namespace Verif
open Verif.Spec Verif.Model Matrix

variable {N n d : ℕ}

/-- Systems with memory two with the same resampling and, up to constants, the same log-weights, whose conditional
proposals agree along the reference, have the same kernel. -/
theorem Sys.kernel2_congr {V : Type} {n : ℕ} {S S' : Sys (V × V) N n} {b : Fin (n + 1) → Fin (N + 1)}
    {x : Fin (n + 1) → V} {c : V}
    (h0 : ∀ Xs, ∃ c, ∀ i, S.LW0 Xs i = S'.LW0 Xs i + c)
    (h : ∀ t Y Xs, ∃ c, ∀ i, S.LW t Y Xs i = S'.LW t Y Xs i + c)
    (hR : S.R = S'.R) (hQ0 : S.Q0 (b 0) (lift2 c x 0) = S'.Q0 (b 0) (lift2 c x 0))
    (hQ : ∀ t Y, S.Q t Y (b t.succ) (lift2 c x t.succ) = S'.Q t Y (b t.succ) (lift2 c x t.succ))
    (Γ : Fin n → V × V → V → ℝ)
    (move : (Fin (N + 1) → ℝ) → Fin (N + 1) → Ex (Fin (N + 1))) (backward : Bool) :
    S.kernel2 c Γ move backward x b = S'.kernel2 c Γ move backward x b := by
  have hbs : ∀ {n : ℕ} (S S' : Sys (V × V) N n) (Γ : Fin n → V × V → V → ℝ) (τ : V → ℝ),
      (∀ Xs, ∃ c, ∀ i, S.LW0 Xs i = S'.LW0 Xs i + c) →
      (∀ t Y Xs, ∃ c, ∀ i, S.LW t Y Xs i = S'.LW t Y Xs i + c) →
      ∀ k i, S.bs2 Γ τ k i = S'.bs2 Γ τ k i := by
    intro n
    induction n with
    | zero => intro S S' Γ τ h0 h k i; rfl
    | succ n ih =>
      intro S S' Γ τ h0 h k i
      have hi : ∀ g g' : Fin (N + 1) → ℝ, normalizeW (fun i => S.init.lwLast k.init i + g i + g' i) =
          normalizeW (fun i => S'.init.lwLast k.init i + g i + g' i) := fun g g' => by
        obtain ⟨c, hc⟩ := Sys.lwLast_shift (S := S.init) (S' := S'.init) h0 (fun t => h t.castSucc) k.init
        exact normalize_congr_const ⟨c, fun i => by rw [hc]; ring⟩
      show (choice [] (normalizeW (fun i => S.init.lwLast k.init i + _ + _)) >>= fun i =>
        S.init.bs2 (initA Γ) _ k.init i >>= _) = (choice [] (normalizeW (fun i => S'.init.lwLast k.init i + _ + _))
          >>= fun i => S'.init.bs2 (initA Γ) _ k.init i >>= _)
      rw [hi]
      have := fun τ j => ih S.init S'.init (initA Γ) τ h0 (fun t => h t.castSucc) k.init j
      simp only [this]
  have hw : ∀ k, S.wLast k = S'.wLast k := fun k => normalize_congr_const (Sys.lwLast_shift h0 h k)
  unfold Sys.kernel2
  rw [Sys.fwd_congr h0 h hR hQ0 hQ]
  simp only [hw, hbs S S' Γ _ h0 h]

/-- The particle system given the auxiliary variables `u`: pairs (value of the parent, value), the values drawn around
`dt + B u`. -/
noncomputable def atp2Sys (Γ0 : Vec d → ℝ) (Γ : Fin n → Vec d → Vec d → ℝ) (a0 : Vec d → Vec d)
    (a c : Fin n → Vec d → Vec d → Vec d) (B L : Fin (n + 1) → Mat d d) (s : Fin (n + 1) → ℝ) (d0 : Vec d)
    (dt : Fin n → Vec d → Vec d)
    (R : Fin n → (Fin (N + 1) → ℝ) → Fin (N + 1) → Fin (N + 1) → Ex (Anc N)) (u : Fin (n + 1) → Vec d) :
    Sys (Vec d × Vec d) N n where
  G0 f := ∫⁻ x, ENNReal.ofReal (Real.exp (augG0 Γ0 a0 s u x)) * f (0, x)
  G t y f := ∫⁻ x, ENNReal.ofReal (Real.exp (s2G Γ a0 a c s u t y x)) * f (y.2, x)
  Q0 b z := gaussP N (L 0) (fun _ => d0 + B 0 *ᵥ u 0) >>= fun Xs => pure (fun i => (0, atSet Xs b z.2 i))
  LW0 Xs i := augG0 Γ0 a0 s u (Xs i).2 - normalLogpdf (d0 + B 0 *ᵥ u 0) (L 0 * (L 0)ᵀ) (Xs i).2
  Q t Y b z := gaussP N (L t.succ) (fun i => dt t (Y i).2 + B t.succ *ᵥ u t.succ) >>= fun Xs =>
    pure (fun i => ((Y i).2, atSet Xs b z.2 i))
  LW t Y Xs i := s2G Γ a0 a c s u t (Y i) (Xs i).2 -
    normalLogpdf (dt t (Y i).2 + B t.succ *ᵥ u t.succ) (L t.succ * (L t.succ)ᵀ) (Xs i).2
  R := R
  Z0 := gaussP N (L 0) (fun _ => d0 + B 0 *ᵥ u 0) >>= fun Xs => pure (fun i => (0, Xs i))
  Z t Y := gaussP N (L t.succ) (fun i => dt t (Y i).2 + B t.succ *ᵥ u t.succ) >>= fun Xs =>
    pure (fun i => ((Y i).2, Xs i))

section
variable {Γ0 : Vec d → ℝ} {Γ : Fin n → Vec d → Vec d → ℝ} {a0 : Vec d → Vec d}
  {a c : Fin n → Vec d → Vec d → Vec d} {B L : Fin (n + 1) → Mat d d} {s : Fin (n + 1) → ℝ} {d0 : Vec d}
  {dt : Fin n → Vec d → Vec d}
  {R : Fin n → (Fin (N + 1) → ℝ) → Fin (N + 1) → Fin (N + 1) → Ex (Anc N)}

theorem isKer_gaussPair {β : Type} [MeasurableSpace β] (L : Mat d d) {m : β → Fin (N + 1) → Vec d} {b : β → Fin (N + 1)}
    {y : β → PA (Vec d) N} {x : β → Vec d} (hm : Measurable m) (hb : Measurable b) (hy : Measurable y)
    (hx : Measurable x) :
    IsKer (fun p => gaussP N L (m p) >>= fun Xs => pure (fun i => (y p i, atSet Xs (b p) (x p) i))) := by
  refine ((gaussP_ker L).comp hm).bind (F := fun p Xs => pure (fun i => (y p i, atSet Xs (b p) (x p) i)))
    (IsKer.pure ?_)
  refine measurable_pi_lambda _ fun i => ?_
  have e : Measurable fun p : β × (Fin (N + 1) → Vec d) => atSet p.2 (b p.1) (x p.1) := by fun_prop
  have e2 : Measurable fun p : β × (Fin (N + 1) → Vec d) => y p.1 i := by fun_prop
  exact e2.prodMk ((measurable_pi_apply i).comp e)

theorem atp2Sys_meas (h0 : Measurable Γ0) (h : ∀ t, Measurable fun p : Vec d × Vec d => Γ t p.1 p.2)
    (ha0 : Measurable a0) (ha : ∀ t, Measurable fun p : Vec d × Vec d => a t p.1 p.2)
    (hc : ∀ t, Measurable fun p : Vec d × Vec d => c t p.1 p.2) (hdt : ∀ t, Measurable (dt t))
    (hR : ∀ t, CondResampling (R t)) : SysMeas (atp2Sys Γ0 Γ a0 a c B L s d0 dt R) where
  Q0_ker := isKer_gaussPair (L 0)
    (m := fun (p : (Fin (n + 1) → Vec d) × Fin (N + 1) × Vec d × Vec d) _ => d0 + B 0 *ᵥ p.1 0)
    (y := fun _ _ => 0) (by fun_prop) (by fun_prop) (by fun_prop) (by fun_prop)
  Q_ker t := isKer_gaussPair (L t.succ)
    (m := fun (p : (Fin (n + 1) → Vec d) × PA (Vec d × Vec d) N × Fin (N + 1) × Vec d × Vec d) i =>
      dt t (p.2.1 i).2 + B t.succ *ᵥ p.1 t.succ) (b := fun p => p.2.2.1) (x := fun p => p.2.2.2.2)
    (y := fun p i => (p.2.1 i).2)
    (atp_mean_meas (Y := fun (p : (Fin (n + 1) → Vec d) × PA (Vec d × Vec d) N × Fin (N + 1) × Vec d × Vec d) i =>
      (p.2.1 i).2) hdt t (by fun_prop) (by fun_prop)) (by fun_prop) (by fun_prop) (by fun_prop)
  LW0_meas := by
    refine measurable_pi_lambda _ fun i => ?_
    show Measurable fun p : (Fin (n + 1) → Vec d) × PA (Vec d × Vec d) N =>
      augG0 Γ0 a0 s p.1 (p.2 i).2 - normalLogpdf (d0 + B 0 *ᵥ p.1 0) (L 0 * (L 0)ᵀ) (p.2 i).2
    exact (measurable_augG0 h0 ha0 s (by fun_prop) (by fun_prop)).sub (measurable_normalLogpdf _ (by fun_prop) (by fun_prop))
  LW_meas t := by
    refine measurable_pi_lambda _ fun i => ?_
    have h1 := measurable_s2G h ha0 ha hc s t
      (u := fun p : (Fin (n + 1) → Vec d) × PA (Vec d × Vec d) N × PA (Vec d × Vec d) N => p.1)
      (y := fun p => p.2.1 i) (x := fun p => (p.2.2 i).2) (by fun_prop) (by fun_prop) (by fun_prop)
    have h2 := (measurable_pi_apply i).comp (atp_mean_meas (N := N) (B := B) hdt t
      (u := fun p : (Fin (n + 1) → Vec d) × PA (Vec d × Vec d) N × PA (Vec d × Vec d) N => p.1)
      (Y := fun p i => (p.2.1 i).2) (by fun_prop) (by fun_prop))
    exact h1.sub (measurable_normalLogpdf _ h2 (by fun_prop))
  R_ker t := (hR t).ker.comp measurable_snd

theorem atp2Sys_OK (h0 : Measurable Γ0) (h : ∀ t, Measurable fun p : Vec d × Vec d => Γ t p.1 p.2)
    (ha0 : Measurable a0) (ha : ∀ t, Measurable fun p : Vec d × Vec d => a t p.1 p.2)
    (hc : ∀ t, Measurable fun p : Vec d × Vec d => c t p.1 p.2) (hdt : ∀ t, Measurable (dt t))
    (hL : ∀ t, (L t).det ≠ 0) (hR : ∀ t, CondResampling (R t)) (u : Fin (n + 1) → Vec d) :
    (atp2Sys Γ0 Γ a0 a c B L s d0 dt R u).OK := by
  have hM := atp2Sys_meas (N := N) (B := B) (L := L) (s := s) (d0 := d0) h0 h ha0 ha hc hdt hR
  exact {
  G0_ker := by
    have := isKer_density (lam := volume) (g := fun _ : Unit => augG0 Γ0 a0 s u) (by fun_prop)
    refine (this.bind (F := fun _ x => pure ((0 : Vec d), x)) (IsKer.pure (by fun_prop))).congr fun _ f hf => rfl
  G_ker t := by
    have := isKer_density (lam := volume) (g := s2G Γ a0 a c s u t) (measurable_s2G h ha0 ha hc s t measurable_const
      (by fun_prop) (by fun_prop))
    refine (this.bind (F := fun y x => pure (y.2, x)) (IsKer.pure (by fun_prop))).congr fun _ f hf => rfl
  Q0_ker := hM.Q0_ker.comp
    (g := fun p : Fin (N + 1) × Vec d × Vec d => (u, p)) (by fun_prop)
  Q_ker t := (hM.Q_ker t).comp
    (g := fun p : PA (Vec d × Vec d) N × Fin (N + 1) × Vec d × Vec d => (u, p)) (by fun_prop)
  Q0_mass b x := by
    have := gaussP_mass (N := N) (hL 0) (fun _ => d0 + B 0 *ᵥ u 0)
    exact this
  Q_mass t Y b x := by
    have := gaussP_mass (N := N) (hL t.succ) (fun i => dt t (Y i).2 + B t.succ *ᵥ u t.succ)
    exact this
  LW0_meas := by
    have := hM.LW0_meas.comp (measurable_const.prodMk measurable_id : Measurable fun p : PA (Vec d × Vec d) N => (u, p))
    exact this
  LW_meas t := by
    have := (hM.LW_meas t).comp (measurable_const.prodMk measurable_id :
      Measurable fun p : PA (Vec d × Vec d) N × PA (Vec d × Vec d) N => (u, p))
    exact this
  R_ok := hR
  Z0_ker := ((gaussP_ker (N := N) (L 0)).comp (g := fun _ : Unit => fun _ => d0 + B 0 *ᵥ u 0) measurable_const).bind
    (F := fun _ (Xs : PA (Vec d) N) => pure (fun i => ((0 : Vec d), Xs i)))
    (IsKer.pure (g := fun p : Unit × PA (Vec d) N => fun i => ((0 : Vec d), p.2 i))
      (measurable_pairUp (y := fun _ _ => 0) measurable_const (by fun_prop)))
  Z_ker t := ((gaussP_ker (N := N) (L t.succ)).comp
    (g := fun (Y : PA (Vec d × Vec d) N) i => dt t (Y i).2 + B t.succ *ᵥ u t.succ)
      (atp_mean_meas (B := B) (u := fun _ => u) (Y := fun (Y : PA (Vec d × Vec d) N) i => (Y i).2) hdt t
        measurable_const (by fun_prop))).bind
    (F := fun (Y : PA (Vec d × Vec d) N) (Xs : PA (Vec d) N) => pure (fun i => ((Y i).2, Xs i)))
    (IsKer.pure (g := fun p : PA (Vec d × Vec d) N × PA (Vec d) N => fun i => ((p.1 i).2, p.2 i))
      (measurable_pairUp (y := fun (p : PA (Vec d × Vec d) N × PA (Vec d) N) i => (p.1 i).2) (X := fun p => p.2)
        (by fun_prop) (by fun_prop)))
  id0 b f hf := by
    have hf' : Measurable (Function.uncurry fun (x : Vec d) (Xs : PA (Vec d) N) => f (0, x) (fun i => (0, Xs i))) := by
      have e : Measurable fun p : Vec d × PA (Vec d) N => fun i => ((0 : Vec d), p.2 i) :=
        measurable_pairUp (y := fun _ _ => 0) measurable_const (by fun_prop)
      exact hf.comp ((by fun_prop : Measurable fun p : Vec d × PA (Vec d) N => ((0 : Vec d), p.1)).prodMk e)
    have := (gaussP_samplesFrom (N := N) (hL 0) (fun _ => d0 + B 0 *ᵥ u 0)).conditional (g := augG0 Γ0 a0 s u)
      (by fun_prop) b (fun x Xs => f (0, x) (fun i => (0, Xs i))) hf'
    exact this
  idt t Y b f hf := by
    have hf' : Measurable (Function.uncurry fun (x : Vec d) (Xs : PA (Vec d) N) =>
        f ((Y b).2, x) (fun i => ((Y i).2, Xs i))) := by
      have e : Measurable fun p : Vec d × PA (Vec d) N => fun i => ((Y i).2, p.2 i) :=
        measurable_pairUp (y := fun _ i => (Y i).2) measurable_const (by fun_prop)
      exact hf.comp ((by fun_prop : Measurable fun p : Vec d × PA (Vec d) N => ((Y b).2, p.1)).prodMk e)
    have := (gaussP_samplesFrom (N := N) (hL t.succ) (fun i => dt t (Y i).2 + B t.succ *ᵥ u t.succ)).conditional
      (g := s2G Γ a0 a c s u t (Y b))
      (measurable_s2G h ha0 ha hc s t measurable_const measurable_const (by fun_prop)) b
      (fun x Xs => f ((Y b).2, x) (fun i => ((Y i).2, Xs i))) hf'
    exact this }

end

section program
variable {MP RP : Type} {M : GaussModel MP RP (n + 2) d}
  {rt_grad0 : Vec d → Vec d → RP → Vec d} {prop : Fin (n + 3) → PropParams d} {ells deltas : Fin (n + 3) → ℝ}

/-- `Gamma_0_tilde` is the initial increment of the target given the auxiliary variables, up to a constant. -/
theorem atpsGamma0_eq {n : ℕ} {M : GaussModel MP RP n d} {ells : Fin (n + 1) → ℝ} (hells : ∀ t, 0 < ells t)
    (deltas : Fin (n + 1) → ℝ) (u : Fin (n + 1) → Vec d) (x : Vec d) :
    atpsGamma0Tilde M x (deltas 0) (ells 0) (u 0) =
      augG0 (tpGamma_0 M.mu0 (invChol M.P0) M.r0) (alsA0 M.r0_grad deltas) (auxStd ells) u x + isoC d (auxStd ells 0) := by
  have m1 : alsMean x (deltas 0) (M.r0_grad x) = x + alsA0 M.r0_grad deltas x := rfl
  simp only [atpsGamma0Tilde, m1, alsCorrection_eq hells, augG0, tpGamma_0]
  ring

/-- `Gamma_1_tilde` is the first increment. -/
theorem atpsGamma1_eq {n : ℕ} {M : GaussModel MP RP (n + 1) d} {ells : Fin (n + 2) → ℝ} (hells : ∀ t, 0 < ells t)
    (deltas : Fin (n + 2) → ℝ) (u : Fin (n + 2) → Vec d) (y : Vec d × Vec d) (x : Vec d) :
    atpsGamma1Tilde M rt_grad0 y.2 x (atpsParams1 M deltas ells u).1 (atpsParams1 M deltas ells u).2 =
      s2G (tpGam M) (alsA0 M.r0_grad deltas) (alsA M.rt_grad M.rt_params deltas) (alsC rt_grad0 M.rt_params deltas)
        (auxStd ells) u 0 y x + isoC d (auxStd ells 1) := by
  have h := alsGamma1_eq (Gamma0_grad := M.r0_grad) (Gammat := M.rt) (Gammat_grad0 := rt_grad0)
    (Gammat_grad1 := M.rt_grad) hells deltas M.rt_params u y x
  have e1 : atpsGamma1Tilde M rt_grad0 y.2 x (atpsParams1 M deltas ells u).1 (atpsParams1 M deltas ells u).2 =
      alsGamma1Tilde M.r0_grad M.rt rt_grad0 M.rt_grad y.2 x (alsParams1 deltas ells u M.rt_params).1
        (alsParams1 deltas ells u M.rt_params).2 +
          mvn_logpdf x (M.mu y.2 (M.mu_params 0)) 0 (some (invChol (M.Qs 0))) false := by
    simp only [atpsGamma1Tilde, alsGamma1Tilde, atpsParams1, alsParams1]
    ring
  rw [e1, h]
  simp only [s2G, tpGam, tpGamma_t]
  ring

/-- `Gamma_t_tilde` is a later increment. -/
theorem atpsGammat_eq {n : ℕ} {M : GaussModel MP RP (n + 1) d} {ells : Fin (n + 2) → ℝ} (hells : ∀ t, 0 < ells t)
    (deltas : Fin (n + 2) → ℝ) (u : Fin (n + 2) → Vec d) (t : Fin n) (y : Vec d × Vec d) (x : Vec d) :
    atpsGammatTilde M rt_grad0 y.1 y.2 x (atpsParams M deltas ells u t.castSucc) (atpsParams M deltas ells u t.succ) =
      s2G (tpGam M) (alsA0 M.r0_grad deltas) (alsA M.rt_grad M.rt_params deltas) (alsC rt_grad0 M.rt_params deltas)
        (auxStd ells) u t.succ y x + isoC d (auxStd ells t.succ.succ) := by
  have h := alsGammat_eq (Gamma0_grad := M.r0_grad) (Gammat := M.rt) (Gammat_grad0 := rt_grad0)
    (Gammat_grad1 := M.rt_grad) hells deltas M.rt_params u t y x
  have e1 : atpsGammatTilde M rt_grad0 y.1 y.2 x (atpsParams M deltas ells u t.castSucc)
        (atpsParams M deltas ells u t.succ) =
      alsGammatTilde M.rt rt_grad0 M.rt_grad y.1 y.2 x (alsParams deltas ells u M.rt_params t.castSucc)
        (alsParams deltas ells u M.rt_params t.succ) +
          mvn_logpdf x (M.mu y.2 (M.mu_params t.succ)) 0 (some (invChol (M.Qs t.succ))) false := by
    simp only [atpsGammatTilde, alsGammatTilde, atpsParams, alsParams]
    ring
  rw [e1, h]
  simp only [s2G, tpGam, tpGamma_t]
  ring

/-- The resampling of the code. -/
def atpsR (key : Key) (resampling : Resampling Ex N) :
    Fin (n + 2) → (Fin (N + 1) → ℝ) → Fin (N + 1) → Fin (N + 1) → Ex (Anc N) :=
  insert0 (fun w i j => resampling (keysResampling key (n + 2) 0) w i j true)
    (fun t w i j => resampling (splitKey (keysResampling key (n + 2) t.succ) 2 0) w i j true)

/-- The log-weights of the code. -/
noncomputable def atpsLW (prop : Fin (n + 3) → PropParams d) (M : GaussModel MP RP (n + 2) d)
    (rt_grad0 : Vec d → Vec d → RP → Vec d) (ells deltas : Fin (n + 3) → ℝ) (u : Fin (n + 3) → Vec d) :
    Fin (n + 2) → PA (Vec d × Vec d) N → PA (Vec d × Vec d) N → Fin (N + 1) → ℝ :=
  insert0 (fun Y Xs i => atpsGamma1Tilde M rt_grad0 (Y i).2 (Xs i).2 (atpsParams1 M deltas ells u).1
      (atpsParams1 M deltas ells u).2 - atpMt_logpdf M.mu (Y i).2 (Xs i).2 (atpsMtParams M prop u 0))
    (fun t Y Xs i => atpsGammatTilde M rt_grad0 (Y i).1 (Y i).2 (Xs i).2 (atpsParams M deltas ells u t.castSucc)
      (atpsParams M deltas ells u t.succ) - atpMt_logpdf M.mu (Y i).2 (Xs i).2 (atpsMtParams M prop u t.succ))

/-- The system of the code: proposals and log-weights as it computes them, with the reference written in. -/
noncomputable def atpsCode (S : Sys (Vec d × Vec d) N (n + 2)) (prop : Fin (n + 3) → PropParams d)
    (M : GaussModel MP RP (n + 2) d) (rt_grad0 : Vec d → Vec d → RP → Vec d) (ells deltas : Fin (n + 3) → ℝ)
    (key : Key) (resampling : Resampling Ex N) (u : Fin (n + 3) → Vec d) : Sys (Vec d × Vec d) N (n + 2) :=
  { S with
    Q0 := fun b z => atpM0_rvs [] (N + 1) (u 0) M.mu0 (prop 0).K_1 (prop 0).K_2 (prop 0).chol >>= fun Xs =>
      pure (fun i => (0, atSet Xs b z.2 i))
    LW0 := fun Xs i => atpsGamma0Tilde M (Xs i).2 (deltas 0) (ells 0) (u 0) -
      atpM0_logpdf (Xs i).2 (u 0) M.mu0 (prop 0).K_1 (prop 0).K_2 (prop 0).chol_inv
    Q := fun t Y b z => atpMt_rvs M.mu [] (fun i => (Y i).2) (atpsMtParams M prop u t) >>= fun Xs =>
      pure (fun i => ((Y i).2, atSet Xs b z.2 i))
    LW := atpsLW prop M rt_grad0 ells deltas u
    R := atpsR key resampling }

/-- What the forward pass saves, given the history of the run. -/
noncomputable def atpsSaved (S : Sys (Vec d × Vec d) N (n + 2)) (par : Parents1 N d)
    (h : Hist (Vec d × Vec d) N (n + 2)) : AlsFwd N n d where
  xs := fun t i => (h.2 t i).2
  log_ws := insert0 (fun i => S.LW0 (h.2 0) i - maxA (S.LW0 (h.2 0)))
    (fun t => insert0 (fun v => v) (fun _ v i => v i - maxA v) t
      (S.LW t (take (h.2 t.castSucc) (h.1 t)) (h.2 t.succ)))
  As := h.1
  xs_m_1 := insert0 (par (fun i => (h.2 1 i).1) (h.1 1)) (fun t i => (h.2 t.succ.succ i).1)

theorem atpsSaved_sameWeights (S : Sys (Vec d × Vec d) N (n + 2)) (par : Parents1 N d)
    (h : Hist (Vec d × Vec d) N (n + 2)) : SameWeights (atpsSaved S par h).log_ws (S.lws h) := by
  intro t
  refine Fin.cases ?_ (fun t => ?_) t
  · refine ⟨-maxA (S.LW0 (h.2 0)), fun i => ?_⟩
    rw [S.lws_zero]
    rfl
  · refine Fin.cases ?_ (fun t => ?_) t
    · refine ⟨0, fun i => ?_⟩
      rw [S.lws_succ, add_zero]
      rfl
    · refine ⟨-maxA (S.LW t.succ (take (h.2 t.succ.castSucc) (h.1 t.succ)) (h.2 t.succ.succ)), fun i => ?_⟩
      rw [S.lws_succ]
      rfl

/-- The forward pass with the reference written in. -/
theorem atps_forwardWith_eq (par : Parents1 N d) (key : Key) (x : Fin (n + 3) → Vec d)
    (b : Fin (n + 3) → Fin (N + 1)) (resampling : Resampling Ex N) (u : Fin (n + 3) → Vec d)
    (S0 S : Sys (Vec d × Vec d) N (n + 2)) (hS : S = atpsCode S0 prop M rt_grad0 ells deltas key resampling u) :
    (atpsForwardWith (fun Xs b x => atSet Xs b x) par prop M rt_grad0 key x b ells deltas resampling u : Ex _) =
      S.fwd b (lift2 0 x) >>= fun h => pure (atpsSaved S par h) := by
  have hQ0 : S.Q0 (b 0) (lift2 0 x 0) = atpM0_rvs [] (N + 1) (u 0) M.mu0 (prop 0).K_1 (prop 0).K_2 (prop 0).chol >>=
      fun Xs => pure (fun i => (0, atSet Xs (b 0) (x 0) i)) := by subst hS; rfl
  have hQ : ∀ t Y, S.Q t Y (b t.succ) (lift2 0 x t.succ) =
      atpMt_rvs M.mu [] (fun i => (Y i).2) (atpsMtParams M prop u t) >>= fun Xs =>
        pure (fun i => ((Y i).2, atSet Xs (b t.succ) (x t.succ) i)) := by
    subst hS; intro t Y; rfl
  have hLW0 : ∀ (Xs : PA (Vec d) N) i, atpsGamma0Tilde M (Xs i) (deltas 0) (ells 0) (u 0) -
      atpM0_logpdf (Xs i) (u 0) M.mu0 (prop 0).K_1 (prop 0).K_2 (prop 0).chol_inv =
      S.LW0 (fun i => (0, Xs i)) i := by subst hS; intro Xs i; rfl
  have hLW1 : ∀ (Y : PA (Vec d × Vec d) N) (Xs : PA (Vec d) N), (fun i => atpsGamma1Tilde M rt_grad0 (Y i).2 (Xs i)
      (atpsParams1 M deltas ells u).1 (atpsParams1 M deltas ells u).2 -
        atpMt_logpdf M.mu (Y i).2 (Xs i) (atpsMtParams M prop u 0)) =
      S.LW 0 Y (fun i => ((Y i).2, Xs i)) := by subst hS; intro Y Xs; rfl
  have hLWt : ∀ (t : Fin (n + 1)) (Y : PA (Vec d × Vec d) N) (Xs : PA (Vec d) N), (fun i =>
      atpsGammatTilde M rt_grad0 (Y i).1 (Y i).2 (Xs i) (atpsParams M deltas ells u t.castSucc)
      (atpsParams M deltas ells u t.succ) - atpMt_logpdf M.mu (Y i).2 (Xs i) (atpsMtParams M prop u t.succ)) =
      S.LW t.succ Y (fun i => ((Y i).2, Xs i)) := by subst hS; intro t Y Xs; rfl
  have hR0 : ∀ w i j, S.R 0 w i j = resampling (keysResampling key (n + 2) 0) w i j true := by
    subst hS; intro w i j; rfl
  have hRt : ∀ (t : Fin (n + 1)) w i j, S.R t.succ w i j =
      resampling (splitKey (keysResampling key (n + 2) t.succ) 2 0) w i j true := by
    subst hS; intro t w i j; rfl
  clear hS
  let mkO : Fin (n + 2) → PA (Vec d × Vec d) N → Anc N → PA (Vec d × Vec d) N →
      (Fin (N + 1) → ℝ) × Anc N × PA (Vec d) N × PA (Vec d) N := fun t y a Xs =>
    (insert0 (fun v => v) (fun _ v i => v i - maxA v) t (S.LW t (take y a) Xs), a, fun i => (Xs i).1, fun i => (Xs i).2)
  let body : (Fin (N + 1) → ℝ) × PA (Vec d × Vec d) N → Fin (n + 2) →
      Ex (((Fin (N + 1) → ℝ) × PA (Vec d × Vec d) N) × ((Fin (N + 1) → ℝ) × Anc N × PA (Vec d) N × PA (Vec d) N)) :=
    fun c t => do
    let a ← S.R t c.1 (b t.castSucc) (b t.succ)
    let Xs ← S.Q t (take c.2 a) (b t.succ) (lift2 0 x t.succ)
    pure ((normalizeW (S.LW t (take c.2 a) Xs), Xs), mkO t c.2 a Xs)
  have h1 := scan_eq_fwd S b (lift2 0 x) body (fun t => t) mkO (fun t w y => rfl) (fun x0 r =>
    (pure { xs := insert0 (fun i => (x0 i).2) (fun t => (r.2 t).2.2.2)
            log_ws := insert0 (fun i => S.LW0 x0 i - maxA (S.LW0 x0)) (fun t => (r.2 t).1)
            As := fun t => (r.2 t).2.1
            xs_m_1 := insert0 (par (r.2 0).2.2.1 (r.2 1).2.1)
              (fun t => (r.2 t.succ).2.2.1) } : Ex (AlsFwd N n d)))
  suffices hh : (atpsForwardWith (fun Xs b x => atSet Xs b x) par prop M rt_grad0 key x b ells deltas resampling u :
      Ex _) = _ from by
    refine (hh.trans h1).trans ?_
    refine congrArg (Bind.bind (m := Ex) _) (funext fun h => congrArg _ ?_)
    unfold atpsSaved
    congr 1
    funext t i
    refine Fin.cases rfl (fun t => rfl) t
  -- the first step
  have hb : ∀ (w : Fin (N + 1) → ℝ) (X0 : PA (Vec d) N), body (w, fun i => (0, X0 i)) 0 = (do
      let a ← resampling (keysResampling key (n + 2) 0) w (b 0) (b 1) true
      let x1 ← atpMt_rvs M.mu [] (take X0 a) (atpsMtParams M prop u 0)
      (pure ((normalizeW (fun i => atpsGamma1Tilde M rt_grad0 (take X0 a i) (atSet x1 (b 1) (x 1) i)
          (atpsParams1 M deltas ells u).1 (atpsParams1 M deltas ells u).2 -
            atpMt_logpdf M.mu (take X0 a i) (atSet x1 (b 1) (x 1) i) (atpsMtParams M prop u 0)),
          fun i => (take X0 a i, atSet x1 (b 1) (x 1) i)),
        (fun i => atpsGamma1Tilde M rt_grad0 (take X0 a i) (atSet x1 (b 1) (x 1) i)
          (atpsParams1 M deltas ells u).1 (atpsParams1 M deltas ells u).2 -
            atpMt_logpdf M.mu (take X0 a i) (atSet x1 (b 1) (x 1) i) (atpsMtParams M prop u 0), a, take X0 a,
          atSet x1 (b 1) (x 1))) : Ex _)) := by
    intro w X0
    show (S.R 0 w (b 0) (b 1) >>= fun a => S.Q 0 (take (fun i => (0, X0 i)) a) (b (Fin.succ 0))
      (lift2 0 x (Fin.succ 0)) >>= fun Xs => _) = _
    rw [hR0]
    refine congrArg (Bind.bind (m := Ex) _) (funext fun a => ?_)
    rw [hQ, bind_assoc]
    refine congrArg (Bind.bind (m := Ex) _) (funext fun x1 => ?_)
    rw [pure_bind]
    have e := hLW1 (take (fun i => (0, X0 i)) a) (atSet x1 (b 1) (x 1))
    show (pure ((normalizeW (S.LW 0 (take (fun i => (0, X0 i)) a) fun i =>
      ((take (fun i => ((0 : Vec d), X0 i)) a i).2, atSet x1 (b 1) (x 1) i)), _),
      (S.LW 0 (take (fun i => (0, X0 i)) a) fun i =>
      ((take (fun i => ((0 : Vec d), X0 i)) a i).2, atSet x1 (b 1) (x 1) i)), _, _) : Ex _) = _
    rw [← e]
    rfl
  have hscan : ∀ c : AlsCarry N d, scanM body (c.w, fun i => (c.x2 i, c.x1 i)) (tailA fun t : Fin (n + 2) => t) =
      scanM (atpsBodyWith (fun Xs b x => atSet Xs b x) M rt_grad0 resampling) c
        (fun t => (atpsInputs key (atpsMtParams M prop u) (atpsParams M deltas ells u) b t, tailA (tailA x) t)) >>=
          fun r => pure ((r.1.w, fun i => (r.1.x2 i, r.1.x1 i)), r.2) := by
    intro c
    refine scanM_simulate (m := Ex) (atpsBodyWith (fun Xs b x => atSet Xs b x) M rt_grad0 resampling) body
      (fun c => (c.w, fun i => (c.x2 i, c.x1 i))) _ _ (fun t c => ?_) c
    show (S.R t.succ c.w (b t.succ.castSucc) (b t.succ.succ) >>= fun a =>
      S.Q t.succ (take (fun i => (c.x2 i, c.x1 i)) a) (b t.succ.succ)
      (lift2 0 x t.succ.succ) >>= fun Xs => _) = (resampling (splitKey (keysResampling key (n + 2) t.succ) 2 0) c.w
        (b t.succ.castSucc) (b t.succ.succ) true >>= fun a => atpMt_rvs M.mu [] (take c.x1 a)
          (atpsMtParams M prop u t.succ) >>= fun Xs => (pure _ : Ex _)) >>= fun r => _
    rw [hRt, bind_assoc]
    refine congrArg (Bind.bind (m := Ex) _) (funext fun a => ?_)
    rw [hQ, bind_assoc, bind_assoc]
    refine congrArg (Bind.bind (m := Ex) _) (funext fun Xs => ?_)
    rw [pure_bind, pure_bind]
    have e := hLWt t (take (fun i => (c.x2 i, c.x1 i)) a) (atSet Xs (b t.succ.succ) (x t.succ.succ))
    have e2 := normalize_congr_const (N := N) (l := fun i => S.LW t.succ (take (fun i => (c.x2 i, c.x1 i)) a)
      (fun i => ((take (fun i => (c.x2 i, c.x1 i)) a i).2, atSet Xs (b t.succ.succ) (x t.succ.succ) i)) i - maxA (S.LW t.succ
        (take (fun i => (c.x2 i, c.x1 i)) a)
      (fun i => ((take (fun i => (c.x2 i, c.x1 i)) a i).2, atSet Xs (b t.succ.succ) (x t.succ.succ) i))))
      ⟨_, fun i => sub_eq_add_neg _ _⟩
    show (pure ((normalizeW (S.LW t.succ (take (fun i => (c.x2 i, c.x1 i)) a)
      (fun i => ((take (fun i => (c.x2 i, c.x1 i)) a i).2, atSet Xs (b t.succ.succ) (x t.succ.succ) i))), _),
      (fun i => S.LW t.succ (take (fun i => (c.x2 i, c.x1 i)) a)
      (fun i => ((take (fun i => (c.x2 i, c.x1 i)) a i).2, atSet Xs (b t.succ.succ) (x t.succ.succ) i)) i - maxA (S.LW t.succ
        (take (fun i => (c.x2 i, c.x1 i)) a)
      (fun i => ((take (fun i => (c.x2 i, c.x1 i)) a i).2, atSet Xs (b t.succ.succ) (x t.succ.succ) i)))), _, _) : Ex _) = _
    rw [← e2, ← e]
    rfl
  rw [hQ0, bind_assoc]
  unfold atpsForwardWith
  refine congrArg (Bind.bind (m := Ex) _) (funext fun X0 => ?_)
  rw [pure_bind, scanM_succ]
  have e0 : normalizeW (S.LW0 (fun i => (0, atSet X0 (b 0) (x 0) i))) = normalizeW (fun i =>
      S.LW0 (fun i => (0, atSet X0 (b 0) (x 0) i)) i - maxA (S.LW0 (fun i => (0, atSet X0 (b 0) (x 0) i)))) :=
    (normalize_congr_const ⟨_, fun i => sub_eq_add_neg _ _⟩).symm
  rw [e0, hb]
  simp only [bind_assoc, pure_bind, hLW0]
  refine congrArg (Bind.bind (m := Ex) _) (funext fun a => ?_)
  refine congrArg (Bind.bind (m := Ex) _) (funext fun x1 => ?_)
  have hs := hscan ⟨normalizeW (fun i => atpsGamma1Tilde M rt_grad0 (take (atSet X0 (b 0) (x 0)) a i)
        (atSet x1 (b 1) (x 1) i) (atpsParams1 M deltas ells u).1 (atpsParams1 M deltas ells u).2 -
          atpMt_logpdf M.mu (take (atSet X0 (b 0) (x 0)) a i) (atSet x1 (b 1) (x 1) i) (atpsMtParams M prop u 0)),
      atSet x1 (b 1) (x 1), take (atSet X0 (b 0) (x 0)) a⟩
  simp only at hs
  refine Eq.trans ?_ (congrArg (fun z => z >>= _) hs).symm
  simp only [bind_assoc, pure_bind]
  refine congrArg (Bind.bind (m := Ex) _) (funext fun r => ?_)
  have k : ∀ {β : Type} (g : ((Fin (N + 1) → ℝ) × Anc N × PA (Vec d) N × PA (Vec d) N) → β)
      (p : ((Fin (N + 1) → ℝ) × Anc N × PA (Vec d) N × PA (Vec d) N)) (q : Fin (n + 1) → ((Fin (N + 1) → ℝ) × Anc N ×
      PA (Vec d) N × PA (Vec d) N)), (fun t => g (insert0 p q t)) = insert0 (g p) (fun t => g (q t)) := fun g p q => by
    funext t; refine Fin.cases rfl (fun t => rfl) t
  rw [k (fun z => z.1), k (fun z => z.2.1), k (fun z => z.2.2.2)]
  rfl

end program

end Verif
