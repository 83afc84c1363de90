import Verif.Props.SmoothingRuns
import Verif.Props.Smoothing
import Verif.Spec.Lineage

/-!
# C64: what the log-weights are
-/

namespace Verif.Props
open Verif Verif.Model Verif.Spec Verif.Poss

variable {N n d : ℕ} {X P G MP RP : Type}

/-- A scan whose steps save enough to recover the next carry. -/
theorem always_scanM_carry {C I O : Type} {body : C → I → Poss (C × O)} (next : I → O → C) (Q : I → C → O → Prop)
    (h : ∀ c i, Always (body c i) (fun r => r.1 = next i r.2 ∧ Q i c r.2)) {n : ℕ} (c : C) (inp : Fin n → I) :
    Always (scanM body c inp) (fun r => ∀ t : Fin n, Q (inp t) (insert0 c (fun t => next (inp t) (r.2 t)) t.castSucc)
      (r.2 t)) := by
  induction n generalizing c with
  | zero => exact always_pure fun t => t.elim0
  | succ n ih =>
    rw [scanM_succ]
    refine always_bind (h c (inp 0)) fun r hr => always_bind (ih r.1 (tailA inp)) fun rs hrs => always_pure fun t => ?_
    refine Fin.cases hr.2 (fun t => ?_) t
    have := hrs t
    rw [hr.1] at this
    refine Eq.mp ?_ this
    congr 1
    show insert0 (next (inp 0) r.2) (fun t => next (tailA inp t) (rs.2 t)) t.castSucc =
      next (inp t.castSucc) (insert0 (α := O) r.2 rs.2 t.castSucc)
    generalize t.castSucc = s
    refine Fin.cases rfl (fun s => rfl) s

theorem normalizeW_weightsOf (lw : Fin (N + 1) → ℝ) : normalizeW lw = weightsOf lw := funext fun i => normalize_eq lw i

/-- Exponentials of normalised log-weights. -/
theorem exp_normalizeLog (lw : Fin (N + 1) → ℝ) :
    (fun i => Real.exp (normalizeLog lw i)) = normalizeW (normalizeLog lw) := (normalize_normalizeLog lw).symm

theorem LineageWeight.congr {x : Fin (n + 1) → Fin (N + 1) → X} {A : Fin n → Fin (N + 1) → Fin (N + 1)}
    {lw : Fin (n + 1) → Fin (N + 1) → ℝ} {f g : (Fin (n + 1) → X) → ℝ} (h : ∀ y, f y = g y)
    (hf : LineageWeight x A lw g) : LineageWeight x A lw f := (funext h : f = g) ▸ hf

/-- Weights that are right at every time up to a constant of that time are right along every lineage. -/
theorem lineageWeight_of {x : Fin (n + 1) → Fin (N + 1) → X} {A : Fin n → Fin (N + 1) → Fin (N + 1)}
    {lw : Fin (n + 1) → Fin (N + 1) → ℝ} (f : (Fin (n + 1) → X) → ℝ) (g : Fin (n + 1) → (Fin (n + 1) → X) → ℝ)
    (hf : ∀ y, f y = ∑ t, g t y)
    (h : ∀ t, ∃ c, ∀ b, Lineage A b → lw t (b t) = g t (fun t => x t (b t)) - c) : LineageWeight x A lw f := by
  choose c hc using h
  refine ⟨∑ t, c t, fun b hb => ?_⟩
  rw [hf, ← Finset.sum_sub_distrib]
  exact Finset.sum_congr rfl fun t _ => hc t b hb

/-- C64 (`csmc.forward_pass`, conditional or not): when the proposal log-densities act particle by particle, the
log-weights along every lineage sum to `log Gamma - log proposal` of its trajectory, and every resampling step is done
with the probabilities proportional to the exponentials of the log-weights of its time. -/
theorem C64_csmc (key : Key) (xstar : Fin (n + 1) → X) (bstar : Fin (n + 1) → Fin (N + 1)) (M : FK Poss X P G N)
    (Mparams : Fin n → P) (Gparams : Fin n → G) (resampling : Resampling Poss N) (conditional : Bool)
    (l0 : X → ℝ) (l : X → X → P → ℝ) (h0 : ∀ x i, M.M0_logpdf x i = l0 (x i))
    (h : ∀ x y p i, M.Mt_logpdf x y p i = l (x i) (y i) p)
    (Φ : (Fin (N + 1) → ℝ) → (Fin (N + 1) → Fin (N + 1)) → Prop)
    (hΦ : ∀ key w i j, Always (resampling key w i j conditional) (Φ w)) :
    Always (forward_pass key xstar bstar M Mparams Gparams resampling conditional) (fun F =>
      LineageWeight F.xs F.As F.log_ws (fun x =>
        (M.Gamma0 (x 0) - l0 (x 0)) +
          ∑ t : Fin n, (M.Gammat (x t.castSucc) (x t.succ) (Gparams t) - l (x t.castSucc) (x t.succ) (Mparams t))) ∧
      ∀ t : Fin n, Φ (weightsOf (F.log_ws t.castSucc)) (F.As t)) := by
  refine always_bind' fun x0 => ?_
  refine always_bind (always_scanM_carry
    (fun _ o => (weightsOf o.1, o.2.2))
    (fun (inp : FwdInp X P G N) (c : (Fin (N + 1) → ℝ) × (Fin (N + 1) → X))
        (o : (Fin (N + 1) → ℝ) × (Fin (N + 1) → Fin (N + 1)) × (Fin (N + 1) → X)) =>
      (∃ k, ∀ i, o.1 i = M.Gammat (c.2 (o.2.1 i)) (o.2.2 i) inp.Gparams -
        l (c.2 (o.2.1 i)) (o.2.2 i) inp.Mparams - k) ∧ Φ c.1 o.2.1) (fun c i => ?_) _ _) fun r hr => ?_
  · refine always_bind (hΦ _ _ _ _) fun A hA => always_bind' fun x => always_pure ⟨?_, ?_, hA⟩
    · refine Prod.ext ?_ rfl
      exact (exp_normalizeLog _).trans (normalizeW_weightsOf _)
    · exact ⟨_, fun i => by simp only [normalizeLog, h]; rfl⟩
  · set y0 := if conditional = true then atSet x0 (bstar 0) (xstar 0) else x0 with hy0
    have hc : ∀ t : Fin n, insert0
        ((fun i => Real.exp (normalizeLog (fun i => M.Gamma0 (y0 i) - M.M0_logpdf y0 i) i)), y0)
        (fun t => (weightsOf (r.2 t).1, (r.2 t).2.2)) t.castSucc =
        (weightsOf (insert0 (α := Fin (N + 1) → ℝ) (normalizeLog (fun i => M.Gamma0 (y0 i) - M.M0_logpdf y0 i))
          (fun t => (r.2 t).1) t.castSucc),
          insert0 (α := Fin (N + 1) → X) y0 (fun t => (r.2 t).2.2) t.castSucc) := by
      intro t
      generalize t.castSucc = s
      refine Fin.cases ?_ (fun s => rfl) s
      exact Prod.ext ((exp_normalizeLog _).trans (normalizeW_weightsOf _)) rfl
    refine always_pure ⟨?_, fun t => ?_⟩
    · refine lineageWeight_of _ (fun t x => insert0 (α := ℝ) (M.Gamma0 (x 0) - l0 (x 0)) (fun t : Fin n =>
        M.Gammat (x t.castSucc) (x t.succ) (Gparams t) - l (x t.castSucc) (x t.succ) (Mparams t)) t)
        (fun y => by rw [Fin.sum_univ_succ]; rfl) fun t => ?_
      refine Fin.cases ?_ (fun t => ?_) t
      · refine ⟨logsumexp (fun i => M.Gamma0 (y0 i) - l0 (y0 i)), fun b _ => ?_⟩
        show (M.Gamma0 (y0 (b 0)) - M.M0_logpdf y0 (b 0)) - logsumexp (fun i => M.Gamma0 (y0 i) - M.M0_logpdf y0 i) =
          (M.Gamma0 (y0 (b 0)) - l0 (y0 (b 0))) - _
        simp only [h0]
      · obtain ⟨k, hk⟩ := (hr t).1
        rw [hc t] at hk
        refine ⟨k, fun b hb => (hk (b t.succ)).trans ?_⟩
        show _ = M.Gammat (insert0 (α := Fin (N + 1) → X) y0 (fun t => (r.2 t).2.2) t.castSucc (b t.castSucc))
            ((r.2 t).2.2 (b t.succ)) (Gparams t) -
          l (insert0 (α := Fin (N + 1) → X) y0 (fun t => (r.2 t).2.2) t.castSucc (b t.castSucc))
            ((r.2 t).2.2 (b t.succ)) (Mparams t) - k
        rw [hb t]
        rfl
    · have h2 := (hr t).2
      rw [hc t] at h2
      exact h2

theorem sum_insert0 {k : ℕ} (a : ℝ) (f : Fin k → ℝ) : ∑ t, insert0 (α := ℝ) a f t = a + ∑ t, f t := by
  rw [Fin.sum_univ_succ]
  rfl

/-- Lineages of particles weighted with their parents and grandparents. -/
theorem lineageWeight2_of {x : Fin (n + 3) → Fin (N + 1) → X} {A : Fin (n + 2) → Fin (N + 1) → Fin (N + 1)}
    {lw : Fin (n + 3) → Fin (N + 1) → ℝ} (g0 : X → ℝ) (g1 : X → X → ℝ) (g : Fin (n + 1) → X → X → X → ℝ)
    (h0 : ∃ k, ∀ i, lw 0 i = g0 (x 0 i) - k) (h1 : ∃ k, ∀ i, lw 1 i = g1 (x 0 (A 0 i)) (x 1 i) - k)
    (h : ∀ t : Fin (n + 1), ∃ k, ∀ i, lw t.succ.succ i = g t (x t.castSucc.castSucc (A t.castSucc (A t.succ i)))
      (x t.castSucc.succ (A t.succ i)) (x t.succ.succ i) - k) :
    LineageWeight x A lw (fun y => g0 (y 0) + g1 (y 0) (y 1) +
      ∑ t : Fin (n + 1), g t (y t.castSucc.castSucc) (y t.castSucc.succ) (y t.succ.succ)) := by
  refine lineageWeight_of _ (fun t y => insert0 (α := ℝ) (g0 (y 0)) (insert0 (g1 (y 0) (y 1)) fun t : Fin (n + 1) =>
    g t (y t.castSucc.castSucc) (y t.castSucc.succ) (y t.succ.succ)) t)
    (fun y => by rw [sum_insert0, sum_insert0, add_assoc]) fun t => ?_
  refine Fin.cases ?_ (fun t => Fin.cases ?_ (fun t => ?_) t) t
  · obtain ⟨k, hk⟩ := h0
    exact ⟨k, fun b _ => hk _⟩
  · obtain ⟨k, hk⟩ := h1
    refine ⟨k, fun b hb => (hk _).trans ?_⟩
    have := hb 0
    show _ = g1 (x 0 (b 0)) (x 1 (b 1)) - k
    rw [show b 0 = A 0 (b 1) from this]
    rfl
  · obtain ⟨k, hk⟩ := h t
    refine ⟨k, fun b hb => (hk _).trans ?_⟩
    have e1 : b t.castSucc.succ = A t.succ (b t.succ.succ) := hb t.succ
    have e2 : b t.castSucc.castSucc = A t.castSucc (b t.castSucc.succ) := hb t.castSucc
    show _ = g t (x t.castSucc.castSucc (b t.castSucc.castSucc)) (x t.castSucc.succ (b t.castSucc.succ))
      (x t.succ.succ (b t.succ.succ)) - k
    rw [e2, e1]

/-- The grandparents in the carry of the scans of `al_csmc_s` and `atp_csmc_s`. -/
theorem carry_x2 {O : Type} {x0 x1 : Fin (N + 1) → Vec d} {A0 : Fin (N + 1) → Fin (N + 1)} (r : Fin (n + 1) → O)
    (p : O → Fin (N + 1) → Vec d) (A : O → Fin (N + 1) → Fin (N + 1)) (x : Fin (n + 1) → Fin (N + 1) → Vec d)
    (w : O → Fin (N + 1) → ℝ) (c : AlsCarry N d) (hc1 : c.x1 = x1) (hc2 : c.x2 = take x0 A0)
    (h : ∀ t : Fin (n + 1), p (r t) = take (insert0 c (fun t => (⟨w (r t), x t, p (r t)⟩ : AlsCarry N d))
      t.castSucc).x1 (A (r t))) (t : Fin (n + 1)) :
    (insert0 c (fun t => (⟨w (r t), x t, p (r t)⟩ : AlsCarry N d)) t.castSucc).x2 = fun i =>
      insert0 (α := Fin (N + 1) → Vec d) x0 (insert0 x1 x) t.castSucc.castSucc
        (insert0 (α := Fin (N + 1) → Fin (N + 1)) A0 (fun t => A (r t)) t.castSucc i) := by
  refine Fin.cases hc2 (fun s => ?_) t
  show p (r s.castSucc) = _
  rw [h]
  funext i
  show (insert0 c (fun t => (⟨w (r t), x t, p (r t)⟩ : AlsCarry N d)) s.castSucc.castSucc).x1 _ =
    insert0 (α := Fin (N + 1) → Vec d) x1 x s.castSucc.castSucc _
  refine congrFun ?_ _
  generalize s.castSucc.castSucc = q
  exact Fin.cases hc1 (fun s => rfl) q

/-- C64 (`atp_csmc_s`): along every lineage the log-weights of the forward pass of Particle-aGRAD+ sum to the log-density
of the target of the model and the auxiliary variables minus the log-density of the proposals, and every resampling step
is done with the probabilities proportional to the exponentials of the log-weights of its time. -/
theorem C64_atp_csmc_s (svd : Mat d d → SvdOut d) (M : GaussModel MP RP (n + 2) d)
    (rt_grad0 : Vec d → Vec d → RP → Vec d) (key : Key) (bstar : Fin (n + 3) → Fin (N + 1))
    (ells deltas : Fin (n + 3) → ℝ) (resampling : Resampling Poss N) (u : Fin (n + 3) → Vec d)
    (Φ : (Fin (N + 1) → ℝ) → (Fin (N + 1) → Fin (N + 1)) → Prop)
    (hΦ : ∀ key w i j, Always (resampling key w i j true) (Φ w)) :
    Always (atpsForward svd M rt_grad0 key bstar ells deltas resampling u) (fun F =>
      LineageWeight F.xs F.As F.log_ws (fun x =>
        ((mvn_logpdf (x 0) M.mu0 0 (some (invChol M.P0)) false + M.r0 (x 0)) +
          ∑ t : Fin (n + 2), (mvn_logpdf (x t.succ) (M.mu (x t.castSucc) (M.mu_params t)) 0
            (some (invChol (M.Qs t))) false + M.rt (x t.castSucc) (x t.succ) (M.rt_params t)) +
          ∑ t, -(∑ j, (u t j - (x t j + deltas t / 2 *
            fullGrad M.r0_grad rt_grad0 M.rt_grad M.rt_params x t j)) ^ 2) / ells t) -
        (atpM0_logpdf (x 0) (u 0) M.mu0 (make_proposal svd M ells 0).K_1 (make_proposal svd M ells 0).K_2
            (make_proposal svd M ells 0).chol_inv +
          ∑ t : Fin (n + 2), atpMt_logpdf M.mu (x t.castSucc) (x t.succ)
            (atpsMtParams M (make_proposal svd M ells) u t))) ∧
      ∀ t : Fin (n + 2), Φ (weightsOf (F.log_ws t.castSucc)) (F.As t)) := by
  refine always_bind' fun x0 => always_bind (hΦ _ _ _ _) fun A0 hA0 => always_bind' fun x1 => ?_
  set prop := make_proposal svd M ells with hprop
  refine always_bind (always_scanM_carry (fun _ o => (⟨weightsOf o.1, o.2.2.2, o.2.2.1⟩ : AlsCarry N d))
    (fun (inp : AtpsInp MP RP N d) (c : AlsCarry N d) (o : (Fin (N + 1) → ℝ) × (Fin (N + 1) → Fin (N + 1)) ×
        (Fin (N + 1) → Vec d) × (Fin (N + 1) → Vec d)) =>
      (∃ k, ∀ i, o.1 i = atpsGammatTilde M rt_grad0 (c.x2 (o.2.1 i)) (c.x1 (o.2.1 i)) (o.2.2.2 i) inp.params_t_m_1
        inp.params_t - atpMt_logpdf M.mu (c.x1 (o.2.1 i)) (o.2.2.2 i) inp.Mt_params_t - k) ∧
      o.2.2.1 = take c.x1 o.2.1 ∧ Φ c.w o.2.1) (fun c i => ?_) _ _) fun r hr => ?_
  · refine always_bind (hΦ _ _ _ _) fun A hA => always_bind' fun x => always_pure ⟨?_, ⟨_, fun i => rfl⟩, rfl, hA⟩
    show AlsCarry.mk _ _ _ = AlsCarry.mk _ _ _
    rw [normalizeW_weightsOf]
  · have hx1 : ∀ (c : AlsCarry N d), c.x1 = x1 → ∀ t : Fin (n + 1), (insert0 (α := AlsCarry N d) c
        (fun t => ⟨weightsOf (r.2 t).1, (r.2 t).2.2.2, (r.2 t).2.2.1⟩) t.castSucc).x1 =
        insert0 (α := Fin (N + 1) → Vec d) x1 (fun t => (r.2 t).2.2.2) t.castSucc := by
      intro c hc t
      generalize t.castSucc = s
      exact Fin.cases hc (fun s => rfl) s
    have hx2 := fun t : Fin (n + 1) => carry_x2 (A0 := A0) (x0 := x0) r.2 (fun o => o.2.2.1) (fun o => o.2.1)
      (fun t => (r.2 t).2.2.2) (fun o => weightsOf o.1) _ rfl rfl (fun t => (hr t).2.1) t
    refine always_pure ⟨?_, fun t => ?_⟩
    · refine LineageWeight.congr ?_ (lineageWeight2_of
        (fun x => atpsGamma0Tilde M x (deltas 0) (ells 0) (u 0) - atpM0_logpdf x (u 0) M.mu0 (prop 0).K_1
          (prop 0).K_2 (prop 0).chol_inv)
        (fun x y => atpsGamma1Tilde M rt_grad0 x y (atpsParams1 M deltas ells u).1 (atpsParams1 M deltas ells u).2 -
          atpMt_logpdf M.mu x y (atpsMtParams M prop u 0))
        (fun t x y z => atpsGammatTilde M rt_grad0 x y z (atpsParams M deltas ells u t.castSucc)
          (atpsParams M deltas ells u t.succ) - atpMt_logpdf M.mu y z (atpsMtParams M prop u t.succ))
        ⟨_, fun i => rfl⟩ ⟨0, fun i => (sub_zero _).symm⟩ fun t => ?_)
      · intro x
        have h25 := C25_atp_csmc_s M rt_grad0 ells deltas u x
        rw [← h25, Fin.sum_univ_succ (fun t => atpMt_logpdf M.mu _ _ _), Finset.sum_sub_distrib]
        simp only [show (Fin.castSucc 0 : Fin (n + 3)) = 0 from rfl, show (Fin.succ 0 : Fin (n + 3)) = 1 from rfl,
          fun t : Fin (n + 1) => show t.succ.castSucc = t.castSucc.succ from rfl]
        ring
      · obtain ⟨k, hk⟩ := (hr t).1
        refine ⟨k, fun i => (hk i).trans ?_⟩
        rw [hx1 _ rfl t, hx2 t]
        rfl
    · refine Fin.cases ?_ (fun t => ?_) t
      · rw [normalizeW_weightsOf] at hA0
        exact hA0
      · refine Eq.mp ?_ (hr t).2.2
        congr 1
        show _ = weightsOf (insert0 (α := Fin (N + 1) → ℝ) _ (fun t => (r.2 t).1) t.castSucc)
        generalize t.castSucc = s
        exact Fin.cases (normalizeW_weightsOf _) (fun s => rfl) s

/-- C64 (`al_csmc_s`): along every lineage the log-weights of the forward pass of Particle-aMALA+ sum to the log-density
of the target and the auxiliary variables minus the log-density of the proposals around the auxiliary variables, and
every resampling step is done with the probabilities proportional to the exponentials of the log-weights of its time. -/
theorem C64_al_csmc_s {Gamma0 : Vec d → ℝ} {Gamma0_grad : Vec d → Vec d} {Gammat : Vec d → Vec d → G → ℝ}
    {Gammat_grad0 Gammat_grad1 : Vec d → Vec d → G → Vec d} (key : Key) (bstar : Fin (n + 3) → Fin (N + 1))
    (Gparams : Fin (n + 2) → G) (ells deltas : Fin (n + 3) → ℝ) (resampling : Resampling Poss N)
    (u : Fin (n + 3) → Vec d) (xs : Fin (n + 3) → Fin (N + 1) → Vec d)
    (Φ : (Fin (N + 1) → ℝ) → (Fin (N + 1) → Fin (N + 1)) → Prop)
    (hΦ : ∀ key w i j, Always (resampling key w i j true) (Φ w)) :
    Always (alsForward key bstar Gamma0 Gamma0_grad Gammat Gammat_grad0 Gammat_grad1 Gparams ells deltas resampling
      u xs) (fun F =>
      LineageWeight F.xs F.As F.log_ws (fun x =>
        (Gamma0 (x 0) + ∑ t : Fin (n + 2), Gammat (x t.castSucc) (x t.succ) (Gparams t) +
          ∑ t, -(∑ j, (u t j - (x t j + deltas t / 2 *
            fullGrad Gamma0_grad Gammat_grad0 Gammat_grad1 Gparams x t j)) ^ 2) / ells t) -
        ∑ t, -(∑ j, (x t j - u t j) ^ 2) / ells t) ∧
      ∀ t : Fin (n + 2), Φ (weightsOf (F.log_ws t.castSucc)) (F.As t)) := by
  refine always_bind (hΦ _ _ _ _) fun A0 hA0 => ?_
  refine always_bind (always_scanM_carry (fun i o => (⟨weightsOf o.1, i.x_t, o.2.2⟩ : AlsCarry N d))
    (fun (inp : AlsInp G N d) (c : AlsCarry N d) (o : (Fin (N + 1) → ℝ) × (Fin (N + 1) → Fin (N + 1)) ×
        (Fin (N + 1) → Vec d)) =>
      (∃ k, ∀ i, o.1 i = alsGammatTilde Gammat Gammat_grad0 Gammat_grad1 (c.x2 (o.2.1 i)) (c.x1 (o.2.1 i)) (inp.x_t i)
        inp.params_t_m_1 inp.params_t - -(∑ j, (inp.x_t i j - inp.params_t.u j) ^ 2) / inp.params_t.ell - k) ∧
      o.2.2 = take c.x1 o.2.1 ∧ Φ c.w o.2.1) (fun c i => ?_) _ _) fun r hr => ?_
  · refine always_bind (hΦ _ _ _ _) fun A hA => always_pure ⟨?_, ⟨_, fun i => rfl⟩, rfl, hA⟩
    show AlsCarry.mk _ _ _ = AlsCarry.mk _ _ _
    rw [normalizeW_weightsOf]
  · have hx1 : ∀ (c : AlsCarry N d), c.x1 = xs 1 → ∀ t : Fin (n + 1), (insert0 (α := AlsCarry N d) c
        (fun t => ⟨weightsOf (r.2 t).1, (alsInputs key (alsParams deltas ells u Gparams) xs bstar t).x_t, (r.2 t).2.2⟩)
        t.castSucc).x1 =
        tailA xs t.castSucc := by
      intro c hc t
      generalize t.castSucc = s
      exact Fin.cases hc (fun s => rfl) s
    have hx2 := fun t : Fin (n + 1) => carry_x2 (A0 := A0) (x0 := xs 0) r.2 (fun o => o.2.2) (fun o => o.2.1)
      (fun t => (alsInputs key (alsParams deltas ells u Gparams) xs bstar t).x_t) (fun o => weightsOf o.1) _ rfl rfl (fun t => (hr t).2.1) t
    have hxs : ∀ t : Fin (n + 1), insert0 (α := Fin (N + 1) → Vec d) (xs 0) (insert0 (xs 1)
        (fun t => (alsInputs key (alsParams deltas ells u Gparams) xs bstar t).x_t))
        t.castSucc.castSucc = xs t.castSucc.castSucc := by
      intro t
      generalize t.castSucc.castSucc = s
      exact Fin.cases rfl (fun s => Fin.cases rfl (fun s => rfl) s) s
    refine always_pure ⟨?_, fun t => ?_⟩
    · refine LineageWeight.congr ?_ (lineageWeight2_of
        (fun x => alsGamma0Tilde Gamma0 Gamma0_grad x (deltas 0) (ells 0) (u 0) -
          -(∑ j, (x j - u 0 j) ^ 2) / ells 0)
        (fun x y => alsGamma1Tilde Gamma0_grad Gammat Gammat_grad0 Gammat_grad1 x y (alsParams1 deltas ells u Gparams).1
          (alsParams1 deltas ells u Gparams).2 - -(∑ j, (y j - u 1 j) ^ 2) / ells 1)
        (fun t x y z => alsGammatTilde Gammat Gammat_grad0 Gammat_grad1 x y z (alsParams deltas ells u Gparams t.castSucc)
          (alsParams deltas ells u Gparams t.succ) - -(∑ j, (z j - u t.succ.succ j) ^ 2) / ells t.succ.succ)
        ⟨_, fun i => rfl⟩ ⟨0, fun i => (sub_zero _).symm⟩ fun t => ?_)
      · intro x
        have h25 := C25_al_csmc_s (Gamma0 := Gamma0) (Gamma0_grad := Gamma0_grad) (Gammat := Gammat)
          (Gammat_grad0 := Gammat_grad0) (Gammat_grad1 := Gammat_grad1) ells deltas Gparams u x
        rw [← h25, Fin.sum_univ_succ (fun t => -(∑ j, (x t j - u t j) ^ 2) / ells t),
          Fin.sum_univ_succ (fun t : Fin (n + 2) => -(∑ j, (x t.succ j - u t.succ j) ^ 2) / ells t.succ),
          Finset.sum_sub_distrib]
        simp only [show (Fin.succ 0 : Fin (n + 3)) = 1 from rfl]
        ring
      · obtain ⟨k, hk⟩ := (hr t).1
        refine ⟨k, fun i => (hk i).trans ?_⟩
        rw [hx1 _ rfl t, hx2 t, hxs t]
        rfl
    · refine Fin.cases ?_ (fun t => ?_) t
      · rw [normalizeW_weightsOf] at hA0
        exact hA0
      · refine Eq.mp ?_ (hr t).2.2
        congr 1
        show _ = weightsOf (insert0 (α := Fin (N + 1) → ℝ) _ (fun t => (r.2 t).1) t.castSucc)
        generalize t.castSucc = s
        exact Fin.cases (normalizeW_weightsOf _) (fun s => rfl) s

/-- Every particle of the last time has a lineage: the statements above are about `N + 1` trajectories. -/
theorem lineage_exists (A : Fin n → Fin (N + 1) → Fin (N + 1)) (k : Fin (N + 1)) :
    ∃ b, Lineage A b ∧ b (Fin.last n) = k := by
  induction n generalizing k with
  | zero => exact ⟨fun _ => k, fun t => t.elim0, rfl⟩
  | succ n ih =>
    obtain ⟨b, hb, hk⟩ := ih (fun t => A t.castSucc) (A (Fin.last n) k)
    refine ⟨Fin.snoc (α := fun _ => Fin (N + 1)) b k, fun t => ?_, Fin.snoc_last _ _⟩
    refine Fin.lastCases ?_ (fun t => ?_) t
    · rw [Fin.snoc_castSucc, Fin.succ_last, Fin.snoc_last, hk]
    · rw [Fin.succ_castSucc, Fin.snoc_castSucc, Fin.snoc_castSucc]
      exact hb t

/-- A resampling function which tells exactly which weights it was called with: it keeps the particles of weight more
than one half and replaces the others by particle zero. -/
noncomputable def probe : Resampling Poss N := fun _ w _ _ _ => pure fun k => if 1 / 2 < w k then k else 0

example (key : Key) (bstar : Fin 3 → Fin 2) (u : Fin 3 → Vec 1) (xs : Fin 3 → Fin 2 → Vec 1) :
    Always (alsForward (n := 0) key bstar (fun x => -sumSq x) (fun x j => -2 * x j)
      (fun x y (a : ℝ) => a * x 0 * y 0) (fun _ y a => fun _ => a * y 0) (fun x _ a => fun _ => a * x 0) ![1, 2]
      ![1, 2, 3] ![1, 1, 1] probe u xs) (fun F => ∀ (t : Fin 2) k,
        F.As t k = if 1 / 2 < weightsOf (F.log_ws t.castSucc) k then k else 0) :=
  always_mono (C64_al_csmc_s key bstar ![1, 2] ![1, 2, 3] ![1, 1, 1] probe u xs
    (fun w A => ∀ k, A k = if 1 / 2 < w k then k else 0) fun _ _ _ _ => always_pure fun _ => rfl)
    fun _ h => h.2

example (key : Key) (xstar : Fin 3 → ℝ) (bstar : Fin 3 → Fin 5) :
    Always (forward_pass key xstar bstar
      { M0_rvs := fun key => do
          let e ← normal1 key 5
          pure e
        M0_logpdf := fun x i => -(x i) ^ 2 / 2
        Gamma0 := fun x => -(x - 1) ^ 2
        Mt_rvs := fun key x (a : ℝ) => do
          let e ← normal1 key 5
          pure fun i => a * x i + e i
        Mt_logpdf := fun x y a i => -(y i - a * x i) ^ 2 / 2
        Gammat := fun x y (g : ℝ) => g * x * y } ![1 / 2, 1 / 3] ![1, 2]
      (fun key w i j c => multinomial key w i j c) true) (fun F =>
      LineageWeight F.xs F.As F.log_ws fun x => (-(x 0 - 1) ^ 2 - -(x 0) ^ 2 / 2) +
        ∑ t : Fin 2, (![1, 2] t * x t.castSucc * x t.succ - -(x t.succ - ![1 / 2, 1 / 3] t * x t.castSucc) ^ 2 / 2)) :=
  always_mono (C64_csmc key xstar bstar _ _ _ _ true (fun x => -x ^ 2 / 2) (fun x y a => -(y - a * x) ^ 2 / 2)
    (fun _ _ => rfl) (fun _ _ _ _ => rfl) (fun _ _ => True) fun _ _ _ _ => fun _ _ _ => trivial) fun _ h => h.1

end Verif.Props
