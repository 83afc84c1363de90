import Verif.Lemmas.CsmcForward

/-!
# Backward passes: scanning and sampling
-/

open scoped ENNReal
open MeasureTheory ProbabilityTheory Finset

namespace Verif
open Verif.Spec Verif.Model

variable {X : Type} [MeasurableSpace X] {N n : ℕ}

/-- A move that leaves the final weights invariant, followed by any function of the history and of the
selected index: the move can be dropped. -/
theorem Sys.OK.move_drop {S : Sys X N n} (hS : S.OK)
    {move : (Fin (N + 1) → ℝ) → Fin (N + 1) → Ex (Fin (N + 1))} (hm : MoveInvariant move)
    (F : Hist X N n → Fin (N + 1) → ℝ≥0∞) (hF : Measurable fun p : Hist X N n × Fin (N + 1) => F p.1 p.2) :
    ∑ b, S.path (fun x => S.fwd b x (fun h => move (S.wLast h) (lastA b) (F h))) =
      S.Phi (fun h => ∑ k, ENNReal.ofReal (S.wLast h k) * F h k) := by
  rw [hS.forward_identity (fun h b _ => move (S.wLast h) (lastA b) (F h))]
  · congr 1
    funext h
    have : ∀ k, lastA (h.trace k) = k := fun k => h.trace_last k
    simp only [this]
    exact hm.inv _ (normalize_isProb _) (normalize_pos _) _
  · have hw : Measurable fun p : Hist X N n × (Fin (n + 1) → Fin (N + 1)) × (Fin (n + 1) → X) =>
        S.wLast p.1 := hS.measurable_wLast.comp measurable_fst
    refine (hm.ker.comp (g := fun p : Hist X N n × (Fin (n + 1) → Fin (N + 1)) × (Fin (n + 1) → X) =>
      (S.wLast p.1, lastA p.2.1)) (hw.prodMk (by fun_prop))).measurable (f := fun p k => F p.1 k) ?_
    exact hF.comp (by fun_prop : Measurable fun q : (Hist X N n × (Fin (n + 1) → Fin (N + 1)) ×
      (Fin (n + 1) → X)) × Fin (N + 1) => (q.1.1, q.2))

/-- Selecting a final particle with the final weights and returning its genealogy. -/
theorem Sys.OK.scan_identity {S : Sys X N n} (hS : S.OK)
    (f : (Fin (n + 1) → X) → (Fin (n + 1) → Fin (N + 1)) → ℝ≥0∞)
    (hf : Measurable fun p : (Fin (n + 1) → X) × (Fin (n + 1) → Fin (N + 1)) => f p.1 p.2) :
    S.Phi (fun h => ∑ k, ENNReal.ofReal (S.wLast h k) * f (h.tracex k) (h.trace k)) =
      ∑ b, S.path (fun x => f x b) := by
  rw [← hS.forward_identity (fun _ b x => f x b)]
  · simp only [hS.fwd_const]
  · exact hf.comp (by fun_prop : Measurable fun p : Hist X N n × (Fin (n + 1) → Fin (N + 1)) ×
      (Fin (n + 1) → X) => (p.2.2, p.2.1))

/-- The conditional forward pass followed by a move of the final index and by the backward scanning pass
leaves the target invariant. -/
theorem Sys.OK.scanning_invariant {S : Sys X N n} (hS : S.OK)
    {move : (Fin (N + 1) → ℝ) → Fin (N + 1) → Ex (Fin (N + 1))} (hm : MoveInvariant move)
    (f : (Fin (n + 1) → X) → (Fin (n + 1) → Fin (N + 1)) → ℝ≥0∞)
    (hf : Measurable fun p : (Fin (n + 1) → X) × (Fin (n + 1) → Fin (N + 1)) => f p.1 p.2) :
    ∑ b, S.path (fun x => S.fwd b x (fun h => move (S.wLast h) (lastA b)
      (fun k => f (h.tracex k) (h.trace k)))) = ∑ b, S.path (fun x => f x b) := by
  rw [hS.move_drop hm (fun h k => f (h.tracex k) (h.trace k)), hS.scan_identity f hf]
  exact hf.comp (by fun_prop : Measurable fun p : Hist X N n × Fin (N + 1) =>
    (p.1.tracex p.2, p.1.trace p.2))

/-! ### Backward sampling -/

/-- Backward sampling from particle `k` of the last time step. -/
noncomputable def Sys.bs {X : Type} {N : ℕ} : {n : ℕ} → Sys X N n → (Fin n → X → X → ℝ) →
    Hist X N n → Fin (N + 1) → Ex ((Fin (n + 1) → X) × (Fin (n + 1) → Fin (N + 1)))
  | 0, _, _, h, k => pure (fun _ => h.2 0 k, fun _ => k)
  | n + 1, S, Γ, h, k => do
    let i ← choice [] (normalizeW (fun i => S.init.lwLast h.init i +
      Γ (Fin.last n) (lastA h.init.2 i) (lastA h.2 k)))
    let r ← S.init.bs (initA Γ) h.init i
    pure (snocA r.1 (lastA h.2 k), snocA r.2 k)

/-- The target transitions have density `exp Γ` with respect to a common measure. -/
structure Sys.Density {X : Type} [MeasurableSpace X] {N n : ℕ} (S : Sys X N n) (lam : Measure X)
    (Γ : Fin n → X → X → ℝ) : Prop where
  meas : ∀ t, Measurable fun p : X × X => Γ t p.1 p.2
  eq : ∀ t y f, Measurable f →
    S.G t y f = ∫⁻ x, ENNReal.ofReal (Real.exp (Γ t y x)) * f x ∂lam

theorem Sys.Density.init {lam : Measure X} {S : Sys X N (n + 1)} {Γ : Fin (n + 1) → X → X → ℝ}
    (h : S.Density lam Γ) : S.init.Density lam (initA Γ) :=
  ⟨fun t => h.meas t.castSucc, fun t => h.eq t.castSucc⟩

theorem catP_normalize {N : ℕ} (lw : Fin (N + 1) → ℝ) (i : Fin (N + 1)) :
    catP (normalizeW lw) i = ENNReal.ofReal (normalizeW lw i) := by
  rw [catP, (normalize_isProb lw).sum_one, div_one]

theorem Sys.OK.bs_ker {n : ℕ} {S : Sys X N n} (hS : S.OK) {Γ : Fin n → X → X → ℝ}
    (hΓ : ∀ t, Measurable fun p : X × X => Γ t p.1 p.2) :
    IsKer (fun p : Hist X N n × Fin (N + 1) => S.bs Γ p.1 p.2) := by
  induction n with
  | zero =>
    refine IsKer.pure (g := fun p : Hist X N 0 × Fin (N + 1) =>
      ((fun _ : Fin 1 => p.1.2 0 p.2), fun _ : Fin 1 => p.2)) ?_
    refine Measurable.prodMk (measurable_pi_lambda _ fun _ => ?_) (by fun_prop)
    exact measurable_index (a := fun p : Hist X N 0 × Fin (N + 1) => p.1.2 0) (by fun_prop) (by fun_prop)
  | succ n ih =>
    have hx : Measurable fun p : Hist X N (n + 1) × Fin (N + 1) => lastA p.1.2 p.2 :=
      measurable_index (a := fun p : Hist X N (n + 1) × Fin (N + 1) => lastA p.1.2) (by fun_prop)
        (by fun_prop)
    have h1 : Measurable fun p : Hist X N (n + 1) × Fin (N + 1) => normalizeW (fun i =>
        S.init.lwLast p.1.init i + Γ (Fin.last n) (lastA p.1.init.2 i) (lastA p.1.2 p.2)) := by
      refine measurable_normalizeW (measurable_pi_lambda _ fun i => Measurable.add ?_ ?_)
      · have h2 : Measurable fun p : Hist X N (n + 1) × Fin (N + 1) => S.init.lwLast p.1.init :=
          hS.init.measurable_lwLast.comp (by fun_prop)
        exact (measurable_pi_apply i).comp h2
      · exact (hΓ (Fin.last n)).comp (Measurable.prodMk (by fun_prop) hx)
    refine (IsKer.choice [] h1).bind (F := fun p i => do
      let r ← S.init.bs (initA Γ) p.1.init i
      pure (snocA r.1 ((lastA p.1.2 : PA X N) p.2), snocA r.2 p.2)) ?_
    refine ((ih hS.init (Γ := initA Γ) (fun t => hΓ t.castSucc)).comp
      (g := fun p : (Hist X N (n + 1) × Fin (N + 1)) × Fin (N + 1) => (p.1.1.init, p.2))
      (by fun_prop)).bind (F := fun p r => pure (snocA r.1 ((lastA p.1.1.2 : PA X N) p.1.2), snocA r.2 p.1.2))
      (IsKer.pure ?_)
    refine Measurable.prodMk (measurable_snocA (by fun_prop) ?_) (by fun_prop)
    exact hx.comp (by fun_prop : Measurable fun q : ((Hist X N (n + 1) × Fin (N + 1)) × Fin (N + 1)) ×
      ((Fin (n + 1) → X) × (Fin (n + 1) → Fin (N + 1))) => q.1.1)

omit [MeasurableSpace X] in
/-- The trajectory returned by backward sampling ends at the particle it was started from. -/
theorem Sys.bs_last {n : ℕ} (S : Sys X N n) (Γ : Fin n → X → X → ℝ) (h : Hist X N n) (k : Fin (N + 1))
    (f : X → (Fin (n + 1) → X) × (Fin (n + 1) → Fin (N + 1)) → ℝ≥0∞) :
    S.bs Γ h k (fun r => f (lastA r.1) r) = S.bs Γ h k (fun r => f (lastA h.2 k) r) := by
  cases n with
  | zero => rfl
  | succ n =>
    show (∑ i, _ * S.init.bs (initA Γ) h.init i _) = (∑ i, _ * S.init.bs (initA Γ) h.init i _)
    simp only [Ex.pure_def, lastA_snocA]

/-- **Backward identity**: selecting a final particle with the final weights and sampling backwards
returns the target, with uniform indices. -/
theorem Sys.OK.backward_identity {n : ℕ} {S : Sys X N n} (hS : S.OK) {lam : Measure X} [SFinite lam]
    {Γ : Fin n → X → X → ℝ} (hd : S.Density lam Γ)
    (f : (Fin (n + 1) → X) × (Fin (n + 1) → Fin (N + 1)) → ℝ≥0∞) (hf : Measurable f) :
    S.Phi (fun h => ∑ k, ENNReal.ofReal (S.wLast h k) * S.bs Γ h k f) =
      ∑ b, S.path (fun x => f (x, b)) := by
  induction n with
  | zero =>
    have hf' : Measurable fun p : (Fin 1 → X) × (Fin 1 → Fin (N + 1)) => f (p.1, p.2) := hf
    exact hS.scan_identity (fun x b => f (x, b)) hf'
  | succ n ih =>
    set S' := S.init
    have hSi : S'.OK := hS.init
    set L := Fin.last n
    have hdi : S'.Density lam (initA Γ) := hd.init
    have hΓL := hd.meas L
    let f' : (Fin (n + 1) → X) × (Fin (n + 1) → Fin (N + 1)) → ℝ≥0∞ := fun r =>
      ∑ k, S.G L (lastA r.1) (fun xl => f (snocA r.1 xl, snocA r.2 k))
    have hfk : ∀ k, Measurable fun r : (Fin (n + 1) → X) × (Fin (n + 1) → Fin (N + 1)) =>
        S.G L (lastA r.1) (fun xl => f (snocA r.1 xl, snocA r.2 k)) := by
      intro k
      refine ((hS.G_ker L).comp (g := fun r : (Fin (n + 1) → X) × (Fin (n + 1) → Fin (N + 1)) =>
        lastA r.1) (by fun_prop)).measurable (f := fun r xl => f (snocA r.1 xl, snocA r.2 k)) ?_
      exact hf.comp (by fun_prop : Measurable fun q : ((Fin (n + 1) → X) ×
        (Fin (n + 1) → Fin (N + 1))) × X => (snocA q.1.1 q.2, snocA q.1.2 k))
    have hf' : Measurable f' := Finset.measurable_fun_sum _ fun k _ => hfk k
    have hIH := ih hSi hdi f' hf'
    -- right-hand side
    have hR : ∑ b, S.path (fun x => f (x, b)) = ∑ b', S'.path (fun x' => f' (x', b')) := by
      rw [sum_snoc]
      refine Finset.sum_congr rfl fun b' _ => ?_
      show ∑ j, S'.path (fun x' => S.G L (lastA x') (fun xl => f (snocA x' xl, snocA b' j))) = _
      rw [← hSi.path_ker.sum ()]
      intro j _
      exact (hfk j).comp (by fun_prop : Measurable fun x' : Fin (n + 1) → X => (x', b'))
    rw [hR, ← hIH]
    show S'.Phi _ = S'.Phi _
    congr 1
    funext h
    set w := S'.wLast h with hw
    have hwp : IsProb w := normalize_isProb _
    have hwpos : ∀ i, 0 < w i := normalize_pos _
    set y := lastA h.2 with hy
    -- backward sampling given the last particle
    let p : X → Fin (N + 1) → ℝ := fun xl =>
      normalizeW (fun i => S'.lwLast h i + Γ L (y i) xl)
    let D : X → Fin (N + 1) → Fin (N + 1) → ℝ≥0∞ := fun xl k i =>
      S'.bs (initA Γ) h i (fun r => f (snocA r.1 xl, snocA r.2 k))
    let C : X → Fin (N + 1) → ℝ≥0∞ := fun xl k => ∑ i, ENNReal.ofReal (p xl i) * D xl k i
    have hbs : ∀ a Xs k, S.bs Γ (h.snoc a Xs) k f = C (Xs k) k := by
      intro a Xs k
      show (∑ i, catP (normalizeW fun i => S'.lwLast (h.snoc a Xs).init i +
        Γ L (lastA (h.snoc a Xs).init.2 i) (lastA (h.snoc a Xs).2 k)) i *
        S'.bs (initA Γ) (h.snoc a Xs).init i (fun r => f (snocA r.1 (lastA (h.snoc a Xs).2 k),
          snocA r.2 k))) = _
      rw [Hist.init_snoc]
      have : lastA (h.snoc a Xs).2 = Xs := lastA_snocA _ _
      rw [this]
      refine Finset.sum_congr rfl fun i _ => ?_
      rw [catP_normalize]
    have hDm : ∀ k i, Measurable fun xl => D xl k i := by
      intro k i
      refine ((hSi.bs_ker hdi.meas).comp (g := fun _ : X => (h, i)) measurable_const).measurable
        (f := fun xl r => f (snocA r.1 xl, snocA r.2 k)) ?_
      exact hf.comp (by fun_prop : Measurable fun q : X × ((Fin (n + 1) → X) ×
        (Fin (n + 1) → Fin (N + 1))) => (snocA q.2.1 q.1, snocA q.2.2 k))
    have hpm : Measurable p := by
      refine measurable_normalizeW (measurable_pi_lambda _ fun i => Measurable.add measurable_const ?_)
      exact hΓL.comp (by fun_prop : Measurable fun xl : X => (y i, xl))
    have hCm : ∀ k, Measurable fun xl => C xl k := fun k =>
      Finset.measurable_fun_sum _ fun i _ => Measurable.mul
        (ENNReal.measurable_ofReal.comp ((measurable_pi_apply i).comp hpm)) (hDm k i)
    -- step 1: integrate the last particles out
    have e1 : ∀ a, S.Z L (take y a) (fun Xs => sumExp (S.LW L (take y a) Xs) *
        ∑ k, ENNReal.ofReal (S.wLast (h.snoc a Xs) k) * S.bs Γ (h.snoc a Xs) k f) =
        ∑ k, S.G L (y (a k)) (fun xl => C xl k) := by
      intro a
      have e2 : (fun Xs => sumExp (S.LW L (take y a) Xs) *
          ∑ k, ENNReal.ofReal (S.wLast (h.snoc a Xs) k) * S.bs Γ (h.snoc a Xs) k f) = fun Xs =>
          ∑ k, ENNReal.ofReal (Real.exp (S.LW L (take y a) Xs k)) * C (Xs k) k := by
        funext Xs
        rw [Finset.mul_sum]
        refine Finset.sum_congr rfl fun k _ => ?_
        rw [← mul_assoc, hbs, Sys.wLast, Sys.lwLast_snoc, sumExp_mul_normalize]
      rw [e2, (hS.Z_ker L).sum]
      · refine Finset.sum_congr rfl fun k _ => ?_
        rw [← hS.idt L (take y a) k (fun xl _ => C xl k) ((hCm k).comp measurable_fst)]
        have e3 : ∀ xl, S.Q L (take y a) k xl (fun _ => C xl k) = C xl k := by
          intro xl
          have := (hS.Q_ker L).const_fun (take y a, k, xl) (C xl k)
          simp only [hS.Q_mass, mul_one] at this
          exact this
        simp only [e3]
        rfl
      · intro k _
        refine Measurable.mul ?_ ((hCm k).comp (measurable_pi_apply k))
        exact ENNReal.measurable_ofReal.comp (Real.measurable_exp.comp ((measurable_pi_apply k).comp
          ((hS.LW_meas L).comp (by fun_prop : Measurable fun Xs : PA X N => (take y a, Xs)))))
    have e4 : ∑ a, Ulaw (S.R L) w a * S.Z L (take y a) (fun Xs => sumExp (S.LW L (take y a) Xs) *
        ∑ k, ENNReal.ofReal (S.wLast (h.snoc a Xs) k) * S.bs Γ (h.snoc a Xs) k f) =
        ∑ k, ∑ i, ENNReal.ofReal (w i) * S.G L (y i) (fun xl => C xl k) := by
      rw [Finset.sum_congr rfl fun a _ => by rw [e1 a, Finset.mul_sum], Finset.sum_comm]
      refine Finset.sum_congr rfl fun k _ => ?_
      exact (hS.R_ok L).Ulaw_marginal hwp hwpos k (fun i => S.G L (y i) (fun xl => C xl k))
    refine e4.trans ?_
    -- step 2: the backward kernel inverts the weights
    have e5 : ∀ k, ∑ i, ENNReal.ofReal (w i) * S.G L (y i) (fun xl => C xl k) =
        ∑ i, ENNReal.ofReal (w i) * S.G L (y i) (fun xl => D xl k i) := by
      intro k
      have hGm : ∀ i, Measurable fun xl => ENNReal.ofReal (Real.exp (Γ L (y i) xl)) := fun i =>
        ENNReal.measurable_ofReal.comp (Real.measurable_exp.comp
          (hΓL.comp (by fun_prop : Measurable fun xl : X => (y i, xl))))
      have e6 : ∀ (i : Fin (N + 1)) (g : X → ℝ≥0∞), Measurable g →
          ENNReal.ofReal (w i) * S.G L (y i) g =
          ∫⁻ xl, ENNReal.ofReal (w i) * (ENNReal.ofReal (Real.exp (Γ L (y i) xl)) * g xl) ∂lam := by
        intro i g hg
        rw [hd.eq L (y i) g hg]
        exact (lintegral_const_mul _ ((hGm i).mul hg)).symm
      simp only [e6 _ _ (hCm k), e6 _ _ (hDm k _)]
      have hC2 : ∀ i, Measurable fun xl => ENNReal.ofReal (w i) *
          (ENNReal.ofReal (Real.exp (Γ L (y i) xl)) * C xl k) := fun i =>
        ((hGm i).mul (hCm k)).const_mul _
      have hD2 : ∀ i, Measurable fun xl => ENNReal.ofReal (w i) *
          (ENNReal.ofReal (Real.exp (Γ L (y i) xl)) * D xl k i) := fun i =>
        ((hGm i).mul (hDm k i)).const_mul _
      rw [← lintegral_finsetSum _ fun i _ => hC2 i, ← lintegral_finsetSum _ fun i _ => hD2 i]
      refine lintegral_congr fun xl => ?_
      -- pointwise
      have hZ : ∀ i, (∑ j, ENNReal.ofReal (w j) * ENNReal.ofReal (Real.exp (Γ L (y j) xl))) *
          ENNReal.ofReal (p xl i) = ENNReal.ofReal (w i) * ENNReal.ofReal (Real.exp (Γ L (y i) xl)) := by
        intro i
        have h1 := sumExp_mul_normalize (fun i => S'.lwLast h i + Γ L (y i) xl) i
        have h2 : ∀ j, ENNReal.ofReal (Real.exp (S'.lwLast h j + Γ L (y j) xl)) =
            sumExp (S'.lwLast h) * (ENNReal.ofReal (w j) * ENNReal.ofReal (Real.exp (Γ L (y j) xl))) := by
          intro j
          rw [← mul_assoc, hw, Sys.wLast, sumExp_mul_normalize, Real.exp_add,
            ENNReal.ofReal_mul (Real.exp_pos _).le]
        rw [h2 i, sumExp] at h1
        simp only [h2] at h1
        rw [← Finset.mul_sum, mul_assoc] at h1
        have hpos : sumExp (S'.lwLast h) ≠ 0 := by
          rw [sumExp_eq]
          exact (ENNReal.ofReal_pos.mpr (Finset.sum_pos (fun i _ => Real.exp_pos _)
            Finset.univ_nonempty)).ne'
        have htop : sumExp (S'.lwLast h) ≠ ⊤ := by rw [sumExp_eq]; exact ENNReal.ofReal_ne_top
        exact (ENNReal.mul_right_inj hpos htop).mp h1
      calc ∑ i, ENNReal.ofReal (w i) * (ENNReal.ofReal (Real.exp (Γ L (y i) xl)) * C xl k)
          = (∑ j, ENNReal.ofReal (w j) * ENNReal.ofReal (Real.exp (Γ L (y j) xl))) * C xl k := by
            rw [Finset.sum_mul]; exact Finset.sum_congr rfl fun i _ => (mul_assoc _ _ _).symm
        _ = ∑ i, ENNReal.ofReal (w i) * (ENNReal.ofReal (Real.exp (Γ L (y i) xl)) * D xl k i) := by
            rw [Finset.mul_sum]
            refine Finset.sum_congr rfl fun i _ => ?_
            rw [← mul_assoc, hZ, mul_assoc]
    simp only [e5]
    -- step 3: commute the last integral with backward sampling
    rw [Finset.sum_comm]
    refine Finset.sum_congr rfl fun i _ => ?_
    rw [← Finset.mul_sum]
    congr 1
    have e7 : ∀ k, S.G L (y i) (fun xl => D xl k i) = S'.bs (initA Γ) h i (fun r =>
        S.G L (lastA r.1) (fun xl => f (snocA r.1 xl, snocA r.2 k))) := by
      intro k
      rw [Sys.bs_last S' (initA Γ) h i (fun z r => S.G L z (fun xl => f (snocA r.1 xl, snocA r.2 k)))]
      refine (hS.G_ker L).swap (y i) (hSi.bs_ker hdi.meas) (h, i)
        (f := fun xl r => f (snocA r.1 xl, snocA r.2 k)) ?_
      exact hf.comp (by fun_prop : Measurable fun q : X × ((Fin (n + 1) → X) ×
        (Fin (n + 1) → Fin (N + 1))) => (snocA q.2.1 q.1, snocA q.2.2 k))
    simp only [e7]
    exact ((hSi.bs_ker hdi.meas).sum (h, i) _ fun k _ => hfk k).symm

/-- The conditional forward pass followed by a move of the final index and by backward sampling
leaves the target invariant. -/
theorem Sys.OK.sampling_invariant {S : Sys X N n} (hS : S.OK) {lam : Measure X} [SFinite lam]
    {Γ : Fin n → X → X → ℝ} (hd : S.Density lam Γ)
    {move : (Fin (N + 1) → ℝ) → Fin (N + 1) → Ex (Fin (N + 1))} (hm : MoveInvariant move)
    (f : (Fin (n + 1) → X) × (Fin (n + 1) → Fin (N + 1)) → ℝ≥0∞) (hf : Measurable f) :
    ∑ b, S.path (fun x => S.fwd b x (fun h => move (S.wLast h) (lastA b)
      (fun k => S.bs Γ h k f))) = ∑ b, S.path (fun x => f (x, b)) := by
  rw [hS.move_drop hm (fun h k => S.bs Γ h k f), hS.backward_identity hd f hf]
  exact (hS.bs_ker hd.meas).measurable' hf

end Verif
