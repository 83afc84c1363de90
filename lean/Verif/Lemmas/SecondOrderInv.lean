import Verif.Lemmas.SecondOrder

/-!
# Invariance of the conditional kernel for models with memory two
-/

open scoped ENNReal
open MeasureTheory ProbabilityTheory

namespace Verif
open Verif.Spec Verif.Model

variable {V : Type} [MeasurableSpace V] {N n : ℕ}

/-- Tonelli for the weighted selection of a last particle. -/
theorem Sys.OK.Phi_lintegral {X : Type} [MeasurableSpace X] {Θ : Type} [MeasurableSpace Θ] {S : Sys X N n}
    (hS : S.OK) {μ : Measure Θ} [SFinite μ] {F : Θ → Hist X N n → Fin (N + 1) → ℝ≥0∞}
    (hF : Measurable fun p : Θ × Hist X N n × Fin (N + 1) => F p.1 p.2.1 p.2.2) :
    S.Phi (fun h => ∑ k, ENNReal.ofReal (S.wLast h k) * ∫⁻ θ, F θ h k ∂μ) =
      ∫⁻ θ, S.Phi (fun h => ∑ k, ENNReal.ofReal (S.wLast h k) * F θ h k) ∂μ := by
  have hFb : ∀ b : Fin (n + 1) → Fin (N + 1), Measurable fun p : Hist X N n × Θ => F p.2 p.1 (lastA b) := fun b =>
    hF.comp (by fun_prop : Measurable fun p : Hist X N n × Θ => (p.2, p.1, lastA b))
  have h1 : ∀ G : Hist X N n → Fin (N + 1) → ℝ≥0∞, (Measurable fun p : Hist X N n × Fin (N + 1) => G p.1 p.2) →
      S.Phi (fun h => ∑ k, ENNReal.ofReal (S.wLast h k) * G h k) =
        ∑ b, S.path (fun x => S.fwd b x (fun h => G h (lastA b))) := by
    intro G hG
    rw [hS.forward_identity (fun h b _ => G h (lastA b)) (hG.comp (by fun_prop : Measurable fun p : Hist X N n ×
      (Fin (n + 1) → Fin (N + 1)) × (Fin (n + 1) → X) => (p.1, lastA p.2.1)))]
    congr 1
    funext h
    have : ∀ k, lastA (h.trace k) = k := fun k => h.trace_last k
    simp only [this]
  have hI : Measurable fun p : Hist X N n × Fin (N + 1) => ∫⁻ θ, F θ p.1 p.2 ∂μ :=
    (hF.comp (by fun_prop : Measurable fun q : Θ × (Hist X N n × Fin (N + 1)) => (q.1, q.2))).lintegral_prod_left'
  have hθ : ∀ θ, Measurable fun p : Hist X N n × Fin (N + 1) => F θ p.1 p.2 := fun θ =>
    hF.comp (by fun_prop : Measurable fun q : Hist X N n × Fin (N + 1) => (θ, q))
  rw [h1 _ hI]
  simp only [h1 _ (hθ _)]
  have hm : ∀ b, Measurable fun p : (Fin (n + 1) → X) × Θ => S.fwd b p.1 (fun h => F p.2 h (lastA b)) := by
    intro b
    refine (hS.fwd_ker.comp (g := fun p : (Fin (n + 1) → X) × Θ => (b, p.1)) (by fun_prop)).measurable
      (f := fun p h => F p.2 h (lastA b)) ?_
    exact (hFb b).comp (by fun_prop : Measurable fun q : ((Fin (n + 1) → X) × Θ) × Hist X N n => (q.2, q.1.2))
  rw [lintegral_finsetSum]
  · refine Finset.sum_congr rfl fun b _ => ?_
    have h2 : ∀ x, S.fwd b x (fun h => ∫⁻ θ, F θ h (lastA b) ∂μ) = ∫⁻ θ, S.fwd b x (fun h => F θ h (lastA b)) ∂μ :=
      fun x => hS.fwd_ker.lintegral_swap (b, x) μ (f := fun h θ => F θ h (lastA b)) (hFb b)
    simp only [h2]
    exact hS.path_ker.lintegral_swap () μ (f := fun x θ => S.fwd b x (fun h => F θ h (lastA b))) (hm b)
  · intro b _
    exact (hS.path_ker.comp (g := fun _ : Θ => ()) measurable_const).measurable
      (f := fun θ x => S.fwd b x (fun h => F θ h (lastA b))) ((hm b).comp measurable_swap)

/-- **Backward identity for memory two.** -/
theorem Sys.OK.backward_identity2 {n : ℕ} {S : Sys (V × V) N n} (hS : S.OK) {lam : Measure V} [SFinite lam]
    {Γ : Fin n → V × V → V → ℝ} (hd : S.Density2 lam Γ) {φ : V × V → ℝ} (hφ : Measurable φ)
    (f : (Fin (n + 1) → V) × (Fin (n + 1) → Fin (N + 1)) → ℝ≥0∞) (hf : Measurable f) :
    S.Phi (fun h => ∑ k, ENNReal.ofReal (S.wLast h k) * (ENNReal.ofReal (Real.exp (φ (lastA h.2 k))) *
      S.bs2 Γ (fun y => φ (y, (lastA h.2 k).2)) h k f)) =
      ∑ b, S.path (fun z => ENNReal.ofReal (Real.exp (φ (lastA z))) * f (fun t => (z t).2, b)) := by
  induction n generalizing φ with
  | zero =>
    have hf' : Measurable fun p : (Fin 1 → V × V) × (Fin 1 → Fin (N + 1)) =>
        ENNReal.ofReal (Real.exp (φ (lastA p.1))) * f (fun t => (p.1 t).2, p.2) :=
      measurable_expR_mul (by fun_prop) (by fun_prop)
    exact hS.scan_identity (fun z b => ENNReal.ofReal (Real.exp (φ (lastA z))) * f (fun t => (z t).2, b)) hf'
  | succ n ih =>
    set S' := S.init
    have hSi : S'.OK := hS.init
    set L := Fin.last n
    have hdi : S'.Density2 lam (initA Γ) := hd.init
    have hΓL : Measurable fun p : (V × V) × V => Γ L p.1 p.2 := hd.meas L
    -- what is left for the first time steps, given the last value
    let f' : V → (Fin (n + 1) → V) × (Fin (n + 1) → Fin (N + 1)) → ℝ≥0∞ := fun x r =>
      ENNReal.ofReal (Real.exp (φ (lastA r.1, x))) * ∑ k, f (snocA r.1 x, snocA r.2 k)
    have hf' : Measurable fun p : V × ((Fin (n + 1) → V) × (Fin (n + 1) → Fin (N + 1))) => f' p.1 p.2 :=
      measurable_expR_mul (by fun_prop) (Finset.measurable_fun_sum _ fun k _ => by fun_prop)
    have hIH : ∀ x : V, _ := fun x => ih hSi hdi (φ := fun z => Γ L z x) (hΓL.comp (by fun_prop :
      Measurable fun z : V × V => (z, x))) (f' x) (hf'.comp (by fun_prop : Measurable fun r :
        (Fin (n + 1) → V) × (Fin (n + 1) → Fin (N + 1)) => (x, r)))
    -- right-hand side
    have hR : ∑ b, S.path (fun z => ENNReal.ofReal (Real.exp (φ (lastA z))) * f (fun t => (z t).2, b)) =
        ∫⁻ x, ∑ b', S'.path (fun z => ENNReal.ofReal (Real.exp (Γ L (lastA z) x)) * f' x (fun t => (z t).2, b'))
          ∂lam := by
      have hpm : ∀ b' : Fin (n + 1) → Fin (N + 1), Measurable fun p : (Fin (n + 1) → V × V) × V =>
          ENNReal.ofReal (Real.exp (Γ L (lastA p.1) p.2)) * f' p.2 (fun t => (p.1 t).2, b') := fun b' =>
        measurable_expR_mul (hΓL.comp (by fun_prop : Measurable fun p : (Fin (n + 1) → V × V) × V => (lastA p.1, p.2)))
          (hf'.comp (by fun_prop : Measurable fun p : (Fin (n + 1) → V × V) × V =>
            (p.2, ((fun t => (p.1 t).2), b'))))
      rw [lintegral_finsetSum]
      · rw [sum_snoc]
        refine Finset.sum_congr rfl fun b' _ => ?_
        have e1 : ∀ j, S.path (fun z => ENNReal.ofReal (Real.exp (φ (lastA z))) * f (fun t => (z t).2, snocA b' j)) =
            S'.path (fun z => S.G L (lastA z) (fun zl => ENNReal.ofReal (Real.exp (φ zl)) *
              f (snocA (fun t => (z t).2) zl.2, snocA b' j))) := by
          intro j
          show S'.path (fun z => S.G L (lastA z) (fun zl => ENNReal.ofReal (Real.exp (φ (lastA (snocA z zl)))) *
              f (fun t => (snocA z zl t).2, snocA b' j))) = _
          have e2 : ∀ (z : Fin (n + 1) → V × V) (zl : V × V), (fun t => (snocA z zl t).2) =
              snocA (fun t => (z t).2) zl.2 := by
            intro z zl
            funext t
            refine Fin.lastCases ?_ (fun s => ?_) t
            · simp only [snocA_last]
            · simp only [snocA_castSucc]
          simp only [e2, lastA_snocA]
        have hgm : ∀ j, Measurable fun p : (Fin (n + 1) → V × V) × V × V => ENNReal.ofReal (Real.exp (φ p.2)) *
              f (snocA (fun t => (p.1 t).2) p.2.2, snocA b' j) := fun j =>
          measurable_expR_mul (by fun_prop) (by fun_prop)
        simp only [e1]
        rw [← hSi.path_ker.sum ()]
        · rw [← hSi.path_ker.lintegral_swap () lam (f := fun z x => ENNReal.ofReal (Real.exp (Γ L (lastA z) x)) *
            f' x (fun t => (z t).2, b')) (hpm b')]
          refine Ex.congr_fun' _ fun z => ?_
          have e3 : ∀ j, S.G L (lastA z) (fun zl => ENNReal.ofReal (Real.exp (φ zl)) *
              f (snocA (fun t => (z t).2) zl.2, snocA b' j)) = ∫⁻ x, ENNReal.ofReal (Real.exp (Γ L (lastA z) x)) *
                (ENNReal.ofReal (Real.exp (φ ((lastA z).2, x))) * f (snocA (fun t => (z t).2) x, snocA b' j)) ∂lam :=
            fun j => hd.eq L (lastA z) _ ((hgm j).comp (by fun_prop : Measurable fun zl : V × V => (z, zl)))
          simp only [e3]
          rw [← lintegral_finsetSum]
          · refine lintegral_congr fun x => ?_
            show _ = ENNReal.ofReal (Real.exp (Γ L (lastA z) x)) * (ENNReal.ofReal (Real.exp (φ ((lastA z).2, x))) *
              ∑ k, f (snocA (fun t => (z t).2) x, snocA b' k))
            rw [Finset.mul_sum, Finset.mul_sum]
          · intro j _
            exact measurable_expR_mul (hΓL.comp (by fun_prop : Measurable fun x : V => (lastA z, x)))
              (measurable_expR_mul (by fun_prop) (by fun_prop))
        · intro j _
          exact ((hS.G_ker L).comp (g := fun z : Fin (n + 1) → V × V => lastA z) (by fun_prop)).measurable
            (f := fun z zl => ENNReal.ofReal (Real.exp (φ zl)) * f (snocA (fun t => (z t).2) zl.2, snocA b' j)) (hgm j)
      · intro b' _
        exact (hSi.path_ker.comp (g := fun _ : V => ()) measurable_const).measurable
          (f := fun x z => ENNReal.ofReal (Real.exp (Γ L (lastA z) x)) * f' x (fun t => (z t).2, b'))
          ((hpm b').comp measurable_swap)
    rw [hR]
    simp only [← hIH]
    -- measurability of backward sampling
    have hbsm : Measurable fun p : V × Hist (V × V) N n × Fin (N + 1) =>
        ENNReal.ofReal (Real.exp (Γ L (lastA p.2.1.2 p.2.2) p.1)) *
        S'.bs2 (initA Γ) (fun y => Γ L (y, (lastA p.2.1.2 p.2.2).2) p.1) p.2.1 p.2.2 (f' p.1) := by
      have hx : Measurable fun p : V × Hist (V × V) N n × Fin (N + 1) => lastA p.2.1.2 p.2.2 :=
        measurable_index (a := fun p : V × Hist (V × V) N n × Fin (N + 1) => lastA p.2.1.2) (by fun_prop) (by fun_prop)
      refine measurable_expR_mul (hΓL.comp (hx.prodMk measurable_fst)) ?_
      have hk := (hSi.sysMeas (Θ := V × V)).bs2_ker (Γ := fun _ => initA Γ)
        (fun t => (hdi.meas t).comp measurable_snd) (τ := fun p y => Γ L (y, p.1) p.2)
        (hΓL.comp (by fun_prop : Measurable fun q : (V × V) × V => ((q.2, q.1.1), q.1.2)))
      have hk2 := hk.comp (g := fun p : V × Hist (V × V) N n × Fin (N + 1) =>
        (((lastA p.2.1.2 p.2.2).2, p.1), p.2.1, p.2.2)) ((hx.snd.prodMk measurable_fst).prodMk (by fun_prop))
      exact hk2.measurable (f := fun p r => f' p.1 r) (hf'.comp (by fun_prop : Measurable fun q :
        (V × Hist (V × V) N n × Fin (N + 1)) × ((Fin (n + 1) → V) × (Fin (n + 1) → Fin (N + 1))) => (q.1.1, q.2)))
    rw [← hSi.Phi_lintegral (μ := lam) hbsm]
    show S'.Phi _ = S'.Phi _
    congr 1
    funext h
    set w := S'.wLast h with hw
    have hwp : IsProb w := normalize_isProb _
    have hwpos : ∀ i, 0 < w i := normalize_pos _
    set y := lastA h.2 with hy
    -- backward sampling given the last particle
    let p : V → Fin (N + 1) → ℝ := fun x =>
      normalizeW (fun i => S'.lwLast h i + Γ L (y i) x + φ ((y i).2, x))
    let D : V → Fin (N + 1) → Fin (N + 1) → ℝ≥0∞ := fun x k i =>
      S'.bs2 (initA Γ) (fun v => Γ L (v, (y i).2) x) h i (fun r => f (snocA r.1 x, snocA r.2 k))
    let C : V → Fin (N + 1) → ℝ≥0∞ := fun x k => ∑ i, ENNReal.ofReal (p x i) * D x k i
    have hbs : ∀ a Xs k, S.bs2 Γ (fun v => φ (v, (lastA (h.snoc a Xs).2 k).2)) (h.snoc a Xs) k f = C (Xs k).2 k := by
      intro a Xs k
      show (∑ i, catP (normalizeW fun i => S'.lwLast (h.snoc a Xs).init i +
        Γ L (lastA (h.snoc a Xs).init.2 i) (lastA (h.snoc a Xs).2 k).2 +
          φ ((lastA (h.snoc a Xs).init.2 i).2, (lastA (h.snoc a Xs).2 k).2)) i *
        S'.bs2 (initA Γ) (fun v => Γ L (v, (lastA (h.snoc a Xs).init.2 i).2) (lastA (h.snoc a Xs).2 k).2)
          (h.snoc a Xs).init i (fun r => f (snocA r.1 (lastA (h.snoc a Xs).2 k).2,
          snocA r.2 k))) = _
      rw [Hist.init_snoc]
      have : lastA (h.snoc a Xs).2 = Xs := lastA_snocA _ _
      rw [this]
      refine Finset.sum_congr rfl fun i _ => ?_
      rw [catP_normalize]
    have hτk := (hSi.sysMeas (Θ := V × V)).bs2_ker (Γ := fun _ => initA Γ)
      (fun t => (hdi.meas t).comp measurable_snd) (τ := fun p y => Γ L (y, p.1) p.2)
      (hΓL.comp (by fun_prop : Measurable fun q : (V × V) × V => ((q.2, q.1.1), q.1.2)))
    have hDm : ∀ k i, Measurable fun x => D x k i := by
      intro k i
      refine (hτk.comp (g := fun x : V => (((y i).2, x), h, i)) (by fun_prop)).measurable
        (f := fun x r => f (snocA r.1 x, snocA r.2 k)) ?_
      exact hf.comp (by fun_prop : Measurable fun q : V × ((Fin (n + 1) → V) ×
        (Fin (n + 1) → Fin (N + 1))) => (snocA q.2.1 q.1, snocA q.2.2 k))
    have hpm : Measurable p := by
      refine measurable_normalizeW (measurable_pi_lambda _ fun i => Measurable.add
        (Measurable.add measurable_const ?_) ?_)
      · exact hΓL.comp (by fun_prop : Measurable fun x : V => (y i, x))
      · fun_prop
    have hCm : ∀ k, Measurable fun x => C x k := fun k =>
      Finset.measurable_fun_sum _ fun i _ => Measurable.mul
        (ENNReal.measurable_ofReal.comp ((measurable_pi_apply i).comp hpm)) (hDm k i)
    have hECm : ∀ k, Measurable fun z : V × V => ENNReal.ofReal (Real.exp (φ z)) * C z.2 k := fun k =>
      measurable_expR_mul hφ ((hCm k).comp measurable_snd)
    -- step 1: integrate the last particles out
    have e1 : ∀ a, S.Z L (take y a) (fun Xs => sumExp (S.LW L (take y a) Xs) *
        ∑ k, ENNReal.ofReal (S.wLast (h.snoc a Xs) k) * (ENNReal.ofReal (Real.exp (φ (lastA (h.snoc a Xs).2 k))) *
          S.bs2 Γ (fun v => φ (v, (lastA (h.snoc a Xs).2 k).2)) (h.snoc a Xs) k f)) =
        ∑ k, S.G L (y (a k)) (fun z => ENNReal.ofReal (Real.exp (φ z)) * C z.2 k) := by
      intro a
      have e2 : (fun Xs => sumExp (S.LW L (take y a) Xs) *
          ∑ k, ENNReal.ofReal (S.wLast (h.snoc a Xs) k) * (ENNReal.ofReal (Real.exp (φ (lastA (h.snoc a Xs).2 k))) *
          S.bs2 Γ (fun v => φ (v, (lastA (h.snoc a Xs).2 k).2)) (h.snoc a Xs) k f)) = fun Xs =>
          ∑ k, ENNReal.ofReal (Real.exp (S.LW L (take y a) Xs k)) *
            (ENNReal.ofReal (Real.exp (φ (Xs k))) * C (Xs k).2 k) := by
        funext Xs
        rw [Finset.mul_sum]
        refine Finset.sum_congr rfl fun k _ => ?_
        rw [← mul_assoc, hbs, Sys.wLast, Sys.lwLast_snoc, sumExp_mul_normalize]
        have : lastA (h.snoc a Xs).2 = Xs := lastA_snocA _ _
        rw [this]
      rw [e2, (hS.Z_ker L).sum]
      · refine Finset.sum_congr rfl fun k _ => ?_
        rw [← hS.idt L (take y a) k (fun z _ => ENNReal.ofReal (Real.exp (φ z)) * C z.2 k)
          ((hECm k).comp measurable_fst)]
        have e3 : ∀ z, S.Q L (take y a) k z (fun _ => ENNReal.ofReal (Real.exp (φ z)) * C z.2 k) =
            ENNReal.ofReal (Real.exp (φ z)) * C z.2 k := by
          intro z
          have := (hS.Q_ker L).const_fun (take y a, k, z) (ENNReal.ofReal (Real.exp (φ z)) * C z.2 k)
          simp only [hS.Q_mass, mul_one] at this
          exact this
        simp only [e3]
        rfl
      · intro k _
        refine Measurable.mul ?_ ((hECm k).comp (measurable_pi_apply k))
        exact ENNReal.measurable_ofReal.comp (Real.measurable_exp.comp ((measurable_pi_apply k).comp
          ((hS.LW_meas L).comp (by fun_prop : Measurable fun Xs : PA (V × V) N => (take y a, Xs)))))
    have e4 : ∑ a, Ulaw (S.R L) w a * S.Z L (take y a) (fun Xs => sumExp (S.LW L (take y a) Xs) *
        ∑ k, ENNReal.ofReal (S.wLast (h.snoc a Xs) k) * (ENNReal.ofReal (Real.exp (φ (lastA (h.snoc a Xs).2 k))) *
          S.bs2 Γ (fun v => φ (v, (lastA (h.snoc a Xs).2 k).2)) (h.snoc a Xs) k f)) =
        ∑ k, ∑ i, ENNReal.ofReal (w i) * S.G L (y i) (fun z => ENNReal.ofReal (Real.exp (φ z)) * C z.2 k) := by
      rw [Finset.sum_congr rfl fun a _ => by rw [e1 a, Finset.mul_sum], Finset.sum_comm]
      refine Finset.sum_congr rfl fun k _ => ?_
      exact (hS.R_ok L).Ulaw_marginal hwp hwpos k
        (fun i => S.G L (y i) (fun z => ENNReal.ofReal (Real.exp (φ z)) * C z.2 k))
    refine e4.trans ?_
    -- step 2: the backward kernel inverts the weights
    let E : Fin (N + 1) → V → ℝ≥0∞ := fun i x =>
      ENNReal.ofReal (Real.exp (Γ L (y i) x)) * ENNReal.ofReal (Real.exp (φ ((y i).2, x)))
    have hEm : ∀ i, Measurable (E i) := fun i =>
      measurable_expR_mul (hΓL.comp (by fun_prop : Measurable fun x : V => (y i, x))) (measurable_expR (by fun_prop))
    have e5 : ∀ k, ∑ i, ENNReal.ofReal (w i) * S.G L (y i) (fun z => ENNReal.ofReal (Real.exp (φ z)) * C z.2 k) =
        ∫⁻ x, ∑ i, ENNReal.ofReal (w i) * (E i x * D x k i) ∂lam := by
      intro k
      have e6 : ∀ i, ENNReal.ofReal (w i) * S.G L (y i) (fun z => ENNReal.ofReal (Real.exp (φ z)) * C z.2 k) =
          ∫⁻ x, ENNReal.ofReal (w i) * (E i x * C x k) ∂lam := by
        intro i
        rw [hd.eq L (y i) _ (hECm k), lintegral_const_mul (f := fun x => E i x * C x k) _ ((hEm i).mul (hCm k))]
        congr 1
        refine lintegral_congr fun x => ?_
        show _ * (_ * _) = _ * _ * _
        rw [mul_assoc]
      simp only [e6]
      rw [← lintegral_finsetSum (f := fun i x => ENNReal.ofReal (w i) * (E i x * C x k)) _ fun i _ =>
        ((hEm i).mul (hCm k)).const_mul _]
      refine lintegral_congr fun x => ?_
      have hZ : ∀ i, (∑ j, ENNReal.ofReal (w j) * E j x) * ENNReal.ofReal (p x i) = ENNReal.ofReal (w i) * E i x := by
        intro i
        have h1 := sumExp_mul_normalize (fun i => S'.lwLast h i + Γ L (y i) x + φ ((y i).2, x)) i
        have h2 : ∀ j, ENNReal.ofReal (Real.exp (S'.lwLast h j + Γ L (y j) x + φ ((y j).2, x))) =
            sumExp (S'.lwLast h) * (ENNReal.ofReal (w j) * E j x) := by
          intro j
          rw [← mul_assoc, hw, Sys.wLast, sumExp_mul_normalize, Real.exp_add,
            ENNReal.ofReal_mul (Real.exp_pos _).le, Real.exp_add,
            ENNReal.ofReal_mul (Real.exp_pos _).le, mul_assoc]
        rw [h2 i, sumExp] at h1
        simp only [h2] at h1
        rw [← Finset.mul_sum, mul_assoc] at h1
        have hpos : sumExp (S'.lwLast h) ≠ 0 := by
          rw [sumExp_eq]
          exact (ENNReal.ofReal_pos.mpr (Finset.sum_pos (fun i _ => Real.exp_pos _)
            Finset.univ_nonempty)).ne'
        have htop : sumExp (S'.lwLast h) ≠ ⊤ := by rw [sumExp_eq]; exact ENNReal.ofReal_ne_top
        exact (ENNReal.mul_right_inj hpos htop).mp h1
      calc ∑ i, ENNReal.ofReal (w i) * (E i x * C x k)
          = (∑ j, ENNReal.ofReal (w j) * E j x) * C x k := by
            rw [Finset.sum_mul]; exact Finset.sum_congr rfl fun i _ => (mul_assoc _ _ _).symm
        _ = ∑ i, ENNReal.ofReal (w i) * (E i x * D x k i) := by
            rw [Finset.mul_sum]
            refine Finset.sum_congr rfl fun i _ => ?_
            rw [← mul_assoc, hZ, mul_assoc]
    simp only [e5]
    rw [← lintegral_finsetSum (f := fun k x => ∑ i, ENNReal.ofReal (w i) * (E i x * D x k i)) _ fun k _ =>
      Finset.measurable_fun_sum _ fun i _ => ((hEm i).mul (hDm k i)).const_mul _]
    -- step 3: collect
    have e7 : ∀ i, ENNReal.ofReal (w i) * ∫⁻ x, ENNReal.ofReal (Real.exp (Γ L (y i) x)) *
        S'.bs2 (initA Γ) (fun v => Γ L (v, (y i).2) x) h i (f' x) ∂lam =
        ∫⁻ x, ENNReal.ofReal (w i) * ∑ k, E i x * D x k i ∂lam := by
      intro i
      rw [lintegral_const_mul (f := fun x => ∑ k, E i x * D x k i) _
        (Finset.measurable_fun_sum _ fun k _ => (hEm i).mul (hDm k i))]
      congr 1
      refine lintegral_congr fun x => ?_
      have h1 := S'.bs2_last (initA Γ) (fun v => Γ L (v, (y i).2) x) h i (fun v r =>
        ENNReal.ofReal (Real.exp (φ (v, x))) * ∑ k, f (snocA r.1 x, snocA r.2 k))
      have hb := hτk.comp (g := fun _ : Unit => (((y i).2, x), h, i)) measurable_const
      have hfk : ∀ k, Measurable fun r : (Fin (n + 1) → V) × (Fin (n + 1) → Fin (N + 1)) =>
          f (snocA r.1 x, snocA r.2 k) := fun k => by fun_prop
      have h2 : S'.bs2 (initA Γ) (fun v => Γ L (v, (y i).2) x) h i (f' x) =
          ENNReal.ofReal (Real.exp (φ ((y i).2, x))) * ∑ k, D x k i := by
        refine h1.trans ?_
        refine (hb.const_mul () (ENNReal.ofReal (Real.exp (φ ((y i).2, x)))) (f := fun r =>
          ∑ k, f (snocA r.1 x, snocA r.2 k)) (Finset.measurable_fun_sum _ fun k _ => hfk k)).trans ?_
        congr 1
        exact hb.sum () _ fun k _ => hfk k
      rw [h2, ← mul_assoc, Finset.mul_sum]
    refine Eq.trans ?_ (Finset.sum_congr rfl fun i _ => (e7 i).symm)
    rw [← lintegral_finsetSum]
    · refine lintegral_congr fun x => ?_
      rw [Finset.sum_comm]
      refine Finset.sum_congr rfl fun i _ => ?_
      rw [Finset.mul_sum]
    · intro i _
      exact (Finset.measurable_fun_sum _ fun k _ => (hEm i).mul (hDm k i)).const_mul _

/-- The conditional forward pass followed by a move of the final index and by backward sampling with memory two. -/
theorem Sys.OK.sampling_invariant2 {S : Sys (V × V) N n} (hS : S.OK) {lam : Measure V} [SFinite lam]
    {Γ : Fin n → V × V → V → ℝ} (hd : S.Density2 lam Γ)
    {move : (Fin (N + 1) → ℝ) → Fin (N + 1) → Ex (Fin (N + 1))} (hm : MoveInvariant move)
    (f : (Fin (n + 1) → V) × (Fin (n + 1) → Fin (N + 1)) → ℝ≥0∞) (hf : Measurable f) :
    ∑ b, S.path (fun z => S.fwd b z (fun h => move (S.wLast h) (lastA b)
      (fun k => S.bs2 Γ (fun _ => 0) h k f))) = ∑ b, S.path (fun z => f (fun t => (z t).2, b)) := by
  have h1 := hS.backward_identity2 hd (φ := fun _ => 0) measurable_const f hf
  simp only [Real.exp_zero, ENNReal.ofReal_one, one_mul] at h1
  rw [hS.move_drop hm (fun h k => S.bs2 Γ (fun _ => 0) h k f)]
  · exact h1
  · have := (hS.sysMeas (Θ := Unit)).bs2_ker (Γ := fun _ => Γ) (fun t => (hd.meas t).comp measurable_snd)
      (τ := fun _ _ => 0) measurable_const
    exact (this.measurable' hf).comp (by fun_prop : Measurable fun p : Hist (V × V) N n × Fin (N + 1) => ((), p))

/-- **Invariance** of the kernel of a conditional particle system with memory two. -/
theorem Sys.OK.kernel2_invariant {S : Sys (V × V) N n} (hS : S.OK) {lam : Measure V} [SigmaFinite lam] {c : V}
    {Γ0 : V → ℝ} {Γ : Fin n → V × V → V → ℝ} (h0 : Measurable Γ0)
    (hG0 : ∀ f, Measurable f → S.G0 f = ∫⁻ x, ENNReal.ofReal (Real.exp (Γ0 x)) * f (c, x) ∂lam)
    (hd : S.Density2 lam Γ) {move : (Fin (N + 1) → ℝ) → Fin (N + 1) → Ex (Fin (N + 1))}
    (hm : MoveInvariant move) (backward : Bool) :
    LeavesInvariant lam (pathLogDensity2 c Γ0 Γ) (S.kernel2 c Γ move backward) := by
  intro f hf
  -- the kernel as a function of the trajectory of pairs
  let K : (Fin (n + 1) → Fin (N + 1)) → (Fin (n + 1) → V × V) → ℝ≥0∞ := fun b z =>
    S.fwd b z (fun h => move (S.wLast h) (lastA b) (fun k =>
      (if backward then S.bs2 Γ (fun _ => 0) h k else pure (fun t => (h.tracex k t).2, h.trace k) : Ex _) f))
  have hKm : ∀ b, Measurable (K b) := by
    intro b
    refine (hS.fwd_ker.comp (g := fun z : Fin (n + 1) → V × V => (b, z)) (by fun_prop)).measurable' ?_
    refine (hm.ker.comp (g := fun h : Hist (V × V) N n => (S.wLast h, lastA b))
      (hS.measurable_wLast.prodMk (by fun_prop))).measurable (f := fun h k =>
        (if backward then S.bs2 Γ (fun _ => 0) h k else pure (fun t => (h.tracex k t).2, h.trace k) : Ex _) f) ?_
    cases backward with
    | true =>
      simp only [if_true]
      have := (hS.sysMeas (Θ := Unit)).bs2_ker (Γ := fun _ => Γ) (fun t => (hd.meas t).comp measurable_snd)
        (τ := fun _ _ => 0) measurable_const
      exact (this.measurable' hf).comp (by fun_prop : Measurable fun p : Hist (V × V) N n × Fin (N + 1) => ((), p))
    | false =>
      simp only [Bool.false_eq_true, if_false]
      show Measurable fun p : Hist (V × V) N n × Fin (N + 1) => f ((fun t => (p.1.tracex p.2 t).2), p.1.trace p.2)
      fun_prop
  have h1 : ∀ b, ∫⁻ x, ENNReal.ofReal (Real.exp (pathLogDensity2 c Γ0 Γ x)) *
      S.kernel2 c Γ move backward x b f ∂(Measure.pi fun _ => lam) = S.path (K b) := fun b =>
    (hS.path_eq2 h0 hG0 hd _ (hKm b)).symm
  have h2 : ∀ b, ∫⁻ x, ENNReal.ofReal (Real.exp (pathLogDensity2 c Γ0 Γ x)) *
      f (x, b) ∂(Measure.pi fun _ => lam) = S.path (fun z => f (fun t => (z t).2, b)) := fun b => by
    rw [hS.path_eq2 h0 hG0 hd _ (by fun_prop)]
    simp only [lift2_snd]
  simp only [h1, h2]
  cases backward with
  | true => exact hS.sampling_invariant2 hd hm f hf
  | false => exact hS.scanning_invariant hm (fun z b => f (fun t => (z t).2, b)) (by fun_prop)

end Verif
