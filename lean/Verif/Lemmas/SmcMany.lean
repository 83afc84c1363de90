import Verif.Lemmas.SmcKernel
import Verif.Lemmas.ManyKernel
import Verif.Spec.SmcMany

/-!
# Particle filters with many particles

The second moment of the evidence estimate, along the returned trajectory, by induction over time.
-/

open scoped ENNReal
open MeasureTheory ProbabilityTheory Finset

namespace Verif
open Verif.Spec Verif.Model

variable {X : Type} [MeasurableSpace X] {N n : ℕ}

/-- The particles are independent, different children have parents that are no more alike than independent draws, and the weights
are bounded. -/
structure Sys.UncondTwo (S : Sys X N n) (c0 : ℝ) (c : Fin n → ℝ) (B : Fin (n + 1) → ℝ) : Prop where
  mass : ∀ t Y b x, S.Q t Y b x (fun _ => 1) = 1
  pairs : ∀ t, PairsFree (S.R t)
  two0 : ∀ b x k m, m ≠ k → ∀ f g, Measurable f → Measurable g →
    S.Q0 b x (fun Xs => ENNReal.ofReal (Real.exp (c0 + S.LW0 Xs k)) * f (Xs k) *
      (ENNReal.ofReal (Real.exp (c0 + S.LW0 Xs m)) * g (Xs m))) = S.G0 f * S.G0 g
  two : ∀ t Y b x k m, m ≠ k → ∀ f g, Measurable f → Measurable g →
    S.Q t Y b x (fun Xs => ENNReal.ofReal (Real.exp (c t + S.LW t Y Xs k)) * f (Xs k) *
      (ENNReal.ofReal (Real.exp (c t + S.LW t Y Xs m)) * g (Xs m))) = S.G t (Y k) f * S.G t (Y m) g
  le0 : ∀ Xs i, c0 + S.LW0 Xs i ≤ B 0
  le : ∀ t Y Xs i, c t + S.LW t Y Xs i ≤ B t.succ

theorem Sys.UncondTwo.init {S : Sys X N (n + 1)} {c0 : ℝ} {c : Fin (n + 1) → ℝ} {B : Fin (n + 2) → ℝ} (h : S.UncondTwo c0 c B) :
    S.init.UncondTwo c0 (initA c) (initA B) where
  mass t := h.mass t.castSucc
  pairs t := h.pairs t.castSucc
  two0 := h.two0
  two t := h.two t.castSucc
  le0 := h.le0
  le t := h.le t.castSucc

/-- Products of two sums over weighted independent particles. -/
theorem pair_bound {Q : Ex (PA X N)} (hQ : IsKer fun _ : Unit => Q) {v : PA X N → Fin (N + 1) → ℝ≥0∞}
    (hv : ∀ k, Measurable fun Xs => v Xs k) {E : ℝ≥0∞} (hE : ∀ Xs k, v Xs k ≤ E) {G : Fin (N + 1) → Ex X}
    (h1 : ∀ k f, Measurable f → Q (fun Xs => v Xs k * f (Xs k)) = G k f)
    (h2 : ∀ k m, m ≠ k → ∀ f g, Measurable f → Measurable g →
      Q (fun Xs => v Xs k * f (Xs k) * (v Xs m * g (Xs m))) = G k f * G m g)
    {φ : Fin (N + 1) → X → ℝ≥0∞} (hφ : ∀ k, Measurable (φ k)) {r : X → ℝ≥0∞} (hr : Measurable r) {C : ℝ≥0∞} (hC : ∀ x, r x ≤ C) :
    Q (fun Xs => (∑ k, v Xs k * φ k (Xs k)) * ∑ m, v Xs m * r (Xs m)) ≤
      (∑ k, ∑ m ∈ univ.erase k, G k (φ k) * G m r) + E * C * ∑ k, G k (φ k) := by
  have hvφ : ∀ k, Measurable fun Xs => v Xs k * φ k (Xs k) := fun k => (hv k).mul ((hφ k).comp (measurable_pi_apply k))
  have hvr : ∀ k, Measurable fun Xs => v Xs k * r (Xs k) := fun k => (hv k).mul (hr.comp (measurable_pi_apply k))
  have hm1 : ∀ k ∈ univ, Measurable fun Xs => ∑ m ∈ univ.erase k, v Xs k * φ k (Xs k) * (v Xs m * r (Xs m)) :=
    fun k _ => Finset.measurable_fun_sum _ fun m _ => (hvφ k).mul (hvr m)
  have hm2 : Measurable fun Xs => ∑ k, v Xs k * φ k (Xs k) := Finset.measurable_fun_sum _ fun k _ => hvφ k
  have hpt : ∀ Xs, (∑ k, v Xs k * φ k (Xs k)) * ∑ m, v Xs m * r (Xs m) ≤
      (∑ k, ∑ m ∈ univ.erase k, v Xs k * φ k (Xs k) * (v Xs m * r (Xs m))) + E * C * ∑ k, v Xs k * φ k (Xs k) := fun Xs => by
    rw [sum_mul, mul_sum, ← sum_add_distrib]
    refine sum_le_sum fun k _ => ?_
    rw [← Finset.add_sum_erase univ _ (mem_univ k), ← mul_sum, mul_add, add_comm, mul_comm (E * C)]
    gcongr
    · exact hE Xs k
    · exact hC _
  refine (hQ.mono () (hm2.mul (Finset.measurable_fun_sum _ fun m _ => hvr m))
    ((Finset.measurable_fun_sum _ hm1).add (hm2.const_mul _)) hpt).trans (le_of_eq ?_)
  refine (hQ.add () (Finset.measurable_fun_sum _ hm1) (hm2.const_mul _)).trans ?_
  rw [hQ.const_mul () _ hm2, hQ.sum () _ hm1, hQ.sum () _ fun k _ => hvφ k]
  congr 1
  · refine sum_congr rfl fun k _ => ?_
    refine (hQ.sum () _ fun m _ => (hvφ k).mul (hvr m)).trans ?_
    exact sum_congr rfl fun m hm => h2 k m (ne_of_mem_erase hm) (φ k) r (hφ k) hr
  · congr 1
    exact sum_congr rfl fun k _ => h1 k (φ k) (hφ k)

theorem meanW_mul_sum (c : ℝ) (lw : Fin (N + 1) → ℝ) (F : Fin (N + 1) → ℝ≥0∞) :
    meanW c lw * ∑ k, ENNReal.ofReal (normalizeW lw k) * F k =
      (N + 1 : ℝ≥0∞)⁻¹ * ∑ k, ENNReal.ofReal (Real.exp (c + lw k)) * F k := by
  rw [meanW_mul_wLast c lw (fun _ => 0)]
  congr 1
  exact sum_congr rfl fun k _ => by rw [← mul_assoc, ← ofReal_exp_add]

theorem meanW_le {c B : ℝ} {lw : Fin (N + 1) → ℝ} (h : ∀ i, c + lw i ≤ B) : meanW c lw ≤ ENNReal.ofReal (Real.exp B) := by
  rw [meanW_eq]
  refine ENNReal.ofReal_le_ofReal ?_
  rw [div_le_iff₀ (by positivity)]
  refine (Finset.sum_le_sum fun i _ => Real.exp_le_exp.mpr ((add_comm _ _).trans_le (h i))).trans (le_of_eq ?_)
  simp [mul_comm]

theorem meanW_pos (c : ℝ) (lw : Fin (N + 1) → ℝ) : meanW c lw ≠ 0 := by
  rw [meanW_eq]
  exact (ENNReal.ofReal_pos.mpr (div_pos (Finset.sum_pos (fun _ _ => Real.exp_pos _) Finset.univ_nonempty) (by positivity))).ne'

omit [MeasurableSpace X] in
theorem Sys.zhat_pos {n : ℕ} (S : Sys X N n) (c0 : ℝ) (c : Fin n → ℝ) (h : Hist X N n) : S.zhat c0 c h ≠ 0 := by
  induction n with
  | zero => exact meanW_pos _ _
  | succ n ih => exact mul_ne_zero (ih S.init (initA c) h.init) (meanW_pos _ _)

theorem Sys.UncondTwo.zhat_le {n : ℕ} {S : Sys X N n} {c0 : ℝ} {c : Fin n → ℝ} {B : Fin (n + 1) → ℝ} (hT : S.UncondTwo c0 c B)
    (h : Hist X N n) : S.zhat c0 c h ≤ ∏ t, ENNReal.ofReal (Real.exp (B t)) := by
  induction n with
  | zero =>
    rw [Fin.prod_univ_one]
    exact meanW_le fun i => hT.le0 _ i
  | succ n ih =>
    rw [Fin.prod_univ_castSucc]
    exact mul_le_mul' (ih hT.init h.init) (meanW_le fun i => hT.le (Fin.last n) _ _ i)

section moments
variable {S : Sys X N n} {c0 : ℝ} {c : Fin n → ℝ} {B : Fin (n + 1) → ℝ}

/-- The trajectory that the backward pass returns from particle `k`. -/
noncomputable def Sys.pick {X : Type} {N n : ℕ} (S : Sys X N n) (Γ : Fin n → X → X → ℝ) (bw : Bool) (h : Hist X N n) (k : Fin (N + 1))
    (f : (Fin (n + 1) → X) → ℝ≥0∞) : ℝ≥0∞ :=
  if bw then S.bs Γ h k (fun r => f r.1) else f (h.tracex k)

/-- The same, in terms of the last step. -/
noncomputable def Sys.pickStep {X : Type} {N n : ℕ} (S : Sys X N (n + 1)) (Γ : Fin (n + 1) → X → X → ℝ) (bw : Bool)
    (f : (Fin (n + 2) → X) → ℝ≥0∞) (h : Hist X N n) (i : Fin (N + 1)) (xl : X) : ℝ≥0∞ :=
  if bw then S.back Γ f h xl else f (snocA (h.tracex i) xl)

omit [MeasurableSpace X] in
theorem Sys.pick_snoc (S : Sys X N (n + 1)) (Γ : Fin (n + 1) → X → X → ℝ) (bw : Bool) (f : (Fin (n + 2) → X) → ℝ≥0∞) (h : Hist X N n)
    (a : Anc N) (Xs : PA X N) (k : Fin (N + 1)) : S.pick Γ bw (h.snoc a Xs) k f = S.pickStep Γ bw f h (a k) (Xs k) := by
  cases bw
  · show f ((h.snoc a Xs).tracex k) = _
    rw [Hist.tracex_snoc]
    rfl
  · exact S.bs_snoc Γ f h a Xs k

theorem Sys.Uncond.measurable_pickStep {S : Sys X N (n + 1)} {c : Fin (n + 1) → ℝ} (hS : S.Uncond c0 c) {Γ : Fin (n + 1) → X → X → ℝ}
    (hΓ : ∀ t, Measurable fun p : X × X => Γ t p.1 p.2) (bw : Bool) {f : (Fin (n + 2) → X) → ℝ≥0∞} (hf : Measurable f) (i : Fin (N + 1)) :
    Measurable fun p : Hist X N n × X => S.pickStep Γ bw f p.1 i p.2 := by
  cases bw
  · exact hf.comp (by fun_prop : Measurable fun p : Hist X N n × X => snocA (p.1.tracex i) p.2)
  · exact hS.measurable_back hΓ hf

theorem Sys.Uncond.measurable_pick (hS : S.Uncond c0 c) {Γ : Fin n → X → X → ℝ}
    (hΓ : ∀ t, Measurable fun p : X × X => Γ t p.1 p.2) (bw : Bool) {f : (Fin (n + 1) → X) → ℝ≥0∞} (hf : Measurable f) (k : Fin (N + 1)) :
    Measurable fun h : Hist X N n => S.pick Γ bw h k f := by
  cases bw
  · exact hf.comp (by fun_prop : Measurable fun h : Hist X N n => h.tracex k)
  · exact ((hS.bs_ker hΓ).comp (g := fun h : Hist X N n => (h, k)) (by fun_prop)).measurable' (f := fun r => f r.1) (by fun_prop)

theorem Sys.Uncond.measurable_next {S : Sys X N (n + 1)} {c : Fin (n + 1) → ℝ} (hS : S.Uncond c0 c) {f : (Fin (n + 2) → X) → ℝ≥0∞}
    (hf : Measurable f) : Measurable (S.ahead f) :=
  ((hS.G_ker (Fin.last n)).comp (g := fun y : Fin (n + 1) → X => lastA y) (by fun_prop)).measurable
    (f := fun y x' => f (snocA y x')) (by fun_prop)

theorem Sys.Uncond.pick_sum {S : Sys X N (n + 1)} {c : Fin (n + 1) → ℝ} (hS : S.Uncond c0 c) {lam : Measure X} [SFinite lam]
    {Γ : Fin (n + 1) → X → X → ℝ} (hd : S.Density lam Γ) (bw : Bool) {f : (Fin (n + 2) → X) → ℝ≥0∞} (hf : Measurable f) (h : Hist X N n) :
    ∑ i, ENNReal.ofReal (S.init.wLast h i) * S.G (Fin.last n) (lastA h.2 i) (S.pickStep Γ bw f h i) =
      ∑ i, ENNReal.ofReal (S.init.wLast h i) * S.init.pick (initA Γ) bw h i (S.ahead f) := by
  cases bw
  · refine sum_congr rfl fun i _ => ?_
    have : lastA (h.tracex i) = lastA h.2 i := h.tracex_last i
    show _ = _ * S.G (Fin.last n) (lastA (h.tracex i)) _
    rw [this]
    rfl
  · exact hS.back_sum hd hf h

/-- The trajectory weighted by the evidence. -/
theorem Sys.Uncond.proper {lam : Measure X} [SFinite lam] (hS : S.Uncond c0 c) {Γ : Fin n → X → X → ℝ} (hd : S.Density lam Γ) (bw : Bool)
    (b : Fin (n + 1) → Fin (N + 1)) (x : Fin (n + 1) → X) {f : (Fin (n + 1) → X) → ℝ≥0∞} (hf : Measurable f) :
    S.fwd b x (fun h => S.zhat c0 c h * ∑ k, ENNReal.ofReal (S.wLast h k) * S.pick Γ bw h k f) = S.path f := by
  cases bw
  · exact hS.scan b x f hf
  · exact hS.sampling hd b x f hf

theorem Sys.Uncond.measurable_w (hS : S.Uncond c0 c) (k : Fin (N + 1)) : Measurable fun h => ENNReal.ofReal (S.wLast h k) :=
  ENNReal.measurable_ofReal.comp ((measurable_pi_apply k).comp (hS.meas.measurable_wLast.comp (by fun_prop : Measurable fun h : Hist X N n => ((), h))))

theorem Sys.Uncond.fwd_le {S : Sys X N (n + 1)} {c : Fin (n + 1) → ℝ} (hS : S.Uncond c0 c) (b : Fin (n + 2) → Fin (N + 1)) (x : Fin (n + 2) → X)
    {Φ : Hist X N (n + 1) → ℝ≥0∞} (hΦ : Measurable Φ) {Ψ : Hist X N n → ℝ≥0∞} (hΨ : Measurable Ψ) (h : ∀ h, S.lastStep b x Φ h ≤ Ψ h) :
    S.fwd b x Φ ≤ S.init.fwd (initA b) (initA x) Ψ := by
  have hw : Measurable fun h : Hist X N n => S.init.wLast h :=
    hS.init.meas.measurable_wLast.comp (by fun_prop : Measurable fun h : Hist X N n => ((), h))
  have hk := hS.meas.step_ker (Fin.last n) (β := Hist X N n) (θ := fun _ => ()) (w := fun h => S.init.wLast h) (y := fun h => lastA h.2)
    (i := fun _ => b (Fin.last n).castSucc) (j := fun _ => b (Fin.last (n + 1))) (x := fun _ => x (Fin.last (n + 1)))
    (by fun_prop) hw (by fun_prop) (by fun_prop) (by fun_prop) (by fun_prop)
  have hm : Measurable (S.lastStep b x Φ) := hk.measurable (f := fun h r => Φ (h.snoc r.1 r.2)) (hΦ.comp (by fun_prop))
  exact hS.init.meas.fwd_ker.mono ((), initA b, initA x) hm hΨ h

theorem mul_quad {z μ a a' p q : ℝ≥0∞} (h : μ * a = p) (h' : μ * a' = q) : z * μ * a * (z * μ * a') = z * p * (z * q) := by
  rw [← h, ← h']
  ring

/-- The last step of the second moment. -/
theorem Sys.Uncond.second_point {S : Sys X N (n + 1)} {c : Fin (n + 1) → ℝ} {B : Fin (n + 2) → ℝ} (hS : S.Uncond c0 c) (hT : S.UncondTwo c0 c B)
    (b : Fin (n + 2) → Fin (N + 1)) (x : Fin (n + 2) → X)
    (g : Hist X N n → Fin (N + 1) → X → ℝ≥0∞) (hg : ∀ i, Measurable fun p : Hist X N n × X => g p.1 i p.2)
    (F : Hist X N (n + 1) → Fin (N + 1) → ℝ≥0∞)
    (hF : ∀ h a Xs k, F (h.snoc a Xs) k = g h (a k) (Xs k)) {r : X → ℝ≥0∞} (hr : Measurable r) {C : ℝ≥0∞} (hC : ∀ x, r x ≤ C)
    (h : Hist X N n) :
    S.lastStep b x (fun h => S.zhat c0 c h * (∑ k, ENNReal.ofReal (S.wLast h k) * F h k) *
        (S.zhat c0 c h * ∑ m, ENNReal.ofReal (S.wLast h m) * r (lastA h.2 m))) h ≤
      S.init.zhat c0 (initA c) h *
          (∑ i, ENNReal.ofReal (S.init.wLast h i) * S.G (Fin.last n) (lastA h.2 i) (g h i)) *
          (S.init.zhat c0 (initA c) h * ∑ i, ENNReal.ofReal (S.init.wLast h i) * S.G (Fin.last n) (lastA h.2 i) r) +
        (N + 1 : ℝ≥0∞)⁻¹ * (ENNReal.ofReal (Real.exp (lastA B)) * C) * (S.init.zhat c0 (initA c) h *
            (∑ i, ENNReal.ofReal (S.init.wLast h i) * S.G (Fin.last n) (lastA h.2 i) (g h i)) * S.init.zhat c0 (initA c) h) := by
  set ν : ℝ≥0∞ := (N + 1 : ℝ≥0∞)⁻¹ with hν
  have hNN : ((N : ℝ≥0∞) + 1) * ν = 1 := ENNReal.mul_inv_cancel (by positivity) (by finiteness)
  set E : ℝ≥0∞ := ENNReal.ofReal (Real.exp (lastA B))
  have e0 : ∀ a Xs, S.zhat c0 c (h.snoc a Xs) * (∑ k, ENNReal.ofReal (S.wLast (h.snoc a Xs) k) * F (h.snoc a Xs) k) *
      (S.zhat c0 c (h.snoc a Xs) * ∑ m, ENNReal.ofReal (S.wLast (h.snoc a Xs) m) * r (lastA (h.snoc a Xs).2 m)) =
      (S.init.zhat c0 (initA c) h * ν) ^ 2 *
        ((∑ k, ENNReal.ofReal (Real.exp (lastA c + S.LW (Fin.last n) (take (lastA h.2) a) Xs k)) * g h (a k) (Xs k)) *
          ∑ m, ENNReal.ofReal (Real.exp (lastA c + S.LW (Fin.last n) (take (lastA h.2) a) Xs m)) * r (Xs m)) := fun a Xs => by
    have ez : S.zhat c0 c (h.snoc a Xs) = S.init.zhat c0 (initA c) h * meanW (lastA c) (S.LW (Fin.last n) (take (lastA h.2) a) Xs) := by
      show S.init.zhat c0 (initA c) (h.snoc a Xs).init * meanW (lastA c) (S.lwLast (h.snoc a Xs)) = _
      rw [Hist.init_snoc, Sys.lwLast_snoc]
    have el : lastA (h.snoc a Xs).2 = Xs := lastA_snocA _ _
    rw [ez, el]
    simp only [Sys.wLast, Sys.lwLast_snoc, hF]
    have eA := meanW_mul_sum (lastA c) (S.LW (Fin.last n) (take (lastA h.2) a) Xs) (fun k => g h (a k) (Xs k))
    have eB := meanW_mul_sum (lastA c) (S.LW (Fin.last n) (take (lastA h.2) a) Xs) (fun m => r (Xs m))
    exact (mul_quad eA eB).trans (by ring)
  show S.R (Fin.last n) (S.init.wLast h) (b (Fin.last n).castSucc) (b (Fin.last (n + 1))) (fun a =>
    S.Q (Fin.last n) (take (lastA h.2) a) (b (Fin.last (n + 1))) (x (Fin.last (n + 1))) fun Xs => _) ≤ _
  simp only [e0]
  set y := lastA h.2
  set w := S.init.wLast h
  set z := S.init.zhat c0 (initA c) h
  have hr' : IsKer fun _ : Unit => S.R (Fin.last n) w (b (Fin.last n).castSucc) (b (Fin.last (n + 1))) :=
    (hS.meas.R_ker (Fin.last n)).comp (g := fun _ : Unit => ((), w, b (Fin.last n).castSucc, b (Fin.last (n + 1)))) measurable_const
  have e1 : ∀ a, S.Q (Fin.last n) (take y a) (b (Fin.last (n + 1))) (x (Fin.last (n + 1))) (fun Xs => (z * ν) ^ 2 *
        ((∑ k, ENNReal.ofReal (Real.exp (lastA c + S.LW (Fin.last n) (take y a) Xs k)) * g h (a k) (Xs k)) *
          ∑ m, ENNReal.ofReal (Real.exp (lastA c + S.LW (Fin.last n) (take y a) Xs m)) * r (Xs m))) ≤
      (z * ν) ^ 2 * ((∑ k, ∑ m ∈ univ.erase k, S.G (Fin.last n) (y (a k)) (g h (a k)) * S.G (Fin.last n) (y (a m)) r) +
        E * C * ∑ k, S.G (Fin.last n) (y (a k)) (g h (a k))) := by
    intro a
    have hq : IsKer fun _ : Unit => S.Q (Fin.last n) (take y a) (b (Fin.last (n + 1))) (x (Fin.last (n + 1))) :=
      (hS.meas.Q_ker (Fin.last n)).comp (g := fun _ : Unit => ((), take y a, b (Fin.last (n + 1)), x (Fin.last (n + 1)))) measurable_const
    have hlw : ∀ k, Measurable fun Xs : PA X N => S.LW (Fin.last n) (take y a) Xs k := fun k =>
      (measurable_pi_apply k).comp ((hS.meas.LW_meas (Fin.last n)).comp (by fun_prop : Measurable fun Xs : PA X N => ((), take y a, Xs)))
    have hv : ∀ k, Measurable fun Xs : PA X N => ENNReal.ofReal (Real.exp (lastA c + S.LW (Fin.last n) (take y a) Xs k)) := fun k =>
      measurable_expR ((hlw k).const_add _)
    have hgh : ∀ i, Measurable (g h i) := fun i => (hg i).comp (by fun_prop : Measurable fun xl : X => (h, xl))
    have h1 : ∀ k (f : X → ℝ≥0∞), Measurable f → S.Q (Fin.last n) (take y a) (b (Fin.last (n + 1))) (x (Fin.last (n + 1)))
        (fun Xs => ENNReal.ofReal (Real.exp (lastA c + S.LW (Fin.last n) (take y a) Xs k)) * f (Xs k)) = S.G (Fin.last n) (y (a k)) f := fun k f hf => by
      have h3 := hS.idt (Fin.last n) (take y a) (b (Fin.last (n + 1))) (x (Fin.last (n + 1))) k f hf
      have hm : Measurable fun Xs : PA X N => ENNReal.ofReal (Real.exp (S.LW (Fin.last n) (take y a) Xs k)) * f (Xs k) :=
        (measurable_expR (hlw k)).mul (hf.comp (measurable_pi_apply k))
      rw [← hq.const_mul () _ hm] at h3
      refine Eq.trans (Ex.congr_fun' _ fun Xs => ?_) h3
      rw [← mul_assoc, ← ofReal_exp_add]
      rfl
    have hb := pair_bound hq hv (E := E) (fun Xs k => ENNReal.ofReal_le_ofReal (Real.exp_le_exp.mpr (hT.le (Fin.last n) _ _ k)))
      (G := fun k => S.G (Fin.last n) (y (a k))) h1 (fun k m hkm f g hf hg => hT.two (Fin.last n) (take y a) _ _ k m hkm f g hf hg)
      (φ := fun k => g h (a k)) (fun k => hgh _) hr hC
    have hm : Measurable fun Xs : PA X N =>
        (∑ k, ENNReal.ofReal (Real.exp (lastA c + S.LW (Fin.last n) (take y a) Xs k)) * g h (a k) (Xs k)) *
          ∑ m, ENNReal.ofReal (Real.exp (lastA c + S.LW (Fin.last n) (take y a) Xs m)) * r (Xs m) :=
      (Finset.measurable_fun_sum _ fun k _ => (hv k).mul ((hgh _).comp (measurable_pi_apply k))).mul
        (Finset.measurable_fun_sum _ fun k _ => (hv k).mul (hr.comp (measurable_pi_apply k)))
    rw [hq.const_mul () _ hm]
    exact mul_le_mul_right hb _
  refine (hr'.mono () (measurable_of_countable _) (measurable_of_countable _) e1).trans ?_
  rw [hr'.const_mul () _ (measurable_of_countable _), hr'.add () (measurable_of_countable _) (measurable_of_countable _),
    hr'.const_mul () _ (measurable_of_countable _),
    hS.unb (Fin.last n) w _ _ (normalize_isProb _) (fun i => S.G (Fin.last n) (y i) (g h i))]
  have hp := hT.pairs (Fin.last n) w (normalize_isProb _) (b (Fin.last n).castSucc) (b (Fin.last (n + 1))) (fun i => S.G (Fin.last n) (y i) (g h i)) (fun i => S.G (Fin.last n) (y i) r)
  refine (mul_le_mul_right (add_le_add hp le_rfl) _).trans (le_of_eq ?_)
  generalize (∑ i, ENNReal.ofReal (w i) * S.G (Fin.last n) (y i) (g h i)) = A
  generalize (∑ i, ENNReal.ofReal (w i) * S.G (Fin.last n) (y i) r) = A'
  calc (z * ν) ^ 2 * ((N + 1) ^ 2 * (A * A') + E * C * ((N + 1) * A))
      = z * A * (z * A') * (((N + 1) * ν) * ((N + 1) * ν)) + ν * (E * C) * (z * A * z) * ((N + 1) * ν) := by ring
    _ = _ := by rw [hNN, mul_one, mul_one, mul_one]

/-- One step of the second moment. -/
theorem Sys.Uncond.second_step {S : Sys X N (n + 1)} {c : Fin (n + 1) → ℝ} {B : Fin (n + 2) → ℝ} (hS : S.Uncond c0 c) (hT : S.UncondTwo c0 c B)
    (b : Fin (n + 2) → Fin (N + 1)) (x : Fin (n + 2) → X)
    (g : Hist X N n → Fin (N + 1) → X → ℝ≥0∞) (hg : ∀ i, Measurable fun p : Hist X N n × X => g p.1 i p.2)
    (F : Hist X N (n + 1) → Fin (N + 1) → ℝ≥0∞) (hFm : ∀ k, Measurable fun h => F h k)
    (hF : ∀ h a Xs k, F (h.snoc a Xs) k = g h (a k) (Xs k)) {r : X → ℝ≥0∞} (hr : Measurable r) {C : ℝ≥0∞} (hC : ∀ x, r x ≤ C) :
    S.fwd b x (fun h => S.zhat c0 c h * (∑ k, ENNReal.ofReal (S.wLast h k) * F h k) *
        (S.zhat c0 c h * ∑ m, ENNReal.ofReal (S.wLast h m) * r (lastA h.2 m))) ≤
      S.init.fwd (initA b) (initA x) (fun h => S.init.zhat c0 (initA c) h *
          (∑ i, ENNReal.ofReal (S.init.wLast h i) * S.G (Fin.last n) (lastA h.2 i) (g h i)) *
          (S.init.zhat c0 (initA c) h * ∑ i, ENNReal.ofReal (S.init.wLast h i) * S.G (Fin.last n) (lastA h.2 i) r)) +
        (N + 1 : ℝ≥0∞)⁻¹ * (ENNReal.ofReal (Real.exp (lastA B)) * C) *
          S.init.fwd (initA b) (initA x) (fun h => S.init.zhat c0 (initA c) h *
            (∑ i, ENNReal.ofReal (S.init.wLast h i) * S.G (Fin.last n) (lastA h.2 i) (g h i)) * S.init.zhat c0 (initA c) h) := by
  set L := Fin.last n
  set ν : ℝ≥0∞ := (N + 1 : ℝ≥0∞)⁻¹ with hν
  have hNN : ((N : ℝ≥0∞) + 1) * ν = 1 := ENNReal.mul_inv_cancel (by positivity) (by finiteness)
  set E : ℝ≥0∞ := ENNReal.ofReal (Real.exp (lastA B))
  have hSi := hS.init
  -- measurability
  have hz := hS.meas.measurable_zhat c0 c
  have hz' := hSi.meas.measurable_zhat c0 (initA c)
  have hGg : ∀ i, Measurable fun h : Hist X N n => S.G L (lastA h.2 i) (g h i) := fun i =>
    ((hS.G_ker L).comp (g := fun h : Hist X N n => lastA h.2 i) (by fun_prop)).measurable (f := fun h xl => g h i xl) (hg i)
  have hGr : ∀ i, Measurable fun h : Hist X N n => S.G L (lastA h.2 i) r := fun i =>
    ((hS.G_ker L).comp (g := fun h : Hist X N n => lastA h.2 i) (by fun_prop)).measurable' hr
  have hA : Measurable fun h : Hist X N n => ∑ i, ENNReal.ofReal (S.init.wLast h i) * S.G L (lastA h.2 i) (g h i) :=
    Finset.measurable_fun_sum _ fun i _ => (hSi.measurable_w i).mul (hGg i)
  have hA' : Measurable fun h : Hist X N n => ∑ i, ENNReal.ofReal (S.init.wLast h i) * S.G L (lastA h.2 i) r :=
    Finset.measurable_fun_sum _ fun i _ => (hSi.measurable_w i).mul (hGr i)
  have hΦ : Measurable fun h => S.zhat c0 c h * (∑ k, ENNReal.ofReal (S.wLast h k) * F h k) *
        (S.zhat c0 c h * ∑ m, ENNReal.ofReal (S.wLast h m) * r (lastA h.2 m)) :=
    (hz.mul (Finset.measurable_fun_sum _ fun k _ => (hS.measurable_w k).mul (hFm k))).mul
      (hz.mul (Finset.measurable_fun_sum _ fun m _ => (hS.measurable_w m).mul
        (hr.comp (by fun_prop : Measurable fun h : Hist X N (n + 1) => lastA h.2 m))))
  have hfi : IsKer fun _ : Unit => S.init.fwd (initA b) (initA x) :=
    hSi.meas.fwd_ker.comp (g := fun _ : Unit => ((), initA b, initA x)) measurable_const
  refine (hS.fwd_le b x hΦ (((hz'.mul hA).mul (hz'.mul hA')).add (((hz'.mul hA).mul hz').const_mul (ν * (E * C))))
    fun h => hS.second_point hT b x g hg F hF hr hC h).trans (le_of_eq ?_)
  refine (hfi.add () ((hz'.mul hA).mul (hz'.mul hA')) (((hz'.mul hA).mul hz').const_mul (ν * (E * C)))).trans ?_
  rw [hfi.const_mul () _ ((hz'.mul hA).mul hz')]
  rfl

theorem Sys.Uncond.G_le {S : Sys X N (n + 1)} {c : Fin (n + 1) → ℝ} {B : Fin (n + 2) → ℝ} (hS : S.Uncond c0 c) (hT : S.UncondTwo c0 c B)
    {r : X → ℝ≥0∞} (hr : Measurable r) {C : ℝ≥0∞} (hC : ∀ x, r x ≤ C) (y : X) :
    S.G (Fin.last n) y r ≤ ENNReal.ofReal (Real.exp (lastA B)) * C := by
  have hq : IsKer fun _ : Unit => S.Q (Fin.last n) (fun _ => y) 0 y :=
    (hS.meas.Q_ker (Fin.last n)).comp (g := fun _ : Unit => ((), (fun _ => y), 0, y)) measurable_const
  have hlw : Measurable fun Xs : PA X N => S.LW (Fin.last n) (fun _ => y) Xs 0 :=
    (measurable_pi_apply 0).comp ((hS.meas.LW_meas (Fin.last n)).comp (by fun_prop : Measurable fun Xs : PA X N => ((), (fun _ => y), Xs)))
  have hm : Measurable fun Xs : PA X N => ENNReal.ofReal (Real.exp (S.LW (Fin.last n) (fun _ => y) Xs 0)) * r (Xs 0) :=
    (measurable_expR hlw).mul (hr.comp (measurable_pi_apply 0))
  have h1 := hS.idt (Fin.last n) (fun _ => y) 0 y 0 r hr
  rw [← hq.const_mul () _ hm] at h1
  refine h1.symm.le.trans ((hq.mono () (hm.const_mul _) measurable_const (g := fun _ => ENNReal.ofReal (Real.exp (lastA B)) * C) fun Xs => ?_).trans ?_)
  · rw [← mul_assoc, ← ofReal_exp_add]
    exact mul_le_mul' (ENNReal.ofReal_le_ofReal (Real.exp_le_exp.mpr (hT.le (Fin.last n) _ _ _))) (hC _)
  · rw [hq.const_fun (), hT.mass, mul_one]

/-- **Second moment** of the evidence estimate along the returned trajectory. -/
theorem Sys.Uncond.second {n : ℕ} {S : Sys X N n} {c : Fin n → ℝ} {B : Fin (n + 1) → ℝ} {lam : Measure X} [SFinite lam] (hS : S.Uncond c0 c)
    (hT : S.UncondTwo c0 c B) {Γ : Fin n → X → X → ℝ} (hd : S.Density lam Γ) (bw : Bool)
    (b : Fin (n + 1) → Fin (N + 1)) (x : Fin (n + 1) → X) {f : (Fin (n + 1) → X) → ℝ≥0∞} (hf : Measurable f)
    {r : X → ℝ≥0∞} (hr : Measurable r) {C : ℝ≥0∞} (hC : ∀ x, r x ≤ C) :
    S.fwd b x (fun h => S.zhat c0 c h * (∑ k, ENNReal.ofReal (S.wLast h k) * S.pick Γ bw h k f) *
        (S.zhat c0 c h * ∑ m, ENNReal.ofReal (S.wLast h m) * r (lastA h.2 m))) ≤
      S.path f * (S.path (fun y => r (lastA y)) + (n + 1) * ((N : ℝ≥0∞) + 1)⁻¹ * (∏ t, ENNReal.ofReal (Real.exp (B t))) * C) := by
  have hNN : ((N : ℝ≥0∞) + 1) * ((N : ℝ≥0∞) + 1)⁻¹ = 1 := ENNReal.mul_inv_cancel (by positivity) (by finiteness)
  induction n generalizing r C with
  | zero =>
    let g : X → ℝ≥0∞ := fun x => f fun _ => x
    have hg : Measurable g := by fun_prop
    have e0 : ∀ x0 : PA X N, meanW c0 (S.LW0 x0) * (∑ k, ENNReal.ofReal (normalizeW (S.LW0 x0) k) * g (x0 k)) *
        (meanW c0 (S.LW0 x0) * ∑ m, ENNReal.ofReal (normalizeW (S.LW0 x0) m) * r (x0 m)) =
        (((N : ℝ≥0∞) + 1)⁻¹) ^ 2 * ((∑ k, ENNReal.ofReal (Real.exp (c0 + S.LW0 x0 k)) * g (x0 k)) *
          ∑ m, ENNReal.ofReal (Real.exp (c0 + S.LW0 x0 m)) * r (x0 m)) := fun x0 => by
      rw [meanW_mul_sum, meanW_mul_sum]
      ring
    have hL : S.fwd b x (fun h => S.zhat c0 c h * (∑ k, ENNReal.ofReal (S.wLast h k) * S.pick Γ bw h k f) *
        (S.zhat c0 c h * ∑ m, ENNReal.ofReal (S.wLast h m) * r (lastA h.2 m))) =
      S.Q0 (b 0) (x 0) (fun x0 => meanW c0 (S.LW0 x0) * (∑ k, ENNReal.ofReal (normalizeW (S.LW0 x0) k) * g (x0 k)) *
        (meanW c0 (S.LW0 x0) * ∑ m, ENNReal.ofReal (normalizeW (S.LW0 x0) m) * r (x0 m))) := by cases bw <;> rfl
    rw [hL]
    simp only [e0]
    have hq : IsKer fun _ : Unit => S.Q0 (b 0) (x 0) := hS.meas.Q0_ker.comp (g := fun _ : Unit => ((), b 0, x 0)) measurable_const
    have hlw : ∀ k, Measurable fun Xs : PA X N => S.LW0 Xs k := fun k =>
      (measurable_pi_apply k).comp (hS.meas.LW0_meas.comp (by fun_prop : Measurable fun Xs : PA X N => ((), Xs)))
    have hv : ∀ k, Measurable fun Xs : PA X N => ENNReal.ofReal (Real.exp (c0 + S.LW0 Xs k)) := fun k =>
      measurable_expR ((hlw k).const_add _)
    have h1 : ∀ k (f : X → ℝ≥0∞), Measurable f → S.Q0 (b 0) (x 0)
        (fun Xs => ENNReal.ofReal (Real.exp (c0 + S.LW0 Xs k)) * f (Xs k)) = S.G0 f := fun k f hf => by
      have h3 := hS.id0 (b 0) (x 0) k f hf
      have hm : Measurable fun Xs : PA X N => ENNReal.ofReal (Real.exp (S.LW0 Xs k)) * f (Xs k) :=
        (measurable_expR (hlw k)).mul (hf.comp (measurable_pi_apply k))
      rw [← hq.const_mul () _ hm] at h3
      refine Eq.trans (Ex.congr_fun' _ fun Xs => ?_) h3
      rw [← mul_assoc, ← ofReal_exp_add]
    have hb := pair_bound hq hv (E := ENNReal.ofReal (Real.exp (B 0))) (fun Xs k => ENNReal.ofReal_le_ofReal (Real.exp_le_exp.mpr (hT.le0 _ k)))
      (G := fun _ => S.G0) h1 (fun k m hkm f g hf hg => hT.two0 _ _ k m hkm f g hf hg) (φ := fun _ => g) (fun _ => hg) hr hC
    have hm : Measurable fun Xs : PA X N => (∑ k, ENNReal.ofReal (Real.exp (c0 + S.LW0 Xs k)) * g (Xs k)) *
          ∑ m, ENNReal.ofReal (Real.exp (c0 + S.LW0 Xs m)) * r (Xs m) :=
      (Finset.measurable_fun_sum _ fun k _ => (hv k).mul (hg.comp (measurable_pi_apply k))).mul
        (Finset.measurable_fun_sum _ fun k _ => (hv k).mul (hr.comp (measurable_pi_apply k)))
    rw [hq.const_mul () _ hm]
    have ep : S.path f = S.G0 g := rfl
    have er : S.path (fun y => r (lastA y)) = S.G0 r := rfl
    rw [ep, er]
    have hs1 : ∑ k : Fin (N + 1), ∑ m ∈ univ.erase k, S.G0 g * S.G0 r ≤ (N + 1) ^ 2 * (S.G0 g * S.G0 r) := by
      refine (sum_le_sum fun k _ => sum_le_sum_of_subset (erase_subset k univ)).trans (le_of_eq ?_)
      rw [sum_const, sum_const, card_univ, Fintype.card_fin, nsmul_eq_mul, nsmul_eq_mul]
      push_cast
      ring
    have hs2 : ∑ k : Fin (N + 1), S.G0 g = (N + 1) * S.G0 g := by
      rw [sum_const, card_univ, Fintype.card_fin, nsmul_eq_mul]
      push_cast
      ring
    refine (mul_le_mul_right (hb.trans (add_le_add hs1 (by rw [hs2]))) _).trans (le_of_eq ?_)
    simp only [Fin.prod_univ_succ, univ_eq_empty, prod_empty, mul_one, CharP.cast_eq_zero, zero_add]
    generalize ((N : ℝ≥0∞) + 1)⁻¹ = ν at hNN ⊢
    calc _ = S.G0 g * S.G0 r * (((N + 1) * ν) * ((N + 1) * ν)) + S.G0 g * (ν * ENNReal.ofReal (Real.exp (B 0)) * C) * ((N + 1) * ν) := by ring
      _ = _ := by rw [hNN]; ring
  | succ n ih =>
    let r' : X → ℝ≥0∞ := fun y => S.G (Fin.last n) y r
    have hr' : Measurable r' := (hS.G_ker (Fin.last n)).measurable' hr
    have hstep := hS.second_step hT b x (S.pickStep Γ bw f) (hS.measurable_pickStep hd.meas bw hf) (fun h k => S.pick Γ bw h k f)
      (hS.measurable_pick hd.meas bw hf) (S.pick_snoc Γ bw f) hr hC
    simp only [hS.pick_sum hd bw hf] at hstep
    have hg := hS.measurable_next hf
    have h1 := ih hS.init hT.init hd.init (initA b) (initA x) hg hr' (C := ENNReal.ofReal (Real.exp (lastA B)) * C)
      (fun y => hS.G_le hT hr hC y)
    have hfi : IsKer fun _ : Unit => S.init.fwd (initA b) (initA x) :=
      hS.init.meas.fwd_ker.comp (g := fun _ : Unit => ((), initA b, initA x)) measurable_const
    have hma : Measurable fun h : Hist X N n => S.init.zhat c0 (initA c) h *
        ∑ i, ENNReal.ofReal (S.init.wLast h i) * S.init.pick (initA Γ) bw h i (S.ahead f) :=
      (hS.init.meas.measurable_zhat c0 (initA c)).mul (Finset.measurable_fun_sum _ fun i _ => (hS.init.measurable_w i).mul
        (hS.init.measurable_pick hd.init.meas bw hg i))
    have h2 : S.init.fwd (initA b) (initA x) (fun h => S.init.zhat c0 (initA c) h *
        (∑ i, ENNReal.ofReal (S.init.wLast h i) * S.init.pick (initA Γ) bw h i (S.ahead f)) * S.init.zhat c0 (initA c) h) ≤
        (∏ t, ENNReal.ofReal (Real.exp (initA B t))) * S.path f := by
      refine (hfi.mono () (hma.mul (hS.init.meas.measurable_zhat c0 (initA c))) (hma.const_mul (∏ t, ENNReal.ofReal (Real.exp (initA B t))))
        fun h => ?_).trans ?_
      · rw [mul_comm]
        exact mul_le_mul_left (hT.init.zhat_le h) _
      · rw [hfi.const_mul () _ hma, hS.init.proper hd.init bw (initA b) (initA x) hg]
        rfl
    have ep : S.init.path (S.ahead f) = S.path f := rfl
    have er : S.init.path (fun y => r' (lastA y)) = S.path (fun y => r (lastA y)) := by
      show _ = S.init.path (fun y => S.G (Fin.last n) (lastA y) fun xl => r (lastA (snocA y xl)))
      simp only [lastA_snocA]
      rfl
    rw [ep, er] at h1
    refine hstep.trans ((add_le_add h1 (mul_le_mul_right h2 _)).trans (le_of_eq ?_))
    rw [Fin.prod_univ_castSucc (n := n + 1)]
    have eB : (∏ t : Fin (n + 1), ENNReal.ofReal (Real.exp (B t.castSucc))) = ∏ t, ENNReal.ofReal (Real.exp (initA B t)) := rfl
    have eL : B (Fin.last (n + 1)) = lastA B := rfl
    rw [eB, eL]
    push_cast
    ring

/-- **Lower bound** on the law of the returned trajectory. -/
theorem Sys.Uncond.law_ge {lam : Measure X} [SFinite lam] (hS : S.Uncond c0 c)
    (hT : S.UncondTwo c0 c B) {Γ : Fin n → X → X → ℝ} (hd : S.Density lam Γ) (bw : Bool)
    (hZ0 : S.path (fun _ => 1) ≠ 0) (hZ : S.path (fun _ => 1) ≠ ∞)
    (b : Fin (n + 1) → Fin (N + 1)) (x : Fin (n + 1) → X) {f : (Fin (n + 1) → X) → ℝ≥0∞} (hf : Measurable f) :
    (S.path (fun _ => 1) + (n + 1) * ((N : ℝ≥0∞) + 1)⁻¹ * ∏ t, ENNReal.ofReal (Real.exp (B t)))⁻¹ * S.path f ≤
      S.fwd b x (fun h => ∑ k, ENNReal.ofReal (S.wLast h k) * S.pick Γ bw h k f) := by
  have h2 := hS.second hT hd bw b x hf (r := fun _ => 1) measurable_const (C := 1) fun _ => le_rfl
  rw [mul_one] at h2
  have hc : S.path (fun _ => 1) + (n + 1) * ((N : ℝ≥0∞) + 1)⁻¹ * ∏ t, ENNReal.ofReal (Real.exp (B t)) ≠ 0 := fun h =>
    hZ0 (add_eq_zero.mp h).1
  have hc' : S.path (fun _ => 1) + (n + 1) * ((N : ℝ≥0∞) + 1)⁻¹ * ∏ t, ENNReal.ofReal (Real.exp (B t)) ≠ ∞ :=
    ENNReal.add_ne_top.mpr ⟨hZ, ENNReal.mul_ne_top (by finiteness) (ENNReal.prod_ne_top fun t _ => ENNReal.ofReal_ne_top)⟩
  generalize S.path (fun _ => 1) + (n + 1) * ((N : ℝ≥0∞) + 1)⁻¹ * ∏ t, ENNReal.ofReal (Real.exp (B t)) = K at *
  have hKK : K * K⁻¹ = 1 := ENNReal.mul_inv_cancel hc hc'
  have hm : Measurable fun h : Hist X N n => ∑ k, ENNReal.ofReal (S.wLast h k) * S.pick Γ bw h k f :=
    Finset.measurable_fun_sum _ fun i _ => (hS.measurable_w i).mul (hS.measurable_pick hd.meas bw hf i)
  have hz := hS.meas.measurable_zhat c0 c
  have h1 := hS.proper hd bw b x hf
  have hk : IsKer fun _ : Unit => S.fwd b x := hS.meas.fwd_ker.comp (g := fun _ : Unit => ((), b, x)) measurable_const
  have e1 : ∀ h : Hist X N n, ∑ m, ENNReal.ofReal (S.wLast h m) = 1 := fun h =>
    sum_ofReal_of_isProb (normalize_isProb _)
  simp only [mul_one, e1] at h2
  have hpt : ∀ h : Hist X N n, 2 * K⁻¹ * (S.zhat c0 c h * ∑ k, ENNReal.ofReal (S.wLast h k) * S.pick Γ bw h k f) ≤
      (∑ k, ENNReal.ofReal (S.wLast h k) * S.pick Γ bw h k f) +
        K⁻¹ * K⁻¹ * (S.zhat c0 c h * (∑ k, ENNReal.ofReal (S.wLast h k) * S.pick Γ bw h k f) * S.zhat c0 c h) := fun h => by
    have hy := S.zhat_pos c0 c h
    have hy' : S.zhat c0 c h ≠ ∞ := ne_top_of_le_ne_top (ENNReal.prod_ne_top fun t _ => ENNReal.ofReal_ne_top) (hT.zhat_le h)
    generalize (∑ k, ENNReal.ofReal (S.wLast h k) * S.pick Γ bw h k f) = D
    generalize S.zhat c0 c h = z at hy hy'
    have h3 := mul_le_mul_right (two_div_le hy hy' hc hc') (z * D)
    have h4 : z * z⁻¹ = 1 := ENNReal.mul_inv_cancel hy hy'
    calc 2 * K⁻¹ * (z * D) = z * D * (2 * K⁻¹) := by ring
      _ ≤ _ := h3
      _ = z * z⁻¹ * D + K⁻¹ * K⁻¹ * (z * D * z) := by ring
      _ = _ := by rw [h4, one_mul]
  have h3 := hk.mono () ((hz.mul hm).const_mul (2 * K⁻¹)) (hm.add (((hz.mul hm).mul hz).const_mul (K⁻¹ * K⁻¹))) hpt
  have h4 := hk.const_mul () (2 * K⁻¹) (hz.mul hm)
  have h5 := hk.add () hm (((hz.mul hm).mul hz).const_mul (K⁻¹ * K⁻¹))
  have h6 := hk.const_mul () (K⁻¹ * K⁻¹) ((hz.mul hm).mul hz)
  have h7 : 2 * K⁻¹ * S.path f ≤ S.fwd b x (fun h => ∑ k, ENNReal.ofReal (S.wLast h k) * S.pick Γ bw h k f) + K⁻¹ * S.path f := by
    calc 2 * K⁻¹ * S.path f = 2 * K⁻¹ * S.fwd b x (fun h => S.zhat c0 c h * ∑ k, ENNReal.ofReal (S.wLast h k) * S.pick Γ bw h k f) := by rw [h1]
      _ ≤ _ := h4.symm.le.trans (h3.trans (h5.le.trans (add_le_add le_rfl (h6.le.trans (mul_le_mul_right h2 _)))))
      _ = S.fwd b x (fun h => ∑ k, ENNReal.ofReal (S.wLast h k) * S.pick Γ bw h k f) + K⁻¹ * S.path f * (K * K⁻¹) := by ring
      _ = _ := by rw [hKK, mul_one]
  by_cases hfin : S.path f = ∞
  · have h8 : S.path f ≤ (∏ t, ENNReal.ofReal (Real.exp (B t))) *
        S.fwd b x (fun h => ∑ k, ENNReal.ofReal (S.wLast h k) * S.pick Γ bw h k f) := by
      rw [← h1, ← hk.const_mul () _ hm]
      exact hk.mono () (hz.mul hm) (hm.const_mul _) fun h => mul_le_mul_left (hT.zhat_le h) _
    rw [hfin, top_le_iff, ENNReal.mul_eq_top] at h8
    rcases h8 with h8 | h8
    · rw [h8.2]
      exact le_top
    · exact absurd h8.1 (ENNReal.prod_ne_top fun t _ => ENNReal.ofReal_ne_top)
  have hfin' : K⁻¹ * S.path f ≠ ∞ := ENNReal.mul_ne_top (ENNReal.inv_ne_top.mpr hc) hfin
  refine (ENNReal.add_le_add_iff_right hfin').mp (le_trans (le_of_eq ?_) h7)
  ring

end moments

/-! ## Instances -/

theorem pairs_free_prod {w : Fin (N + 1) → ℝ} {p : Fin (N + 1) → Fin (N + 1) → ℝ≥0∞} (hp : ∀ t, ∑ l, p t l = 1)
    (hw : ∀ l, ∑ t, p t l = (N + 1) * ENNReal.ofReal (w l)) (f g : Fin (N + 1) → ℝ≥0∞) :
    ∑ a : Fin (N + 1) → Fin (N + 1), (∏ t, p t (a t)) * (∑ k, ∑ m ∈ univ.erase k, f (a k) * g (a m)) ≤
      (N + 1) ^ 2 * ((∑ l, ENNReal.ofReal (w l) * f l) * ∑ l, ENNReal.ofReal (w l) * g l) := by
  simp only [mul_sum]
  rw [sum_comm]
  have e1 : ∀ k ∈ univ, ∑ a : Fin (N + 1) → Fin (N + 1), ∑ m ∈ univ.erase k, (∏ t, p t (a t)) * (f (a k) * g (a m)) ≤
      (∑ l, p k l * f l) * ∑ m, ∑ l, p m l * g l := fun k hk => by
    rw [sum_comm, sum_congr rfl fun m hm => sum_prod_pair p hp (ne_of_mem_erase hm) f g, ← mul_sum]
    gcongr
    exact subset_univ _
  have e2 : ∀ f : Fin (N + 1) → ℝ≥0∞, ∑ k, ∑ l, p k l * f l = (N + 1) * ∑ l, ENNReal.ofReal (w l) * f l := fun f => by
    rw [sum_comm, mul_sum]
    refine sum_congr rfl fun l _ => ?_
    rw [← sum_mul, hw]
    ring
  refine (sum_le_sum e1).trans (le_of_eq ?_)
  rw [← sum_mul, e2, e2, ← mul_sum]
  simp only [← mul_sum]
  ring

theorem multinomial_pairs_free (key : Key) : PairsFree (fun w i j => (multinomial (n := N) key w i j false : Ex _)) := fun w hw i j f g =>
  pairs_free_prod (p := fun _ => catP w) (fun _ => by simp only [catP_of_isProb hw, sum_ofReal_of_isProb hw])
    (fun l => by simp [catP_of_isProb hw]) f g

theorem killing_pairs_free (key : Key) : PairsFree (fun w i j => (killing (n := N) key w i j false : Ex _)) := fun w hw i j f g => by
  refine (killing_law_false hw key i j _).trans_le ?_
  refine pairs_free_prod (p := fun t l => ENNReal.ofReal (killK w t l)) (fun t => ?_) (fun l => ?_) f g
  · rw [← ENNReal.ofReal_sum_of_nonneg fun l _ => killK_nonneg hw _ _, killK_sum hw, ENNReal.ofReal_one]
  · rw [← ENNReal.ofReal_sum_of_nonneg fun t _ => killK_nonneg hw _ _, killK_sum' hw, ENNReal.ofReal_mul (by positivity),
      ENNReal.ofReal_add (by positivity) zero_le_one, ENNReal.ofReal_natCast, ENNReal.ofReal_one]

section model
variable {P G : Type} {lam : Measure X} {M : FK Ex X P G N} {Mparams : Fin n → P} {Gparams : Fin n → G}
  {m0 : X → ℝ} {m : Fin n → X → X → ℝ}

theorem freeDSys_two [SFinite lam] (key : Key) (hM : ProperFK lam M) {resampling : Resampling Ex N}
    (hp : ∀ key, PairsFree (fun w i j => resampling key w i j false)) (hm : ProposalLogs lam M Mparams m0 m)
    {c0 : ℝ} (hc0 : ∀ Xs i, M.M0_logpdf Xs i = m0 (Xs i) + c0) {c : Fin n → ℝ}
    (hc : ∀ t Ys Xs i, M.Mt_logpdf Ys Xs (Mparams t) i = m t (Ys i) (Xs i) + c t) {B : Fin (n + 1) → ℝ}
    (hb0 : ∀ x, M.Gamma0 x - m0 x ≤ B 0) (hb : ∀ t y x, M.Gammat y x (Gparams t) - m t y x ≤ B t.succ) :
    (freeDSys lam key M Mparams Gparams resampling).UncondTwo c0 c B := by
  have hg0 := hM.Gamma0_meas
  have hm0 := (hm.init key).meas 0
  have hmt : ∀ t y, Measurable (m t y) := fun t y => (hm.step t key fun _ => y).meas 0
  have hgt : ∀ t y, Measurable fun z => M.Gammat y z (Gparams t) := fun t y =>
    (hM.Gammat_meas (Gparams t)).comp (by fun_prop : Measurable fun z : X => (y, z))
  refine ⟨fun t Y b x => (hm.step t _ Y).mass, fun t => hp _, fun b x k l hkl f g hf hg => ?_, fun t Y b x k l hkl f g hf hg => ?_,
    fun Xs i => ?_, fun t Y Xs i => ?_⟩
  · show M.M0_rvs (splitKey key 3 0) (fun Xs => ENNReal.ofReal (Real.exp (c0 + (M.Gamma0 (Xs k) - M.M0_logpdf Xs k))) * f (Xs k) *
        (ENNReal.ofReal (Real.exp (c0 + (M.Gamma0 (Xs l) - M.M0_logpdf Xs l))) * g (Xs l))) =
      (∫⁻ x, ENNReal.ofReal (Real.exp (M.Gamma0 x)) * f x ∂lam) * ∫⁻ x, ENNReal.ofReal (Real.exp (M.Gamma0 x)) * g x ∂lam
    have e : ∀ Xs i, c0 + (M.Gamma0 (Xs i) - M.M0_logpdf Xs i) = M.Gamma0 (Xs i) - m0 (Xs i) := fun Xs i => by rw [hc0]; ring
    simp only [e]
    refine ((hm.init _).marginal_pair hkl (f := fun y => ENNReal.ofReal (Real.exp (M.Gamma0 y - m0 y)) * f y)
      (g := fun y => ENNReal.ofReal (Real.exp (M.Gamma0 y - m0 y)) * g y) (by fun_prop) (by fun_prop)).trans ?_
    rw [(hm.init (splitKey key 3 0)).one hg0 k f hf, (hm.init (splitKey key 3 0)).one hg0 l g hg]
  · show M.Mt_rvs _ Y (Mparams t) (fun Xs => ENNReal.ofReal (Real.exp (c t + (M.Gammat (Y k) (Xs k) (Gparams t) -
          M.Mt_logpdf Y Xs (Mparams t) k))) * f (Xs k) *
        (ENNReal.ofReal (Real.exp (c t + (M.Gammat (Y l) (Xs l) (Gparams t) - M.Mt_logpdf Y Xs (Mparams t) l))) * g (Xs l))) =
      (∫⁻ x, ENNReal.ofReal (Real.exp (M.Gammat (Y k) x (Gparams t))) * f x ∂lam) *
        ∫⁻ x, ENNReal.ofReal (Real.exp (M.Gammat (Y l) x (Gparams t))) * g x ∂lam
    have e : ∀ Xs i, c t + (M.Gammat (Y i) (Xs i) (Gparams t) - M.Mt_logpdf Y Xs (Mparams t) i) =
        M.Gammat (Y i) (Xs i) (Gparams t) - m t (Y i) (Xs i) := fun Xs i => by rw [hc]; ring
    simp only [e]
    have := hmt t (Y k)
    have := hgt t (Y k)
    have := hmt t (Y l)
    have := hgt t (Y l)
    have hs := hm.step t (splitKey (splitKey (splitKey key 3 1) n t) 2 0) Y
    refine (hs.marginal_pair hkl (f := fun y => ENNReal.ofReal (Real.exp (M.Gammat (Y k) y (Gparams t) - m t (Y k) y)) * f y)
      (g := fun y => ENNReal.ofReal (Real.exp (M.Gammat (Y l) y (Gparams t) - m t (Y l) y)) * g y) (by fun_prop) (by fun_prop)).trans ?_
    rw [hs.one (hgt t (Y k)) k f hf, hs.one (hgt t (Y l)) l g hg]
  · show c0 + (M.Gamma0 (Xs i) - M.M0_logpdf Xs i) ≤ B 0
    rw [hc0]
    linarith [hb0 (Xs i)]
  · show c t + (M.Gammat (Y i) (Xs i) (Gparams t) - M.Mt_logpdf Y Xs (Mparams t) i) ≤ B t.succ
    rw [hc]
    linarith [hb t (Y i) (Xs i)]

end model

end Verif
