import Verif.Lemmas.OneTrajRuns
import Verif.Lemmas.ManyKernel
import Verif.Lemmas.ConsistentRuns
import Verif.Props.MultiTryInv

/-!
# Kernels that choose among candidate trajectories
-/

open scoped ENNReal
open MeasureTheory ProbabilityTheory Finset

namespace Verif
open Verif.Model Verif.Spec Verif.Props

variable {N n d : ℕ}

/-- The candidates of one step: random numbers, the weights of the candidates, and the proposals. -/
structure Cand (E : Type) (N n d : ℕ) where
  noise : Key → ℝ → Traj (n + 1) d → Ex E
  W : ℝ → Traj (n + 1) d → E → Fin (N + 1) → ℝ
  P : ℝ → Traj (n + 1) d → E → Fin N → Traj (n + 1) d

/-- The new labels: they all change if the trajectory is replaced. -/
def newLabels (b : Fin (n + 1) → Fin 2) (i : Fin (N + 1)) : Fin (n + 1) → Fin 2 := fun t => if i = 0 then b t else b t + 1

theorem newLabels_flag (b : Fin (n + 1) → Fin 2) (i : Fin (N + 1)) (t : Fin (n + 1)) : acceptedFlags (newLabels b i) b t = decide (i ≠ 0) := by
  unfold acceptedFlags newLabels
  by_cases h : i = 0
  · simp [h]
  · have h2 : ∀ c : Fin 2, c + 1 ≠ c := by decide
    simp [h, h2]

/-- Summing over the labels before or after a step. -/
theorem sum_newLabels (i : Fin (N + 1)) (g : (Fin (n + 1) → Fin 2) → ℝ≥0∞) : ∑ b, g (newLabels b i) = ∑ b, g b := by
  by_cases h : i = 0
  · refine Finset.sum_congr rfl fun b _ => congrArg g (funext fun t => ?_)
    simp [newLabels, h]
  · have e : ∀ b : Fin (n + 1) → Fin 2, newLabels b i = Equiv.addRight (1 : Fin (n + 1) → Fin 2) b := fun b => by
      funext t
      simp [newLabels, h]
    rw [Finset.sum_congr rfl fun b _ => congrArg g (e b)]
    exact Equiv.sum_comp (Equiv.addRight (1 : Fin (n + 1) → Fin 2)) g

section cand
variable {E : Type} [MeasurableSpace E]

/-- The step with labels. -/
noncomputable def Cand.emb (C : Cand E N n d) (move : Key → (Fin (N + 1) → ℝ) → Fin (N + 1) → Ex (Fin (N + 1))) (key : Key) (x : Fin (n + 1) → Vec d)
    (b : Fin (n + 1) → Fin 2) (δ : Fin (n + 1) → ℝ) : Ex ((Fin (n + 1) → Vec d) × (Fin (n + 1) → Fin 2)) :=
  drawSelect (C.noise key (δ 0) x) (C.W (δ 0) x) (fun e i => ((insert0 x (C.P (δ 0) x e) : Fin (N + 1) → Traj (n + 1) d) i, newLabels b i))
    (move (splitKey key 3 1))

/-- What is needed of the candidates, for one step size. -/
structure Cand.OK (C : Cand E N n d) (l : Traj (n + 1) d → ℝ) (δ : ℝ) : Prop where
  ker : ∀ key, IsKer (C.noise key δ)
  mass : ∀ key x, C.noise key δ x (fun _ => 1) = 1
  free : ∀ key key', C.noise key δ = C.noise key' δ
  W : Measurable fun p : Traj (n + 1) d × E => C.W δ p.1 p.2
  prob : ∀ x e, IsProb (C.W δ x e)
  pos : ∀ x e i, 0 < C.W δ x e i
  P : Measurable fun p : Traj (n + 1) d × E => C.P δ p.1 p.2
  exact : ∀ key f, Measurable f → ∫⁻ x, ENNReal.ofReal (Real.exp (l x)) * drawSelect (C.noise key δ x) (C.W δ x)
      (fun e => (insert0 x (C.P δ x e) : Fin (N + 1) → Traj (n + 1) d)) liuMove f ∂trajVol (n + 1) d =
    ∫⁻ x, ENNReal.ofReal (Real.exp (l x)) * f x ∂trajVol (n + 1) d
  reach : ∀ key x f, Measurable f → ∀ i, C.noise key δ x (fun e => f (C.P δ x e i)) = 0 → ∫⁻ x, f x ∂trajVol (n + 1) d = 0

variable {C : Cand E N n d} {l : Traj (n + 1) d → ℝ} {δ : Fin (n + 1) → ℝ}
  {move : Key → (Fin (N + 1) → ℝ) → Fin (N + 1) → Ex (Fin (N + 1))}

theorem measurable_newLabels : Measurable fun p : (Fin (n + 1) → Fin 2) × Fin (N + 1) => newLabels p.1 p.2 := measurable_of_countable _

/-- The candidates with their labels. -/
theorem Cand.OK.measurable_cand (h : C.OK l (δ 0)) : Measurable fun q : ((Traj (n + 1) d × (Fin (n + 1) → Fin 2)) × E) =>
    fun i => (((insert0 q.1.1 (C.P (δ 0) q.1.1 q.2) : Fin (N + 1) → Traj (n + 1) d) i, newLabels q.1.2 i) : Traj (n + 1) d × (Fin (n + 1) → Fin 2)) := by
  have hP : Measurable fun q : ((Traj (n + 1) d × (Fin (n + 1) → Fin 2)) × E) => C.P (δ 0) q.1.1 q.2 :=
    h.P.comp (by fun_prop : Measurable fun q : ((Traj (n + 1) d × (Fin (n + 1) → Fin 2)) × E) => (q.1.1, q.2))
  refine measurable_pi_lambda _ fun i => ((measurable_pi_apply i).comp (measurable_insert0 (by fun_prop) hP)).prodMk ?_
  exact measurable_newLabels.comp (by fun_prop : Measurable fun q : ((Traj (n + 1) d × (Fin (n + 1) → Fin 2)) × E) => (q.1.2, i))

theorem Cand.OK.markov (h : C.OK l (δ 0)) (hm : ∀ key, MoveKer (move key)) (hm1 : ∀ key, MoveMass (move key)) (key : Key) :
    MarkovStep fun x b => C.emb move key x b δ := by
  constructor
  · have hW : Measurable fun q : ((Traj (n + 1) d × (Fin (n + 1) → Fin 2)) × E) => C.W (δ 0) q.1.1 q.2 :=
      h.W.comp (by fun_prop : Measurable fun q : ((Traj (n + 1) d × (Fin (n + 1) → Fin 2)) × E) => (q.1.1, q.2))
    refine IsKer.bind (P := fun p : Traj (n + 1) d × (Fin (n + 1) → Fin 2) => C.noise key (δ 0) p.1)
      (F := fun p e => (move (splitKey key 3 1) (C.W (δ 0) p.1 e) 0 >>= fun i =>
        (pure ((insert0 p.1 (C.P (δ 0) p.1 e) : Fin (N + 1) → Traj (n + 1) d) i, newLabels p.2 i) : Ex _)))
      ((h.ker key).comp measurable_fst) ?_
    refine IsKer.bind (P := fun q : ((Traj (n + 1) d × (Fin (n + 1) → Fin 2)) × E) => move (splitKey key 3 1) (C.W (δ 0) q.1.1 q.2) 0)
      (F := fun q i => (pure ((insert0 q.1.1 (C.P (δ 0) q.1.1 q.2) : Fin (N + 1) → Traj (n + 1) d) i, newLabels q.1.2 i) : Ex _))
      ((hm _).comp (g := fun q : ((Traj (n + 1) d × (Fin (n + 1) → Fin 2)) × E) => (C.W (δ 0) q.1.1 q.2, 0)) (hW.prodMk measurable_const)) ?_
    exact IsKer.pure (measurable_from_prod_countable_left fun i => (measurable_pi_apply i).comp h.measurable_cand)
  · intro x b
    show C.noise key (δ 0) x (fun e => move (splitKey key 3 1) (C.W (δ 0) x e) 0 fun _ => 1) = 1
    simp only [hm1 _ _ (h.prob x _)]
    exact h.mass key x

omit [MeasurableSpace E] in
theorem Cand.emb_relabels (key : Key) : Relabels fun x b => C.emb move key x b δ := by
  intro x b s f _
  refine congrArg (C.noise key (δ 0) x) (funext fun e => congrArg (move (splitKey key 3 1) (C.W (δ 0) x e) 0) (funext fun i => ?_))
  refine congrArg f (Prod.ext rfl (funext fun t => ?_))
  show newLabels (b + s) i t = newLabels b i t + s t
  unfold newLabels
  split_ifs
  · rfl
  · show b t + s t + 1 = b t + 1 + s t
    abel

theorem Cand.OK.stepOK (h : ∀ δ, 0 < δ → C.OK l δ) (hm : ∀ key, MoveKer (move key)) (hm1 : ∀ key, MoveMass (move key))
    (hf : ∀ key key', move key = move key') {Dok : (Fin (n + 1) → ℝ) → Prop} (hD : ∀ δ, Dok δ → 0 < δ 0) : StepOK Dok (C.emb move) where
  markov δ hδ key := (h _ (hD δ hδ)).markov hm hm1 key
  relabels _ _ key := Cand.emb_relabels key
  free δ hδ key key' x b f _ := by
    unfold Cand.emb
    rw [(h _ (hD δ hδ)).free key key', hf (splitKey key 3 1) (splitKey key' 3 1)]

/-- The step with the guard-free move keeps the target. -/
theorem Cand.OK.near (h : C.OK l (δ 0)) (hl : Measurable l) (key : Key) :
    LeavesNearInvariant 0 volume l fun x b => C.emb (fun _ => liuMove) key x b δ := by
  have hM := (h.markov (move := fun _ => liuMove) (fun _ => liu_moveInvariant.ker) (fun _ => liu_moveMass) key)
  have hle : Measurable fun x => ENNReal.ofReal (Real.exp (l x)) := (Real.measurable_exp.comp hl).ennreal_ofReal
  have e : ∀ f : (Fin (n + 1) → Vec d) × (Fin (n + 1) → Fin 2) → ℝ≥0∞, Measurable f →
      ∑ b, ∫⁻ x, ENNReal.ofReal (Real.exp (l x)) * C.emb (fun _ => liuMove) key x b δ f ∂(Measure.pi fun _ => volume) =
      ∑ b, ∫⁻ x, ENNReal.ofReal (Real.exp (l x)) * f (x, b) ∂(Measure.pi fun _ => volume) := by
    intro f hf
    have hb : ∀ b, Measurable fun x => f (x, b) := fun b => hf.comp (by fun_prop)
    have hx := h.exact key (fun x => ∑ b, f (x, b)) (Finset.measurable_sum _ fun b _ => hb b)
    have hK : ∀ b, Measurable fun x => C.emb (fun _ => liuMove) key x b δ f := fun b =>
      (hM.ker.comp (g := fun x => (x, b)) (by fun_prop)).measurable' hf
    have hK' : ∀ b ∈ univ, Measurable fun x => ENNReal.ofReal (Real.exp (l x)) * C.emb (fun _ => liuMove) key x b δ f := fun b _ => hle.mul (hK b)
    have hb' : ∀ b ∈ univ, Measurable fun x => ENNReal.ofReal (Real.exp (l x)) * f (x, b) := fun b _ => hle.mul (hb b)
    rw [← lintegral_finsetSum _ hK', ← lintegral_finsetSum _ hb']
    simp only [← Finset.mul_sum]
    refine Eq.trans (lintegral_congr fun x => ?_) hx
    congr 1
    have hD : IsKer fun _ : Unit => C.noise key (δ 0) x := (h.ker key).comp measurable_const
    have hsel : ∀ b, Measurable fun e => liuMove (C.W (δ 0) x e) 0 fun i =>
        f ((insert0 x (C.P (δ 0) x e) : Fin (N + 1) → Traj (n + 1) d) i, newLabels b i) := fun b =>
      measurable_select (h.W.comp measurable_prodMk_left)
        (h.measurable_cand.comp (by fun_prop : Measurable fun e => (((x, b), e) : (Traj (n + 1) d × (Fin (n + 1) → Fin 2)) × E)))
        liu_moveInvariant.ker hf
    refine (hD.sum () univ (fun b _ => hsel b)).symm.trans (congrArg (C.noise key (δ 0) x) (funext fun e => ?_))
    have hmv : IsKer fun _ : Unit => liuMove (C.W (δ 0) x e) 0 := liu_moveInvariant.ker.comp (g := fun _ => (C.W (δ 0) x e, 0)) measurable_const
    refine (hmv.sum () univ (fun b _ => measurable_of_finite _)).symm.trans (congrArg (liuMove (C.W (δ 0) x e) 0) (funext fun i => ?_))
    exact sum_newLabels i fun b => f (_, b)
  intro f hf _
  beta_reduce
  rw [e f hf]
  exact ⟨le_self_add, le_self_add⟩

theorem Cand.OK.csmcOK (h : C.OK l (δ 0)) (hl : Measurable l) : CsmcOK 0 l fun key x b => C.emb (fun _ => liuMove) key x b δ where
  markov key := h.markov (fun _ => liu_moveInvariant.ker) (fun _ => liu_moveMass) key
  relabels key := Cand.emb_relabels key
  free key key' x b f _ := by
    unfold Cand.emb
    rw [h.free key key']
  near key := h.near hl key

/-- The step reaches every set of positive measure. -/
theorem Cand.OK.reaches (h : C.OK l (δ 0)) (hN : N ≠ 0) (key : Key) (x : Fin (n + 1) → Vec d) (b : Fin (n + 1) → Fin 2)
    (f : (Fin (n + 1) → Vec d) → ℝ≥0∞) (hf : Measurable f) :
    ∫⁻ x, f x ∂(Measure.pi fun _ => volume) ≤ ∞ * C.emb (fun _ => liuMove) key x b δ (fun r => f r.1) := by
  rw [le_top_mul_iff]
  intro h0
  have hD : IsKer fun _ : Unit => C.noise key (δ 0) x := (h.ker key).comp measurable_const
  refine h.reach key x f hf ⟨0, Nat.pos_of_ne_zero hN⟩ ?_
  obtain ⟨κ, _, hκ⟩ := hD
  have hP : Measurable fun e => C.P (δ 0) x e := h.P.comp measurable_prodMk_left
  have hW : Measurable fun e => C.W (δ 0) x e := h.W.comp measurable_prodMk_left
  have hi : Measurable fun e => (insert0 x (C.P (δ 0) x e) : Fin (N + 1) → Traj (n + 1) d) := measurable_insert0 measurable_const hP
  have hM := measurable_select hW hi liu_moveInvariant.ker hf
  have hm : Measurable fun e => f (C.P (δ 0) x e ⟨0, Nat.pos_of_ne_zero hN⟩) := hf.comp ((measurable_pi_apply _).comp hP)
  have e1 := (hκ () _ hM).symm.trans h0
  refine (hκ () _ hm).trans ?_
  rw [lintegral_eq_zero_iff hm]
  refine ((lintegral_eq_zero_iff hM).mp e1).mono fun e he => ?_
  have h1 := liu_movesAway (C.W (δ 0) x e) (h.prob x e) (h.pos x e) 0 (fun k => f ((insert0 x (C.P (δ 0) x e) : Fin (N + 1) → Traj (n + 1) d) k))
  have h2 : liuMove (C.W (δ 0) x e) 0 (fun k => f ((insert0 x (C.P (δ 0) x e) : Fin (N + 1) → Traj (n + 1) d) k)) = 0 := he
  rw [h2, nonpos_iff_eq_zero, mul_eq_zero] at h1
  rcases h1 with h1 | h1
  · exact absurd h1 one_ne_zero
  · have h3 := (sum_eq_zero_iff.mp h1) (Fin.succ ⟨0, Nat.pos_of_ne_zero hN⟩) (mem_erase.mpr ⟨Fin.succ_ne_zero _, mem_univ _⟩)
    rcases mul_eq_zero.mp h3 with h3 | h3
    · exact absurd h3 (ENNReal.ofReal_pos.mpr (h.pos x e _)).ne'
    · exact h3

/-- The two moves. -/
theorem Cand.OK.two (h : C.OK l (δ 0)) (key : Key) (x : Fin (n + 1) → Vec d) (b : Fin (n + 1) → Fin 2) :
    TVLe (ENNReal.ofReal 3e-12) (C.emb forcedIdx key x b δ) (C.emb (fun _ => liuMove) key x b δ) :=
  drawSelect_near ((h.ker key).comp measurable_const) (h.mass key x) (h.W.comp measurable_prodMk_left) (h.prob x)
    (h.measurable_cand.comp (by fun_prop : Measurable fun e => (((x, b), e) : (Traj (n + 1) d × (Fin (n + 1) → Fin 2)) × E)))
    (force_moveKer _) liu_moveInvariant.ker fun _ hw k => force_near_liu _ hw k

end cand

end Verif
