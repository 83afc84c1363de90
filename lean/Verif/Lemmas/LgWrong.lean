import Mathlib.Analysis.Normed.Module.Basic
import Mathlib.Topology.Order.LiminfLimsup
import Mathlib.Analysis.SpecialFunctions.Pow.Real
import Verif.Spec.LgWrong

/-!
# Large deviations of one coordinate of the linear Gaussian model
-/

open Filter Topology

namespace Verif
open Verif.Spec

/-- The witness at the parameters of the experiments, `σ = 1` and `δ = 1`. -/
theorem lgWitness_one : LgWitness 1 1 ![3, 18, 55] ![-1, 29, 14] ![63, 31, 15] := by
  constructor <;> simp only [lgW0, lgW1, lgW2, lgG1, lgG2, lgLog, lgMean, Fin.sum_univ_three, Matrix.cons_val_zero,
    Matrix.cons_val_one, Matrix.cons_val, Pi.zero_apply]
  · rintro p (rfl | rfl) <;> norm_num
  · rintro p (rfl | rfl) <;> norm_num
  · rintro p (rfl | rfl) <;> norm_num
  · rintro p q (⟨rfl, rfl⟩ | ⟨rfl, rfl⟩) <;> norm_num
  · rintro p (rfl | rfl) <;> norm_num
  · norm_num

/-- A witness remains one for all parameters close to those it was found for. -/
theorem lgWitness_eventually {a δ : ℝ} (hδ : δ ≠ 0) {x u z : Fin 3 → ℝ} (h : LgWitness a δ x u z) :
    ∀ᶠ q : ℝ × ℝ in 𝓝 (a, δ), LgWitness q.1 q.2 x u z := by
  have hd : ((a, δ) : ℝ × ℝ).2 ≠ 0 := hδ
  have c0 : ∀ p, ContinuousAt (fun q : ℝ × ℝ => lgW0 q.1 q.2 0 u p) (a, δ) := fun p => by
    unfold lgW0; fun_prop (disch := assumption)
  have c1 : ∀ p p', ContinuousAt (fun q : ℝ × ℝ => lgG1 q.1 q.2 0 u p p') (a, δ) := fun p p' => by
    unfold lgG1; fun_prop (disch := assumption)
  have c1' : ∀ p p', ContinuousAt (fun q : ℝ × ℝ => lgW1 q.1 q.2 0 u p p') (a, δ) := fun p p' =>
    (c1 p p').add (by fun_prop (disch := assumption))
  have c2 : ∀ o p p', ContinuousAt (fun q : ℝ × ℝ => lgG2 q.1 q.2 0 u o p p') (a, δ) := fun o p p' => by
    unfold lgG2; fun_prop (disch := assumption)
  have c2' : ∀ o p p', ContinuousAt (fun q : ℝ × ℝ => lgW2 q.1 q.2 0 u o p p') (a, δ) := fun o p p' =>
    (c2 o p p').add (by fun_prop (disch := assumption))
  have cl : ∀ x, ContinuousAt (fun q : ℝ × ℝ => lgLog q.1 0 x) (a, δ) := fun x => by
    unfold lgLog; fun_prop
  have cm : ∀ t, ContinuousAt (fun q : ℝ × ℝ => lgMean q.1 q.2 0 x t) (a, δ) := fun t => by
    fin_cases t <;> simp only [lgMean, Fin.zero_eta, Fin.mk_one, Fin.reduceFinMk, Matrix.cons_val] <;> fun_prop
  filter_upwards [(c0 _).eventually_lt (c0 _) (h.zero _ (.inl rfl)), (c0 _).eventually_lt (c0 _) (h.zero _ (.inr rfl)),
    (c1' _ _).eventually_lt (c1' _ _) (h.one _ (.inl rfl)), (c1' _ _).eventually_lt (c1' _ _) (h.one _ (.inr rfl)),
    (c2' _ _ _).eventually_lt (c2' _ _ _) (h.two _ (.inl rfl)), (c2' _ _ _).eventually_lt (c2' _ _ _) (h.two _ (.inr rfl)),
    ((c2 _ _ _).add (c1' _ _)).eventually_lt ((c2 _ _ _).add (c1' _ _)) (h.back1 _ _ (.inl ⟨rfl, rfl⟩)),
    ((c2 _ _ _).add (c1' _ _)).eventually_lt ((c2 _ _ _).add (c1' _ _)) (h.back1 _ _ (.inr ⟨rfl, rfl⟩)),
    (((c1 _ _).add (c2 _ _ _)).add (c0 _)).eventually_lt (((c1 _ _).add (c2 _ _ _)).add (c0 _)) (h.back0 _ (.inl rfl)),
    (((c1 _ _).add (c2 _ _ _)).add (c0 _)).eventually_lt (((c1 _ _).add (c2 _ _ _)).add (c0 _)) (h.back0 _ (.inr rfl)),
    (cl _).eventually_lt (f := fun q : ℝ × ℝ => lgLog q.1 0 ![z 0, z 1, x 2]) (g := fun q : ℝ × ℝ => lgLog q.1 0 x -
      ∑ t, (u t - lgMean q.1 q.2 0 x t) ^ 2 / q.2 - ∑ t, (z t - u t) ^ 2 / q.2)
      (by fun_prop (disch := assumption)) h.gain] with q a1 a2 b1 b2 d1 d2 e1 e2 f1 f2 g
  exact ⟨by rintro p (rfl | rfl) <;> assumption, by rintro p (rfl | rfl) <;> assumption,
    by rintro p (rfl | rfl) <;> assumption, by rintro p q (⟨rfl, rfl⟩ | ⟨rfl, rfl⟩) <;> assumption,
    by rintro p (rfl | rfl) <;> assumption, g⟩

/-- A continuous function, homogeneous of degree two and positive at `v`, is large near large multiples of `v`. -/
theorem homog_eventually {E : Type} [NormedAddCommGroup E] [NormedSpace ℝ E] {D : E → ℝ} (hc : Continuous D)
    (hh : ∀ (s : ℝ) z, D (s • z) = s ^ 2 * D z) {v : E} (hv : 0 < D v) (K R : ℝ) :
    ∀ᶠ s : ℝ in atTop, ∀ z, ‖z - s • v‖ ≤ R → K ≤ D z := by
  obtain ⟨ε, hε, h1⟩ := Metric.continuousAt_iff.mp hc.continuousAt (D v / 2) (half_pos hv)
  filter_upwards [eventually_gt_atTop (R / ε), eventually_ge_atTop 1, eventually_ge_atTop (2 * |K| / D v)] with s hs hs1 hs2 z hz
  have hs0 : 0 < s := lt_of_lt_of_le one_pos hs1
  have e1 : z = s • s⁻¹ • z := by rw [smul_smul, mul_inv_cancel₀ hs0.ne', one_smul]
  have e2 : dist (s⁻¹ • z) v < ε := by
    have : s⁻¹ • z - v = s⁻¹ • (z - s • v) := by rw [smul_sub, smul_smul, inv_mul_cancel₀ hs0.ne', one_smul]
    rw [dist_eq_norm, this, norm_smul, Real.norm_of_nonneg (inv_nonneg.mpr hs0.le)]
    rw [div_lt_iff₀ hε] at hs
    rw [inv_mul_lt_iff₀ hs0]
    linarith
  have h2 := h1 e2
  rw [Real.dist_eq, abs_lt] at h2
  rw [e1, hh]
  have h3 : 2 * |K| ≤ s * D v := by rwa [div_le_iff₀ hv] at hs2
  have h4 : D v / 2 ≤ D (s⁻¹ • z) := by linarith [h2.1]
  have h5 : s * D v ≤ s ^ 2 * D v := by nlinarith [mul_pos hs0 hv]
  have h6 : s ^ 2 * (D v / 2) ≤ s ^ 2 * D (s⁻¹ • z) := by gcongr
  linarith [le_abs_self K]

variable {N : ℕ}

/-- One coordinate of: the observations, the trajectory, the noise of the auxiliary variables and that of the proposals. -/
abbrev LgS (N : ℕ) : Type := (Fin 3 → ℝ) × (Fin 3 → ℝ) × (Fin 3 → ℝ) × (Fin 3 → Fin (N + 1) → ℝ)

/-- Auxiliary variables. -/
noncomputable def lsU (a δ : ℝ) (z : LgS N) (t : Fin 3) : ℝ := lgMean a δ z.1 z.2.1 t + √(0.5 * δ) * z.2.2.1 t

/-- Particles. -/
noncomputable def lsP (a δ : ℝ) (z : LgS N) (t : Fin 3) (i : Fin (N + 1)) : ℝ :=
  if i = 0 then z.2.1 t else lsU a δ z t + √(0.5 * δ) * z.2.2.2 t i

section
variable (a δ : ℝ)

theorem lgMean_smul (s : ℝ) (y x : Fin 3 → ℝ) (t : Fin 3) : lgMean a δ (s • y) (s • x) t = s * lgMean a δ y x t := by
  fin_cases t <;> simp [lgMean] <;> ring

theorem lgMean_add (y x y' x' : Fin 3 → ℝ) (t : Fin 3) :
    lgMean a δ (y + y') (x + x') t = lgMean a δ y x t + lgMean a δ y' x' t := by
  fin_cases t <;> simp [lgMean] <;> ring

theorem continuous_lgMean (t : Fin 3) : Continuous fun p : (Fin 3 → ℝ) × (Fin 3 → ℝ) => lgMean a δ p.1 p.2 t := by
  fin_cases t <;> simp only [lgMean] <;> fun_prop

theorem lsU_smul (s : ℝ) (z : LgS N) (t : Fin 3) : lsU a δ (s • z) t = s * lsU a δ z t := by
  simp only [lsU, Prod.smul_fst, Prod.smul_snd, lgMean_smul, Pi.smul_apply, smul_eq_mul]
  ring

theorem lsP_smul (s : ℝ) (z : LgS N) (t : Fin 3) (i : Fin (N + 1)) : lsP a δ (s • z) t i = s * lsP a δ z t i := by
  unfold lsP
  rw [lsU_smul]
  split_ifs
  · rfl
  · simp only [Prod.smul_snd, Pi.smul_apply, smul_eq_mul]
    ring

theorem lsU_add (z z' : LgS N) (t : Fin 3) : lsU a δ (z + z') t = lsU a δ z t + lsU a δ z' t := by
  simp only [lsU, Prod.fst_add, Prod.snd_add, lgMean_add, Pi.add_apply]
  ring

theorem lsP_add (z z' : LgS N) (t : Fin 3) (i : Fin (N + 1)) : lsP a δ (z + z') t i = lsP a δ z t i + lsP a δ z' t i := by
  unfold lsP
  rw [lsU_add]
  split_ifs
  · rfl
  · simp only [Prod.snd_add, Pi.add_apply]
    ring

theorem continuous_lsU (t : Fin 3) : Continuous fun z : LgS N => lsU a δ z t := by
  unfold lsU
  have h : Continuous fun z : LgS N => lgMean a δ z.1 z.2.1 t := 
    (continuous_lgMean a δ t).comp (f := fun z : LgS N => (z.1, z.2.1)) (by fun_prop)
  fun_prop

theorem continuous_lsP (t : Fin 3) (i : Fin (N + 1)) : Continuous fun z : LgS N => lsP a δ z t i := by
  unfold lsP
  have := continuous_lsU (N := N) a δ t
  split_ifs <;> fun_prop

/-! ## The gaps between log-weights -/

/-- Parents at time zero: the frozen particle keeps its own, the others descend from particle `k`. -/
def lsA (k : Fin (N + 1)) : Fin (N + 1) → Fin (N + 1) := Function.update (fun _ => k) 0 0

variable (k i : Fin (N + 1))

/-- Log-weights of the forward and backward passes, for one coordinate. -/
noncomputable def ls0 (z : LgS N) : ℝ := lgW0 a δ z.1 (lsU a δ z) (lsP a δ z 0 i)

@[inherit_doc ls0]
noncomputable def ls1 (z : LgS N) : ℝ := lgW1 a δ z.1 (lsU a δ z) (lsP a δ z 0 (lsA k i)) (lsP a δ z 1 i)

@[inherit_doc ls0]
noncomputable def ls2 (z : LgS N) : ℝ := lgW2 a δ z.1 (lsU a δ z) (lsP a δ z 0 0) (lsP a δ z 1 0) (lsP a δ z 2 i)

@[inherit_doc ls0]
noncomputable def lsB1 (z : LgS N) : ℝ :=
  lgG2 a δ z.1 (lsU a δ z) (lsP a δ z 0 0) (lsP a δ z 1 i) (lsP a δ z 2 0) + ls1 a δ k i z

@[inherit_doc ls0]
noncomputable def lsB0 (z : LgS N) : ℝ :=
  lgG1 a δ z.1 (lsU a δ z) (lsP a δ z 0 i) (lsP a δ z 1 k) +
    lgG2 a δ z.1 (lsU a δ z) (lsP a δ z 0 i) (lsP a δ z 1 k) (lsP a δ z 2 0) + ls0 a δ i z

/-- The new trajectory. -/
noncomputable def lsNew (z : LgS N) : Fin 3 → ℝ := ![lsP a δ z 0 k, lsP a δ z 1 k, lsP a δ z 2 0]

/-- Log of the density of the noise and of the trajectory, over the target at the new trajectory, without constants. -/
noncomputable def lsQ (z : LgS N) : ℝ :=
  lgLog a z.1 z.2.1 - ∑ t, z.2.2.1 t ^ 2 / 2 - ∑ t, ∑ i, z.2.2.2 t i ^ 2 / 2 - lgLog a z.1 (lsNew a δ k z)

theorem continuous_ls0 : Continuous (ls0 (N := N) a δ i) := by
  unfold ls0 lgW0
  have h0 := continuous_lsU (N := N) a δ 0
  have h1 := continuous_lsP (N := N) a δ 0 i
  fun_prop

theorem continuous_ls1 : Continuous (ls1 (N := N) a δ k i) := by
  unfold ls1 lgW1 lgG1
  have h0 := continuous_lsU (N := N) a δ 0
  have h2 := continuous_lsU (N := N) a δ 1
  have h1 := continuous_lsP (N := N) a δ 0 (lsA k i)
  have h3 := continuous_lsP (N := N) a δ 1 i
  fun_prop

theorem continuous_ls2 : Continuous (ls2 (N := N) a δ i) := by
  unfold ls2 lgW2 lgG2
  have h0 := continuous_lsU (N := N) a δ 1
  have h2 := continuous_lsU (N := N) a δ 2
  have h1 := continuous_lsP (N := N) a δ 0 0
  have h3 := continuous_lsP (N := N) a δ 1 0
  have h4 := continuous_lsP (N := N) a δ 2 i
  fun_prop

theorem continuous_lsB1 : Continuous (lsB1 (N := N) a δ k i) := by
  unfold lsB1 lgG2
  have h := continuous_ls1 a δ k i
  have h0 := continuous_lsU (N := N) a δ 1
  have h2 := continuous_lsU (N := N) a δ 2
  have h1 := continuous_lsP (N := N) a δ 0 0
  have h3 := continuous_lsP (N := N) a δ 1 i
  have h4 := continuous_lsP (N := N) a δ 2 0
  fun_prop

theorem continuous_lsB0 : Continuous (lsB0 (N := N) a δ k i) := by
  unfold lsB0 lgG2 lgG1
  have h := continuous_ls0 a δ i
  have h5 := continuous_lsU (N := N) a δ 0
  have h0 := continuous_lsU (N := N) a δ 1
  have h2 := continuous_lsU (N := N) a δ 2
  have h1 := continuous_lsP (N := N) a δ 0 i
  have h3 := continuous_lsP (N := N) a δ 1 k
  have h4 := continuous_lsP (N := N) a δ 2 0
  fun_prop

theorem continuous_lsNew : Continuous (lsNew (N := N) a δ k) := by
  refine continuous_pi fun t => ?_
  fin_cases t
  · exact continuous_lsP a δ 0 k
  · exact continuous_lsP a δ 1 k
  · exact continuous_lsP a δ 2 0

theorem continuous_lsQ : Continuous (lsQ (N := N) a δ k) := by
  have h : ∀ t, Continuous fun z : LgS N => lsNew a δ k z t := fun t =>
    (continuous_apply t).comp (continuous_lsNew a δ k)
  have h0 := h 0
  have h1 := h 1
  have h2 := h 2
  unfold lsQ lgLog
  fun_prop

theorem lsNew_smul (s : ℝ) (z : LgS N) : lsNew a δ k (s • z) = s • lsNew a δ k z := by
  funext t
  fin_cases t
  · exact lsP_smul a δ s z 0 k
  · exact lsP_smul a δ s z 1 k
  · exact lsP_smul a δ s z 2 0

theorem lsNew_add (z z' : LgS N) : lsNew a δ k (z + z') = lsNew a δ k z + lsNew a δ k z' := by
  funext t
  fin_cases t
  · exact lsP_add a δ z z' 0 k
  · exact lsP_add a δ z z' 1 k
  · exact lsP_add a δ z z' 2 0

theorem ls0_smul (s : ℝ) (z : LgS N) : ls0 a δ i (s • z) = s ^ 2 * ls0 a δ i z := by
  simp only [ls0, lgW0, lsU_smul, lsP_smul, Prod.smul_fst, Pi.smul_apply, smul_eq_mul]
  ring

theorem ls1_smul (s : ℝ) (z : LgS N) : ls1 a δ k i (s • z) = s ^ 2 * ls1 a δ k i z := by
  simp only [ls1, lgW1, lgG1, lsU_smul, lsP_smul, Prod.smul_fst, Pi.smul_apply, smul_eq_mul]
  ring

theorem ls2_smul (s : ℝ) (z : LgS N) : ls2 a δ i (s • z) = s ^ 2 * ls2 a δ i z := by
  simp only [ls2, lgW2, lgG2, lsU_smul, lsP_smul, Prod.smul_fst, Pi.smul_apply, smul_eq_mul]
  ring

theorem lsB1_smul (s : ℝ) (z : LgS N) : lsB1 a δ k i (s • z) = s ^ 2 * lsB1 a δ k i z := by
  rw [lsB1, lsB1, ls1_smul]
  simp only [lgG2, lsU_smul, lsP_smul, Prod.smul_fst, Pi.smul_apply, smul_eq_mul]
  ring

theorem lsB0_smul (s : ℝ) (z : LgS N) : lsB0 a δ k i (s • z) = s ^ 2 * lsB0 a δ k i z := by
  rw [lsB0, lsB0, ls0_smul]
  simp only [lgG2, lgG1, lsU_smul, lsP_smul, Prod.smul_fst, Pi.smul_apply, smul_eq_mul]
  ring

theorem lsQ_smul (s : ℝ) (z : LgS N) : lsQ a δ k (s • z) = s ^ 2 * lsQ a δ k z := by
  rw [lsQ, lsQ, lsNew_smul, mul_sub, mul_sub, mul_sub, Finset.mul_sum, Finset.mul_sum]
  simp only [Finset.mul_sum, lgLog, Prod.smul_fst, Prod.smul_snd, Pi.smul_apply, smul_eq_mul, mul_pow, mul_div_assoc]
  ring

end

/-! ## The direction of the witness -/

section
variable {a δ : ℝ} {x u z : Fin 3 → ℝ} {k : Fin (N + 1)}

/-- The direction. -/
noncomputable def lsV (a δ : ℝ) (x u z : Fin 3 → ℝ) (k : Fin (N + 1)) : LgS N :=
  (0, x, fun t => (u t - lgMean a δ 0 x t) / √(0.5 * δ), fun t i => if i = k then (z t - u t) / √(0.5 * δ) else 0)

theorem lsU_lsV (hδ : 0 < δ) (t : Fin 3) : lsU a δ (lsV a δ x u z k) t = u t := by
  have : √(0.5 * δ) ≠ 0 := (Real.sqrt_pos.mpr (by positivity)).ne'
  simp only [lsU, lsV]
  field_simp
  ring

theorem lsP_lsV (hδ : 0 < δ) (t : Fin 3) (i : Fin (N + 1)) :
    lsP a δ (lsV a δ x u z k) t i = if i = 0 then x t else if i = k then z t else u t := by
  have : √(0.5 * δ) ≠ 0 := (Real.sqrt_pos.mpr (by positivity)).ne'
  rw [lsP, lsU_lsV hδ]
  split_ifs with h h1
  · rfl
  · simp only [lsV, if_pos h1]
    field_simp
    ring
  · simp only [lsV, if_neg h1, mul_zero, add_zero]

theorem lsNew_lsV (hδ : 0 < δ) (hk : k ≠ 0) : lsNew a δ k (lsV a δ x u z k) = ![z 0, z 1, x 2] := by
  funext t
  fin_cases t
  · exact (lsP_lsV hδ 0 k).trans (by rw [if_neg hk, if_pos rfl]; rfl)
  · exact (lsP_lsV hδ 1 k).trans (by rw [if_neg hk, if_pos rfl]; rfl)
  · exact (lsP_lsV hδ 2 0).trans (by rw [if_pos rfl]; rfl)

theorem lsQ_lsV (h : LgWitness a δ x u z) (hδ : 0 < δ) (hk : k ≠ 0) : 0 < lsQ a δ k (lsV a δ x u z k) := by
  have hs : √(0.5 * δ) ^ 2 = δ / 2 := by
    rw [Real.sq_sqrt (by positivity)]; ring
  have h2 : ∑ t, (lsV (N := N) a δ x u z k).2.2.1 t ^ 2 / 2 = ∑ t, (u t - lgMean a δ 0 x t) ^ 2 / δ := by
    refine Finset.sum_congr rfl fun t _ => ?_
    simp only [lsV, div_pow, hs]
    field_simp
  have h3 : ∑ t, ∑ i, (lsV (N := N) a δ x u z k).2.2.2 t i ^ 2 / 2 = ∑ t, (z t - u t) ^ 2 / δ := by
    refine Finset.sum_congr rfl fun t _ => ?_
    simp only [lsV]
    rw [Finset.sum_eq_single k (fun i _ hi => by rw [if_neg hi]; simp) (fun h => absurd (Finset.mem_univ k) h), if_pos rfl]
    simp only [div_pow, hs]
    field_simp
  rw [lsQ, lsNew_lsV hδ hk, h2, h3]
  have := h.gain
  show 0 < lgLog a 0 x - _ - _ - lgLog a 0 _
  linarith

theorem lsU_lsV' (hδ : 0 < δ) : lsU a δ (lsV a δ x u z k) = u := funext fun t => lsU_lsV hδ t

theorem ls_gaps (h : LgWitness a δ x u z) (hδ : 0 < δ) (hk : k ≠ 0) (i : Fin (N + 1)) :
    (i ≠ k → 0 < ls0 a δ k (lsV a δ x u z k) - ls0 a δ i (lsV a δ x u z k)) ∧
    (i ≠ 0 → 0 < ls1 a δ k 0 (lsV a δ x u z k) - ls1 a δ k i (lsV a δ x u z k)) ∧
    (i ≠ 0 → 0 < ls2 a δ 0 (lsV a δ x u z k) - ls2 a δ i (lsV a δ x u z k)) ∧
    (i ≠ k → 0 < lsB1 a δ k k (lsV a δ x u z k) - lsB1 a δ k i (lsV a δ x u z k)) ∧
    (i ≠ k → 0 < lsB0 a δ k k (lsV a δ x u z k) - lsB0 a δ k i (lsV a δ x u z k)) := by
  have hy : (lsV (N := N) a δ x u z k).1 = 0 := rfl
  have hA0 : lsA k 0 = 0 := Function.update_self _ _ _
  have hA : ∀ i, i ≠ 0 → lsA k i = k := fun i hi => Function.update_of_ne hi _ _
  simp only [ls0, ls1, ls2, lsB1, lsB0, hy, lsU_lsV' hδ, lsP_lsV hδ, hA0, hA k hk, if_neg hk, if_true, sub_pos]
  refine ⟨fun hi => ?_, fun hi => ?_, fun hi => ?_, fun hi => ?_, fun hi => ?_⟩
  · rw [if_neg hi]
    refine h.zero _ ?_
    split_ifs <;> simp
  · rw [hA i hi, if_neg hk, if_pos rfl, if_neg hi]
    refine h.one _ ?_
    split_ifs <;> simp
  · rw [if_neg hi]
    refine h.two _ ?_
    split_ifs <;> simp
  · refine h.back1 _ _ ?_
    by_cases h0 : i = 0
    · left
      rw [h0, hA0, if_pos rfl, if_pos rfl]
      exact ⟨rfl, rfl⟩
    · right
      rw [hA i h0, if_neg hk, if_pos rfl, if_neg h0, if_neg hi]
      exact ⟨rfl, rfl⟩
  · rw [if_neg hi]
    refine h.back0 _ ?_
    split_ifs <;> simp

/-- Near a large multiple of the direction of the witness all gaps are large. -/
theorem ls_eventually (h : LgWitness a δ x u z) (hδ : 0 < δ) (hk : k ≠ 0) (K R : ℝ) :
    ∀ᶠ s : ℝ in atTop, ∀ w : LgS N, ‖w - s • lsV a δ x u z k‖ ≤ R →
      K ≤ lsQ a δ k w ∧ ∀ i,
        (i ≠ k → K ≤ ls0 a δ k w - ls0 a δ i w) ∧
        (i ≠ 0 → K ≤ ls1 a δ k 0 w - ls1 a δ k i w) ∧
        (i ≠ 0 → K ≤ ls2 a δ 0 w - ls2 a δ i w) ∧
        (i ≠ k → K ≤ lsB1 a δ k k w - lsB1 a δ k i w) ∧
        (i ≠ k → K ≤ lsB0 a δ k k w - lsB0 a δ k i w) := by
  have hq := homog_eventually (continuous_lsQ a δ k) (lsQ_smul a δ k) (lsQ_lsV h hδ hk) K R
  have hg : ∀ i, ∀ᶠ s : ℝ in atTop, ∀ w : LgS N, ‖w - s • lsV a δ x u z k‖ ≤ R →
        (i ≠ k → K ≤ ls0 a δ k w - ls0 a δ i w) ∧
        (i ≠ 0 → K ≤ ls1 a δ k 0 w - ls1 a δ k i w) ∧
        (i ≠ 0 → K ≤ ls2 a δ 0 w - ls2 a δ i w) ∧
        (i ≠ k → K ≤ lsB1 a δ k k w - lsB1 a δ k i w) ∧
        (i ≠ k → K ≤ lsB0 a δ k k w - lsB0 a δ k i w) := fun i => by
    obtain ⟨h0, h1, h2, h3, h4⟩ := ls_gaps h hδ hk i
    have key : ∀ (P : Prop) (D : LgS N → ℝ), Continuous D → (∀ (s : ℝ) z, D (s • z) = s ^ 2 * D z) →
        (P → 0 < D (lsV a δ x u z k)) → ∀ᶠ s : ℝ in atTop, ∀ w : LgS N, ‖w - s • lsV a δ x u z k‖ ≤ R → P → K ≤ D w :=
      fun P D hc hh hp => by
        by_cases hP : P
        · exact (homog_eventually hc hh (hp hP) K R).mono fun s hs w hw _ => hs w hw
        · exact Eventually.of_forall fun s w _ h => absurd h hP
    filter_upwards [
      key _ (fun w => ls0 a δ k w - ls0 a δ i w) ((continuous_ls0 a δ k).sub (continuous_ls0 a δ i))
        (fun s z => by simp only [ls0_smul]; ring) h0,
      key _ (fun w => ls1 a δ k 0 w - ls1 a δ k i w) ((continuous_ls1 a δ k 0).sub (continuous_ls1 a δ k i))
        (fun s z => by simp only [ls1_smul]; ring) h1,
      key _ (fun w => ls2 a δ 0 w - ls2 a δ i w) ((continuous_ls2 a δ 0).sub (continuous_ls2 a δ i))
        (fun s z => by simp only [ls2_smul]; ring) h2,
      key _ (fun w => lsB1 a δ k k w - lsB1 a δ k i w) ((continuous_lsB1 a δ k k).sub (continuous_lsB1 a δ k i))
        (fun s z => by simp only [lsB1_smul]; ring) h3,
      key _ (fun w => lsB0 a δ k k w - lsB0 a δ k i w) ((continuous_lsB0 a δ k k).sub (continuous_lsB0 a δ k i))
        (fun s z => by simp only [lsB0_smul]; ring) h4] with s e0 e1 e2 e3 e4 w hw
    exact ⟨e0 w hw, e1 w hw, e2 w hw, e3 w hw, e4 w hw⟩
  filter_upwards [hq, eventually_all.mpr hg] with s h1 h2 w hw
  exact ⟨h1 w hw, fun i => h2 i w hw⟩

end
end Verif
