import Verif.Lemmas.AtpCsmc
import Verif.Lemmas.NotInvariant

/-!
# `atp_csmc_f.kernel` with one time step and a flat potential
-/

open scoped ENNReal
open MeasureTheory ProbabilityTheory Finset

namespace Verif
open Verif.Spec Verif.Model Matrix

variable {N d : ℕ} {MP RP : Type}

/-! ## Quadratic forms -/

/-- A quadratic form is bounded by the square of the norm. -/
theorem quad_bound (C : Mat d d) (v : Vec d) : |v ⬝ᵥ (C *ᵥ v)| ≤ (∑ i, ∑ j, |C i j|) * (v ⬝ᵥ v) := by
  have h1 : ∀ i, v i * v i ≤ v ⬝ᵥ v := fun i => single_le_sum (f := fun i => v i * v i) (fun j _ => mul_self_nonneg _) (mem_univ i)
  have h2 : ∀ i j, |v i * v j| ≤ v ⬝ᵥ v := fun i j => by
    rw [abs_mul]
    have a := h1 i
    have b := h1 j
    nlinarith [sq_nonneg (|v i| - |v j|), abs_mul_abs_self (v i), abs_mul_abs_self (v j)]
  have e : v ⬝ᵥ (C *ᵥ v) = ∑ i, ∑ j, C i j * (v i * v j) := by
    simp only [dotProduct, mulVec, mul_sum]
    exact sum_congr rfl fun i _ => sum_congr rfl fun j _ => by ring
  rw [e, sum_mul]
  refine (abs_sum_le_sum_abs _ _).trans (sum_le_sum fun i _ => ?_)
  rw [sum_mul]
  refine (abs_sum_le_sum_abs _ _).trans (sum_le_sum fun j _ => ?_)
  rw [abs_mul]
  exact mul_le_mul_of_nonneg_left (h2 i j) (abs_nonneg _)

theorem quad_congr (C L : Mat d d) (v : Vec d) : (L *ᵥ v) ⬝ᵥ (C *ᵥ (L *ᵥ v)) = v ⬝ᵥ ((Lᵀ * C * L) *ᵥ v) := by
  rw [← mulVec_mulVec, ← mulVec_mulVec, dotProduct_mulVec v, vecMul_transpose]

/-- Second moments of a Gaussian vector are finite. -/
theorem quad_lt_top (C L : Mat d d) :
    ∫⁻ v, ENNReal.ofReal ((L *ᵥ v) ⬝ᵥ (C *ᵥ (L *ᵥ v))) ∂gaussM d < ⊤ := by
  simp only [quad_congr]
  refine (lintegral_mono fun v => ENNReal.ofReal_le_ofReal ((le_abs_self _).trans (quad_bound (Lᵀ * C * L) v))).trans_lt ?_
  have h0 : 0 ≤ ∑ i, ∑ j, |(Lᵀ * C * L) i j| := sum_nonneg fun i _ => sum_nonneg fun j _ => abs_nonneg _
  simp only [ENNReal.ofReal_mul h0]
  rw [lintegral_const_mul _ (by simp only [dotProduct]; fun_prop)]
  exact ENNReal.mul_lt_top ENNReal.ofReal_lt_top gaussM_sq_lt_top

theorem quad_parallelogram (C : Mat d d) (m v : Vec d) :
    (m + v) ⬝ᵥ (C *ᵥ (m + v)) + (m - v) ⬝ᵥ (C *ᵥ (m - v)) = 2 * (m ⬝ᵥ (C *ᵥ m)) + 2 * (v ⬝ᵥ (C *ᵥ v)) := by
  simp only [mulVec_add, mulVec_sub, dotProduct_add, add_dotProduct, dotProduct_sub, sub_dotProduct]
  ring

theorem measurable_quad (C : Mat d d) : Measurable fun v : Vec d => v ⬝ᵥ (C *ᵥ v) := by
  simp only [dotProduct, mulVec]
  fun_prop

theorem continuous_quad (C : Mat d d) : Continuous fun v : Vec d => v ⬝ᵥ (C *ᵥ v) := by
  simp only [dotProduct, mulVec]
  fun_prop

/-! ## A Gaussian state, its noisy copy and selection among Gaussian particles -/

section abstract
variable {P L A : Mat d d} {mu : Vec d} {s : ℝ} {m : Vec d → Vec d} {p : Vec d → ℝ}

/-- Mean over the state, its noisy copy `u` and particles around `m u`, one of which is replaced by the state: the
particles are exchangeable given `u`. -/
theorem merge_reference (hs : 0 < s) (hL : L.det ≠ 0) (hm : Measurable m) (hp : Measurable p)
    (hb : ∀ x u, normalLogpdf mu P x + normalLogpdf x (s ^ 2 • 1) u = p u + normalLogpdf (m u) (L * Lᵀ) x)
    (b : Fin (N + 1)) {H : Vec d → (Fin (N + 1) → Vec d) → ℝ≥0∞} (hH : Measurable fun q : Vec d × (Fin (N + 1) → Vec d) => H q.1 q.2) :
    ∫⁻ x, ENNReal.ofReal (Real.exp (normalLogpdf mu P x)) * ∫⁻ z, ∫⁻ y, H (x + s • z) (atSet (fun i => m (x + s • z) + L *ᵥ y i) b x)
        ∂(Measure.pi fun _ : Fin (N + 1) => gaussM d) ∂gaussM d =
      ∫⁻ u, ENNReal.ofReal (Real.exp (p u)) * ∫⁻ y, H u (fun i => m u + L *ᵥ y i)
        ∂(Measure.pi fun _ : Fin (N + 1) => gaussM d) := by
  have hpair : Measurable fun q : Vec d × Vec d => ∫⁻ y, H q.1 (atSet (fun i => m q.1 + L *ᵥ y i) b q.2)
      ∂(Measure.pi fun _ : Fin (N + 1) => gaussM d) := by
    refine Measurable.lintegral_prod_right' (f := fun q : (Vec d × Vec d) × (Fin (N + 1) → Vec d) =>
      H q.1.1 (atSet (fun i => m q.1.1 + L *ᵥ q.2 i) b q.1.2)) ?_
    exact hH.comp (f := fun q : (Vec d × Vec d) × (Fin (N + 1) → Vec d) =>
      (q.1.1, atSet (fun i => m q.1.1 + L *ᵥ q.2 i) b q.1.2)) (by fun_prop)
  have h1 : ∀ x, ∫⁻ z, ∫⁻ y, H (x + s • z) (atSet (fun i => m (x + s • z) + L *ᵥ y i) b x)
        ∂(Measure.pi fun _ : Fin (N + 1) => gaussM d) ∂gaussM d =
      ∫⁻ u, ENNReal.ofReal (Real.exp (normalLogpdf x (s ^ 2 • 1) u)) *
        ∫⁻ y, H u (atSet (fun i => m u + L *ᵥ y i) b x) ∂(Measure.pi fun _ : Fin (N + 1) => gaussM d) := fun x =>
    iso_gauss_law hs x (fun u => ∫⁻ y, H u (atSet (fun i => m u + L *ᵥ y i) b x) ∂(Measure.pi fun _ : Fin (N + 1) => gaussM d))
      (hpair.comp (measurable_id.prodMk measurable_const))
  simp only [h1]
  have hn : Measurable fun q : Vec d × Vec d => normalLogpdf q.1 (s ^ 2 • 1) q.2 := measurable_normalLogpdf _ measurable_fst measurable_snd
  have h2 : ∀ x, ENNReal.ofReal (Real.exp (normalLogpdf mu P x)) * ∫⁻ u, ENNReal.ofReal (Real.exp (normalLogpdf x (s ^ 2 • 1) u)) *
        ∫⁻ y, H u (atSet (fun i => m u + L *ᵥ y i) b x) ∂(Measure.pi fun _ : Fin (N + 1) => gaussM d) =
      ∫⁻ u, ENNReal.ofReal (Real.exp (p u)) * (ENNReal.ofReal (Real.exp (normalLogpdf (m u) (L * Lᵀ) x)) *
        ∫⁻ y, H u (atSet (fun i => m u + L *ᵥ y i) b x) ∂(Measure.pi fun _ : Fin (N + 1) => gaussM d)) := fun x => by
    rw [← lintegral_const_mul']
    · refine lintegral_congr fun u => ?_
      rw [← mul_assoc, ← mul_assoc, ← ENNReal.ofReal_mul (Real.exp_pos _).le, ← Real.exp_add, hb,
        Real.exp_add, ENNReal.ofReal_mul (Real.exp_pos _).le]
    · exact ENNReal.ofReal_ne_top
  simp only [h2]
  have hmn : Measurable fun q : Vec d × Vec d => normalLogpdf (m q.2) (L * Lᵀ) q.1 :=
    measurable_normalLogpdf _ (by fun_prop) measurable_fst
  rw [lintegral_lintegral_swap]
  · refine lintegral_congr fun u => ?_
    rw [lintegral_const_mul']
    · congr 1
      rw [← gauss_law hL (m u) (fun x => ∫⁻ y, H u (atSet (fun i => m u + L *ᵥ y i) b x) ∂(Measure.pi fun _ : Fin (N + 1) => gaussM d))
        (hpair.comp (measurable_const.prodMk measurable_id))]
      have hHu : Measurable fun y : Fin (N + 1) → Vec d => H u (fun i => m u + L *ᵥ y i) :=
        hH.comp (f := fun y : Fin (N + 1) → Vec d => (u, fun i => m u + L *ᵥ y i)) (by fun_prop)
      rw [lintegral_pi_update (fun _ : Fin (N + 1) => gaussM d) b _ hHu]
      refine lintegral_congr fun v => lintegral_congr fun y => ?_
      congr 1
      funext i
      by_cases hi : i = b
      · subst hi; simp [atSet]
      · simp [atSet, hi]
    · exact ENNReal.ofReal_ne_top
  · refine Measurable.aemeasurable ?_
    show Measurable fun q : Vec d × Vec d => ENNReal.ofReal (Real.exp (p q.2)) * (ENNReal.ofReal (Real.exp (normalLogpdf (m q.2) (L * Lᵀ) q.1)) *
        ∫⁻ y, H q.2 (atSet (fun i => m q.2 + L *ᵥ y i) b q.1) ∂(Measure.pi fun _ : Fin (N + 1) => gaussM d))
    exact (Real.measurable_exp.comp (hp.comp measurable_snd)).ennreal_ofReal.mul
      ((Real.measurable_exp.comp hmn).ennreal_ofReal.mul (hpair.comp measurable_swap))

/-- Mean of `C` under the selection among the particles (one of which is the state). -/
noncomputable def flatSel (N : ℕ) (P L C : Mat d d) (mu : Vec d) (s : ℝ) (m : Vec d → Vec d) (lw : Vec d → Vec d → ℝ)
    (b : Fin (N + 1)) : ℝ≥0∞ :=
  ∫⁻ x, ENNReal.ofReal (Real.exp (normalLogpdf mu P x)) * ∫⁻ z, ∫⁻ y,
    ENNReal.ofReal (∑ k, normalizeW (fun i => lw (x + s • z) (atSet (fun i => m (x + s • z) + L *ᵥ y i) b x i)) k *
      ((atSet (fun i => m (x + s • z) + L *ᵥ y i) b x k - mu) ⬝ᵥ (C *ᵥ (atSet (fun i => m (x + s • z) + L *ᵥ y i) b x k - mu))))
    ∂(Measure.pi fun _ : Fin (N + 1) => gaussM d) ∂gaussM d

/-- Mean of `C` under the distribution of the state. -/
noncomputable def flatMean (P C : Mat d d) (mu : Vec d) : ℝ≥0∞ :=
  ∫⁻ x, ENNReal.ofReal (Real.exp (normalLogpdf mu P x)) * ENNReal.ofReal ((x - mu) ⬝ᵥ (C *ᵥ (x - mu)))

theorem flatMean_lt_top (hP : P.PosDef) (C : Mat d d) : flatMean P C mu < ⊤ := by
  have h := gauss_law_chol hP mu (fun x => ENNReal.ofReal ((x - mu) ⬝ᵥ (C *ᵥ (x - mu))))
    (((measurable_quad C).comp (measurable_id.sub_const mu)).ennreal_ofReal)
  rw [flatMean, ← h]
  simp only [add_sub_cancel_left]
  exact quad_lt_top C (cholesky P)

section
variable (hs : 0 < s) (hL : L.det ≠ 0) (hm : Measurable m) (hp : Measurable p)
    (hb : ∀ x u, normalLogpdf mu P x + normalLogpdf x (s ^ 2 • 1) u = p u + normalLogpdf (m u) (L * Lᵀ) x)
include hs hL hm hp hb

theorem flat_norm (hP : P.PosDef) : ∫⁻ u, ENNReal.ofReal (Real.exp (p u)) = 1 := by
  have h := merge_reference (N := 0) hs hL hm hp hb 0 (H := fun _ _ => 1) measurable_const
  simp only [lintegral_const, measure_univ, mul_one] at h
  rw [← h, normalLogpdf_norm hP]

theorem flatMean_eq (hP : P.PosDef) {C : Mat d d} (hC : ∀ v : Vec d, 0 ≤ v ⬝ᵥ (C *ᵥ v)) :
    flatMean P C mu = (∫⁻ u, ENNReal.ofReal (Real.exp (p u)) * ENNReal.ofReal ((m u - mu) ⬝ᵥ (C *ᵥ (m u - mu)))) +
      ∫⁻ v, ENNReal.ofReal ((L *ᵥ v) ⬝ᵥ (C *ᵥ (L *ᵥ v))) ∂gaussM d := by
  have hq := measurable_quad C
  have h := merge_reference (N := 0) hs hL hm hp hb 0
    (H := fun _ Z => ENNReal.ofReal ((Z 0 - mu) ⬝ᵥ (C *ᵥ (Z 0 - mu))))
    ((hq.comp (f := fun q : Vec d × (Fin (0 + 1) → Vec d) => q.2 0 - mu) (by fun_prop)).ennreal_ofReal)
  have e1 : ∀ (x z : Vec d) (y : Fin (0 + 1) → Vec d), atSet (fun i => m (x + s • z) + L *ᵥ y i) 0 x 0 = x := fun x z y => by
    simp [atSet]
  simp only [e1, lintegral_const, measure_univ, mul_one] at h
  rw [flatMean, h]
  have hone : ∀ w : Fin (0 + 1) → ℝ, normalizeW w 0 = 1 := fun w => by
    have := (normalize_isProb w).sum_one
    simpa using this
  have hsel : ∀ (c : Vec d → ℝ) (e : Fin (0 + 1) → Vec d), selMean (fun _ => 0) c e = c (e 0) := fun c e => by
    simp only [selMean, Fin.sum_univ_one, Fin.isValue, Nat.reduceAdd]
    rw [hone, one_mul]
  have h2 : ∀ u, ∫⁻ y, ENNReal.ofReal ((m u + L *ᵥ y 0 - mu) ⬝ᵥ (C *ᵥ (m u + L *ᵥ y 0 - mu))) ∂(Measure.pi fun _ : Fin (0 + 1) => gaussM d) =
      ENNReal.ofReal ((m u - mu) ⬝ᵥ (C *ᵥ (m u - mu))) + ∫⁻ v, ENNReal.ofReal ((L *ᵥ v) ⬝ᵥ (C *ᵥ (L *ᵥ v))) ∂gaussM d := fun u => by
    have := selMean_center (N := 0) (a := fun _ => 0) measurable_const (fun _ => rfl) hC hq (quad_parallelogram C) L (m u - mu)
    simp only [hsel] at this
    have e : ∫⁻ v, ENNReal.ofReal ((L *ᵥ v) ⬝ᵥ (C *ᵥ (L *ᵥ v))) ∂gaussM d =
        ∫⁻ y, ENNReal.ofReal ((L *ᵥ y 0) ⬝ᵥ (C *ᵥ (L *ᵥ y 0))) ∂(Measure.pi fun _ : Fin (0 + 1) => gaussM d) :=
      ((measurePreserving_eval (fun _ : Fin (0 + 1) => gaussM d) 0).lintegral_comp
        (f := fun v => ENNReal.ofReal ((L *ᵥ v) ⬝ᵥ (C *ᵥ (L *ᵥ v)))) (hq.comp (by fun_prop)).ennreal_ofReal).symm
    rw [e, ← this]
    refine lintegral_congr fun y => ?_
    rw [add_sub_right_comm]
  simp only [h2, mul_add]
  have hme : Measurable fun u => ENNReal.ofReal (Real.exp (p u)) := (Real.measurable_exp.comp hp).ennreal_ofReal
  rw [lintegral_add_right _ (hme.mul_const _), lintegral_mul_const _ hme, flat_norm hs hL hm hp hb hP, one_mul]

variable {lw : Vec d → Vec d → ℝ} {κ : Vec d → ℝ} (hlw : Measurable fun q : Vec d × Vec d => lw q.1 q.2)
  (hw : ∀ u v, lw u (m u + v) = κ u - (v ⬝ᵥ (A *ᵥ v)) / 2)
include hlw hw

theorem flatSel_eq (hP : P.PosDef) {C : Mat d d} (hC : ∀ v : Vec d, 0 ≤ v ⬝ᵥ (C *ᵥ v)) (b : Fin (N + 1)) :
    flatSel N P L C mu s m lw b =
      (∫⁻ u, ENNReal.ofReal (Real.exp (p u)) * ENNReal.ofReal ((m u - mu) ⬝ᵥ (C *ᵥ (m u - mu)))) +
      ∫⁻ e, ENNReal.ofReal (selMean (fun v => (L *ᵥ v) ⬝ᵥ (A *ᵥ (L *ᵥ v))) (fun v => (L *ᵥ v) ⬝ᵥ (C *ᵥ (L *ᵥ v))) e)
        ∂(Measure.pi fun _ : Fin (N + 1) => gaussM d) := by
  have hq := measurable_quad C
  have hwm : Measurable fun q : Vec d × (Fin (N + 1) → Vec d) => normalizeW fun i => lw q.1 (q.2 i) :=
    measurable_normalizeW (measurable_pi_lambda _ fun i =>
      hlw.comp (f := fun q : Vec d × (Fin (N + 1) → Vec d) => (q.1, q.2 i)) (by fun_prop))
  have hH : Measurable fun q : Vec d × (Fin (N + 1) → Vec d) =>
      ENNReal.ofReal (∑ k, normalizeW (fun i => lw q.1 (q.2 i)) k * ((q.2 k - mu) ⬝ᵥ (C *ᵥ (q.2 k - mu)))) :=
    (Finset.measurable_fun_sum _ fun k _ => ((measurable_pi_apply k).comp hwm).mul
      (hq.comp (f := fun q : Vec d × (Fin (N + 1) → Vec d) => q.2 k - mu) (by fun_prop))).ennreal_ofReal
  have h := merge_reference (N := N) hs hL hm hp hb b
    (H := fun u Z => ENNReal.ofReal (∑ k, normalizeW (fun i => lw u (Z i)) k * ((Z k - mu) ⬝ᵥ (C *ᵥ (Z k - mu))))) hH
  rw [flatSel, h]
  have h2 : ∀ u (y : Fin (N + 1) → Vec d), ∑ k, normalizeW (fun i => lw u (m u + L *ᵥ y i)) k *
      ((m u + L *ᵥ y k - mu) ⬝ᵥ (C *ᵥ (m u + L *ᵥ y k - mu))) =
      selMean (fun v => (L *ᵥ v) ⬝ᵥ (A *ᵥ (L *ᵥ v))) (fun v => (m u - mu + L *ᵥ v) ⬝ᵥ (C *ᵥ (m u - mu + L *ᵥ v))) y := fun u y => by
    have : (fun i => lw u (m u + L *ᵥ y i)) = fun i => -((L *ᵥ y i) ⬝ᵥ (A *ᵥ (L *ᵥ y i))) / 2 + κ u := funext fun i => by
      rw [hw]; ring
    rw [this, normalize_add_const, selMean]
    simp only [add_sub_right_comm]
  simp only [h2]
  have h3 : ∀ u, ∫⁻ y, ENNReal.ofReal (selMean (fun v => (L *ᵥ v) ⬝ᵥ (A *ᵥ (L *ᵥ v)))
      (fun v => (m u - mu + L *ᵥ v) ⬝ᵥ (C *ᵥ (m u - mu + L *ᵥ v))) y) ∂(Measure.pi fun _ : Fin (N + 1) => gaussM d) =
      ENNReal.ofReal ((m u - mu) ⬝ᵥ (C *ᵥ (m u - mu))) +
      ∫⁻ e, ENNReal.ofReal (selMean (fun v => (L *ᵥ v) ⬝ᵥ (A *ᵥ (L *ᵥ v))) (fun v => (L *ᵥ v) ⬝ᵥ (C *ᵥ (L *ᵥ v))) e)
        ∂(Measure.pi fun _ : Fin (N + 1) => gaussM d) := fun u =>
    selMean_center (c := fun v => v ⬝ᵥ (C *ᵥ v)) ((measurable_quad A).comp (by fun_prop)) (fun v => by simp [mulVec_neg]) hC hq
      (quad_parallelogram C) L (m u - mu)
  simp only [h3, mul_add]
  have hme : Measurable fun u => ENNReal.ofReal (Real.exp (p u)) := (Real.measurable_exp.comp hp).ennreal_ofReal
  rw [lintegral_add_right _ (hme.mul_const _), lintegral_mul_const _ hme, flat_norm hs hL hm hp hb hP, one_mul]

/-- If the selection keeps the second moments of the state, then the weights are constant. -/
theorem flat_const (hN : 1 ≤ N) (hP : P.PosDef)
    (hinv : ∀ C : Mat d d, (∀ v : Vec d, 0 ≤ v ⬝ᵥ (C *ᵥ v)) →
      ∑ b : Fin (N + 1), flatSel N P L C mu s m lw b = ∑ _b : Fin (N + 1), flatMean P C mu) (v : Vec d) :
    v ⬝ᵥ (A *ᵥ v) = 0 := by
  have hk : ∀ C : Mat d d, (∀ v : Vec d, 0 ≤ v ⬝ᵥ (C *ᵥ v)) →
      ∫⁻ e, ENNReal.ofReal (selMean (fun v => (L *ᵥ v) ⬝ᵥ (A *ᵥ (L *ᵥ v))) (fun v => (L *ᵥ v) ⬝ᵥ (C *ᵥ (L *ᵥ v))) e)
        ∂(Measure.pi fun _ : Fin (N + 1) => gaussM d) = ∫⁻ v, ENNReal.ofReal ((L *ᵥ v) ⬝ᵥ (C *ᵥ (L *ᵥ v))) ∂gaussM d := by
    intro C hC
    have h := hinv C hC
    have hfin := flatMean_lt_top (mu := mu) hP C
    simp only [flatSel_eq hs hL hm hp hb hlw hw hP hC, flatMean_eq hs hL hm hp hb hP hC, sum_const, card_univ, Fintype.card_fin] at h hfin
    rw [nsmul_eq_mul, nsmul_eq_mul, ENNReal.mul_right_inj (by simp) (by simp)] at h
    exact (ENNReal.add_right_inj (ENNReal.add_lt_top.mp hfin).1.ne).mp h
  obtain ⟨lam, hlam⟩ : ∃ lam : ℝ, lam = ∑ i, ∑ j, |A i j| := ⟨_, rfl⟩
  have hl0 : 0 ≤ lam := hlam ▸ sum_nonneg fun i _ => sum_nonneg fun j _ => abs_nonneg _
  have hvv : ∀ v : Vec d, 0 ≤ v ⬝ᵥ v := fun v => sum_nonneg fun i _ => mul_self_nonneg _
  have e2 : ∀ v : Vec d, v ⬝ᵥ ((lam • (1 : Mat d d)) *ᵥ v) = lam * (v ⬝ᵥ v) := fun v => by
    rw [smul_mulVec, one_mulVec, dotProduct_smul, smul_eq_mul]
  have h2 : ∀ v : Vec d, 0 ≤ v ⬝ᵥ ((lam • (1 : Mat d d)) *ᵥ v) := fun v => by
    rw [e2]
    exact mul_nonneg hl0 (hvv v)
  have h1 : ∀ v : Vec d, 0 ≤ v ⬝ᵥ ((A + lam • (1 : Mat d d)) *ᵥ v) := fun v => by
    rw [add_mulVec, dotProduct_add, e2]
    have := quad_bound A v
    rw [← hlam] at this
    linarith [(abs_le.mp this).1]
  have hm' : ∀ C : Mat d d, Measurable fun v : Vec d => (L *ᵥ v) ⬝ᵥ (C *ᵥ (L *ᵥ v)) := fun C => (measurable_quad C).comp (by fun_prop)
  have := const_of_moments hN (a := fun v => (L *ᵥ v) ⬝ᵥ (A *ᵥ (L *ᵥ v)))
    (c1 := fun v => (L *ᵥ v) ⬝ᵥ ((A + lam • (1 : Mat d d)) *ᵥ (L *ᵥ v))) (c2 := fun v => (L *ᵥ v) ⬝ᵥ ((lam • (1 : Mat d d)) *ᵥ (L *ᵥ v)))
    ((continuous_quad A).comp (by fun_prop)) (fun v => h1 _) (fun v => h2 _) (hm' _) (hm' _)
    (fun v => by rw [add_mulVec, dotProduct_add, add_sub_cancel_right]) (quad_lt_top _ _) (quad_lt_top _ _) (hk _ h1) (hk _ h2)
    (L⁻¹ *ᵥ v) 0
  simpa [mulVec_mulVec, mul_nonsing_inv L hL.isUnit] using this

end

end abstract

/-! ## The programs for a single time step -/

/-- `csmc.kernel` for a single time step: particles and a selection. -/
theorem csmc_kernel_zero {X P G : Type} (key : Key) (x : Fin 1 → X) (b : Fin 1 → Fin (N + 1)) (M : FK Ex X P G N)
    (Mparams : Fin 0 → P) (Gparams : Fin 0 → G) (resampling : Resampling Ex N) (backward : Bool) :
    ((csmc_kernel key x b M Mparams Gparams resampling (fun key w k => barker_move key w k) backward true : Ex _) >>= fun r =>
      pure (r.xs, r.Bs) : Ex _) =
    M.M0_rvs (splitKey key 3 0) >>= fun X0 =>
      RandM.choice [] (normalizeW (normalizeLog fun i => M.Gamma0 (atSet X0 (b 0) (x 0) i) - M.M0_logpdf (atSet X0 (b 0) (x 0)) i)) >>=
        fun k => pure (fun _ => atSet X0 (b 0) (x 0) k, fun _ => k) := by
  have hrev : ∀ {Y : Type} (x : Y) (g : Fin 0 → Y), rev (insert0 x g) = fun _ => x := fun x g => by
    funext i
    fin_cases i
    rfl
  funext f
  have hk : ∀ (p : Fin (N + 1) → ℝ≥0∞) (g h : Fin (N + 1) → (Fin 1 → X) × (Fin 1 → Fin (N + 1))), (∀ k, g k = h k) →
      ∑ k, p k * f (g k) = ∑ k, p k * f (h k) := fun p g h e => sum_congr rfl fun k _ => by rw [e]
  cases backward
  · refine Ex.congr_fun' (M.M0_rvs (splitKey key 3 0)) fun X0 => ?_
    refine hk _ (fun k => (rev (insert0 _ _), rev (insert0 _ _))) _ fun k => ?_
    rw [hrev, hrev]
    rfl
  · refine Ex.congr_fun' (M.M0_rvs (splitKey key 3 0)) fun X0 => ?_
    refine hk _ (fun k => (rev (insert0 _ _), rev (insert0 _ _))) _ fun k => ?_
    rw [hrev, hrev]
    rfl

/-- `atp_csmc_f.kernel` for a single time step: noise for the auxiliary variable, particles, selection. -/
theorem atp_kernel_zero (svd : Mat d d → SvdOut d) (M : GaussModel MP RP 0 d) (key : Key) (x : Fin 1 → Vec d)
    (b : Fin 1 → Fin (N + 1)) (ells deltas : Fin 1 → ℝ) (resampling : Resampling Ex N) (backward : Bool)
    (f : (Fin 1 → Vec d) × (Fin 1 → Fin (N + 1)) → ℝ≥0∞) :
    ((atp_kernel svd M key x b ells deltas resampling (fun key w k => barker_move key w k) backward : Ex _) >>= fun r =>
      pure (r.xs, r.Bs) : Ex _) f =
    ∫⁻ e, ∫⁻ y,
      let u := auxVars M.r0_grad M.rt_grad M.rt_params deltas (auxStd ells) x e 0
      let pr := make_proposal svd M ells 0
      let Z := atSet (fun i => M.mu0 + pr.K_1 *ᵥ (pr.K_2 *ᵥ (u - M.mu0)) + pr.chol *ᵥ y i) (b 0) (x 0)
      ∑ k, catP (normalizeW (normalizeLog fun i =>
        atpGamma_0 M.r0 M.r0_grad (Z i) u M.mu0 (invChol M.P0) (deltas 0) (ells 0) -
        atpM0_logpdf (Z i) u M.mu0 pr.K_1 pr.K_2 pr.chol_inv)) k * f (fun _ => Z k, fun _ => k)
      ∂(Measure.pi fun _ : Fin (N + 1) => gaussM d) ∂(Measure.pi fun _ : Fin 1 => gaussM d) := by
  refine lintegral_congr fun e => ?_
  exact congrFun (csmc_kernel_zero (splitKey key 3 0) x b _ _ _ resampling backward) f

theorem lintegral_one {X : Type} [MeasurableSpace X] (μ : Measure X) [SigmaFinite μ] (F : (Fin 1 → X) → ℝ≥0∞) :
    ∫⁻ x, F x ∂(Measure.pi fun _ : Fin 1 => μ) = ∫⁻ x, F (fun _ => x) ∂μ := by
  have h := (measurePreserving_funUnique μ (Fin 1)).symm.lintegral_comp_emb (MeasurableEquiv.measurableEmbedding _) F
  refine h.symm.trans (lintegral_congr fun x => ?_)
  congr 1

end Verif
