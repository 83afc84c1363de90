import Verif.Lemmas.Proposal
import Verif.Model.LCsmcF

/-!
# Isotropic Gaussians and the marginalised auxiliary variable
-/

open scoped ENNReal
open MeasureTheory ProbabilityTheory Matrix

namespace Verif
open Verif.Spec Verif.Model

variable {d N : ℕ}

/-- Normalising constant of `N(m, s² I)`. -/
noncomputable def isoC (d : ℕ) (s : ℝ) : ℝ := d / 2 * Real.log (2 * Real.pi) + d * Real.log s

/-- Log-density of `N(m, s² I)`. -/
noncomputable def isoLogpdf (s : ℝ) (m x : Vec d) : ℝ := -sumSq (fun j => x j - m j) / (2 * s ^ 2) - isoC d s

theorem isoLogpdf_comm (s : ℝ) (m x : Vec d) : isoLogpdf s m x = isoLogpdf s x m := by
  unfold isoLogpdf sumSq
  congr 3
  exact Finset.sum_congr rfl fun j _ => by ring

theorem isoLogpdf_eq {s : ℝ} (hs : 0 < s) (m x : Vec d) :
    stdLogpdf ((s • (1 : Matrix (Fin d) (Fin d) ℝ))⁻¹ *ᵥ (x - m)) -
      Real.log |(s • (1 : Matrix (Fin d) (Fin d) ℝ)).det| = isoLogpdf s m x := by
  have hinv : (s • (1 : Matrix (Fin d) (Fin d) ℝ))⁻¹ = s⁻¹ • 1 := by
    apply Matrix.inv_eq_left_inv
    rw [smul_mul_smul_comm, inv_mul_cancel₀ hs.ne', one_smul, one_mul]
  have hdet : (s • (1 : Matrix (Fin d) (Fin d) ℝ)).det = s ^ d := by
    rw [Matrix.det_smul, Matrix.det_one, mul_one, Fintype.card_fin]
  rw [hinv, hdet, abs_of_pos (pow_pos hs d), Real.log_pow, smul_mulVec, one_mulVec, stdLogpdf, isoLogpdf, isoC,
    smul_dotProduct, dotProduct_smul, smul_eq_mul, smul_eq_mul, sumSq]
  have : (x - m) ⬝ᵥ (x - m) = ∑ j, (x j - m j) ^ 2 := by
    simp only [dotProduct, Pi.sub_apply]
    exact Finset.sum_congr rfl fun j _ => by ring
  rw [this]
  field_simp
  ring

theorem iso_det {s : ℝ} (hs : 0 < s) : (s • (1 : Matrix (Fin d) (Fin d) ℝ)).det ≠ 0 := by
  rw [Matrix.det_smul, Matrix.det_one, mul_one, Fintype.card_fin]
  exact (pow_pos hs d).ne'

@[fun_prop] theorem measurable_sumSq {β : Type} [MeasurableSpace β] {v : β → Vec d} (hv : Measurable v) :
    Measurable fun b => sumSq (v b) := by
  unfold sumSq
  exact Finset.measurable_fun_sum _ fun j _ => ((measurable_pi_apply j).comp hv).pow_const 2

@[fun_prop] theorem measurable_isoLogpdf {β : Type} [MeasurableSpace β] (s : ℝ) {m x : β → Vec d}
    (hm : Measurable m) (hx : Measurable x) : Measurable fun b => isoLogpdf s (m b) (x b) := by
  unfold isoLogpdf
  fun_prop

/-- Law of `m + s z`. -/
theorem iso_law {s : ℝ} (hs : 0 < s) (m : Vec d) (F : Vec d → ℝ≥0∞) (hF : Measurable F) :
    ∫⁻ z, F (fun j => m j + s * z j) ∂gaussM d = ∫⁻ x, ENNReal.ofReal (Real.exp (isoLogpdf s m x)) * F x := by
  have h := gauss_affine (iso_det (d := d) hs) m F hF
  simp only [isoLogpdf_eq hs, smul_mulVec, one_mulVec] at h
  exact h

theorem iso_law' {s : ℝ} (hs : 0 < s) (m : Vec d) (F : Vec d → ℝ≥0∞) (hF : Measurable F) :
    ∫⁻ z, F (fun j => m j + z j * s) ∂gaussM d = ∫⁻ x, ENNReal.ofReal (Real.exp (isoLogpdf s m x)) * F x := by
  simp only [mul_comm _ s]
  exact iso_law hs m F hF

/-- Independent isotropic Gaussian particles. -/
noncomputable def isoP (N : ℕ) (key : Key) (s : ℝ) (u : Vec d) : Ex (Fin (N + 1) → Vec d) :=
  (normal2 key (N + 1) d : Ex _) >>= fun e => pure (fun i j => u j + s * e i j)

theorem iso_samplesFrom {s : ℝ} (hs : 0 < s) (u : Vec d) (key : Key) :
    SamplesFrom volume (fun _ x => isoLogpdf s u x) (isoP N key s u) := by
  have h := gauss_samplesFrom (k := N + 1) (iso_det (d := d) hs) (fun _ => u) key
  simp only [isoLogpdf_eq hs, smul_mulVec, one_mulVec] at h
  exact h

theorem isoP_ker (key : Key) (s : ℝ) : IsKer (fun u : Vec d => isoP N key s u) := by
  refine IsKer.bind (IsKer.normal2 key (N + 1) d) (IsKer.pure (g := fun p : Vec d × (Fin (N + 1) → Vec d) =>
    fun i j => p.1 j + s * p.2 i j) ?_)
  fun_prop

/-- Lebesgue measure, as a program. -/
noncomputable def lebP (d : ℕ) : Ex (Vec d) := fun f => ∫⁻ u, f u

/-- The (infinite) law of the particles when the auxiliary variable is Lebesgue-distributed. -/
noncomputable def margZ (N d : ℕ) (s : ℝ) : Ex (Fin (N + 1) → Vec d) := lebP d >>= isoP N [] s

theorem margZ_ker {β : Type} [MeasurableSpace β] (s : ℝ) : IsKer (fun _ : β => margZ N d s) :=
  IsKer.bind (IsKer.const volume fun _ _ => rfl) ((isoP_ker [] s).comp measurable_snd)

/-- The log-weight correction of `l_csmc_f.py` for the shift `v` of particle `i`. -/
noncomputable def logH (s : ℝ) (v : Vec d) (Xs : Fin (N + 1) → Vec d) (i : Fin (N + 1)) : ℝ :=
  (2 * ∑ j, (meanP Xs j - Xs i j) * v j - (N : ℝ) / ((N : ℝ) + 1) * sumSq v) / (2 * s ^ 2)

theorem logH_zero (s : ℝ) (Xs : Fin (N + 1) → Vec d) (i : Fin (N + 1)) : logH s 0 Xs i = 0 := by
  simp [logH, sumSq]

@[fun_prop] theorem measurable_meanP {β : Type} [MeasurableSpace β] {Xs : β → Fin (N + 1) → Vec d}
    (h : Measurable Xs) : Measurable fun b => meanP (Xs b) := by
  unfold meanP
  refine measurable_pi_lambda _ fun j => ?_
  refine Measurable.div_const (Finset.measurable_fun_sum _ fun i _ => ?_) _
  exact (measurable_pi_apply j).comp ((measurable_pi_apply i).comp h)

@[fun_prop] theorem measurable_logH {β : Type} [MeasurableSpace β] (s : ℝ) {v : β → Vec d}
    {Xs : β → Fin (N + 1) → Vec d} (hv : Measurable v) (h : Measurable Xs) (i : Fin (N + 1)) :
    Measurable fun b => logH s (v b) (Xs b) i := by
  unfold logH
  have h1 : Measurable fun b => ∑ j, (meanP (Xs b) j - Xs b i j) * v b j :=
    Finset.measurable_fun_sum _ fun j _ => by fun_prop
  fun_prop

/-- Completing the square in the auxiliary variable. -/
theorem complete_square (s : ℝ) (v u : Vec d) (Xs : Fin (N + 1) → Vec d) (b : Fin (N + 1)) :
    let c : Vec d := fun j => v j / ((N : ℝ) + 1)
    ∑ i, isoLogpdf s (u + c) (Xs i) + isoLogpdf s (Xs b + v) (u + c) - isoLogpdf s (u + c) (Xs b) =
      ∑ i, isoLogpdf s u (Xs i) + logH s v Xs b := by
  intro c
  have hN : ((N : ℝ) + 1) ≠ 0 := by positivity
  have key : ∑ i, sumSq (fun j => Xs i j - (u j + c j)) + sumSq (fun j => u j + c j - (Xs b j + v j)) -
      sumSq (fun j => Xs b j - (u j + c j)) =
      ∑ i, sumSq (fun j => Xs i j - u j) -
        (2 * ∑ j, (meanP Xs j - Xs b j) * v j - (N : ℝ) / ((N : ℝ) + 1) * sumSq v) := by
    unfold sumSq
    rw [Finset.sum_comm, Finset.sum_comm (f := fun i j => (Xs i j - u j) ^ 2), Finset.mul_sum, Finset.mul_sum,
      ← Finset.sum_add_distrib, ← Finset.sum_sub_distrib, ← Finset.sum_sub_distrib, ← Finset.sum_sub_distrib]
    refine Finset.sum_congr rfl fun j _ => ?_
    have h1 : ∑ i, (Xs i j - (u j + c j)) ^ 2 = ∑ i, (Xs i j - u j) ^ 2 - 2 * c j * ∑ i, (Xs i j - u j) +
        ((N : ℝ) + 1) * c j ^ 2 := by
      rw [Finset.mul_sum, ← Finset.sum_sub_distrib]
      have : ((N : ℝ) + 1) * c j ^ 2 = ∑ _i : Fin (N + 1), c j ^ 2 := by simp
      rw [this, ← Finset.sum_add_distrib]
      exact Finset.sum_congr rfl fun i _ => by ring
    have h2 : ∑ i, (Xs i j - u j) = ∑ i, Xs i j - ((N : ℝ) + 1) * u j := by
      rw [Finset.sum_sub_distrib]; simp
    rw [h1, h2]
    simp only [c, meanP]
    field_simp
    ring
  unfold isoLogpdf logH
  simp only [Pi.add_apply, Finset.sum_sub_distrib, ← Finset.sum_div, Finset.sum_neg_distrib]
  rw [← sub_eq_zero]
  have : ∀ A B C D E K L : ℝ, A + B - C = D - E → -A / L - K + (-B / L - isoC d s) - (-C / L - isoC d s) -
      (-D / L - K + E / L) = 0 := by
    intro A B C D E K L h
    have hA : A = D - E - B + C := by linarith
    rw [hA]; ring
  exact this _ _ _ _ _ _ _ key

/-- Particles around an auxiliary variable drawn around `c`, with the reference put back. -/
noncomputable def auxMk (s : ℝ) (c : Vec d) (e : Vec d × (Fin (N + 1) → Vec d)) (b : Fin (N + 1)) (x : Vec d) :
    Fin (N + 1) → Vec d :=
  atSet (fun i j => c j + s * e.1 j + s * e.2 i j) b x

/-- Law of the noise of one time step. -/
noncomputable def auxNu (N d : ℕ) : Measure (Vec d × (Fin (N + 1) → Vec d)) :=
  (gaussM d).prod (Measure.pi fun _ => gaussM d)

instance : IsProbabilityMeasure (auxNu N d) := by unfold auxNu; infer_instance

@[fun_prop] theorem measurable_auxMk {β : Type} [MeasurableSpace β] (s : ℝ) {c : β → Vec d}
    {e : β → Vec d × (Fin (N + 1) → Vec d)} {b : β → Fin (N + 1)} {x : β → Vec d} (hc : Measurable c)
    (he : Measurable e) (hb : Measurable b) (hx : Measurable x) :
    Measurable fun p => auxMk s (c p) (e p) (b p) (x p) := by
  unfold auxMk
  fun_prop

/-- The noise of one time step, with the auxiliary variable integrated against its density. -/
theorem auxNu_law {s : ℝ} (hs : 0 < s) (c : Vec d) (b : Fin (N + 1)) (x : Vec d)
    (f : (Fin (N + 1) → Vec d) → ℝ≥0∞) (hf : Measurable f) :
    ∫⁻ e, f (auxMk s c e b x) ∂auxNu N d =
      ∫⁻ u, ENNReal.ofReal (Real.exp (isoLogpdf s c u)) * isoP N [] s u (fun Xs => f (atSet Xs b x)) := by
  unfold auxNu
  rw [lintegral_prod _ (by fun_prop)]
  have h := iso_law hs c (fun u => isoP N [] s u (fun Xs => f (atSet Xs b x)))
    ((isoP_ker [] s).measurable' (f := fun Xs : Fin (N + 1) → Vec d => f (atSet Xs b x)) (by fun_prop))
  rw [← h]
  rfl

/-- **Marginalised auxiliary variable.** Drawing `x` from the target, `u` around `x + ψ x` and the other
particles around `u`, or `u` from Lebesgue measure, all particles around `u`, and weighting. -/
theorem marg_id {s : ℝ} (hs : 0 < s) {g : Vec d → ℝ} (hg : Measurable g) {ψ : Vec d → Vec d}
    (hψ : Measurable ψ) (b : Fin (N + 1)) (f : Vec d → (Fin (N + 1) → Vec d) → ℝ≥0∞)
    (hf : Measurable (Function.uncurry f)) :
    ∫⁻ x, ENNReal.ofReal (Real.exp (g x)) * ∫⁻ e, f x (auxMk s (x + ψ x) e b x) ∂auxNu N d =
      margZ N d s (fun Xs =>
        ENNReal.ofReal (Real.exp (g (Xs b) + logH s (ψ (Xs b)) Xs b)) * f (Xs b) Xs) := by
  have hfx : ∀ x, Measurable (f x) := fun x => hf.comp (by fun_prop : Measurable fun Xs : Fin (N + 1) → Vec d =>
    (x, Xs))
  have hP := isoP_ker (N := N) (d := d) [] s
  -- joint measurability
  have hmP : Measurable fun p : Vec d × Vec d => isoP N [] s p.2 (fun Xs => f p.1 (atSet Xs b p.1)) :=
    (hP.comp measurable_snd).measurable (f := fun (p : Vec d × Vec d) Xs => f p.1 (atSet Xs b p.1))
      (hf.comp (by fun_prop : Measurable fun q : (Vec d × Vec d) × (Fin (N + 1) → Vec d) =>
        (q.1.1, atSet q.2 b q.1.1)))
  have h1 : ∀ x, ENNReal.ofReal (Real.exp (g x)) * ∫⁻ e, f x (auxMk s (x + ψ x) e b x) ∂auxNu N d =
      ∫⁻ u, ENNReal.ofReal (Real.exp (g x + isoLogpdf s (x + ψ x) u)) *
        isoP N [] s u (fun Xs => f x (atSet Xs b x)) := by
    intro x
    rw [auxNu_law hs _ b x (f x) (hfx x), ← lintegral_const_mul]
    · refine lintegral_congr fun u => ?_
      rw [ofReal_exp_add, mul_assoc]
    · exact (measurable_expR (by fun_prop)).mul (hmP.comp (by fun_prop : Measurable fun u : Vec d => (x, u)))
  simp only [h1]
  have hmA : Measurable fun p : Vec d × Vec d => g p.1 + isoLogpdf s (p.1 + ψ p.1) p.2 := by fun_prop
  rw [lintegral_lintegral_swap (((measurable_expR hmA).mul hmP).aemeasurable)]
  have h2 : ∀ u, ∫⁻ x, ENNReal.ofReal (Real.exp (g x + isoLogpdf s (x + ψ x) u)) *
        isoP N [] s u (fun Xs => f x (atSet Xs b x)) =
      isoP N [] s u (fun Xs => ENNReal.ofReal (Real.exp (g (Xs b) + isoLogpdf s (Xs b + ψ (Xs b)) u -
        isoLogpdf s u (Xs b))) * f (Xs b) Xs) := fun u =>
    (iso_samplesFrom hs u []).conditional (g := fun x => g x + isoLogpdf s (x + ψ x) u) (by fun_prop) b f hf
  simp only [h2]
  -- densities of all particles
  have hfb : Measurable fun Xs : Fin (N + 1) → Vec d => f (Xs b) Xs :=
    hf.comp (by fun_prop : Measurable fun Xs : Fin (N + 1) → Vec d => (Xs b, Xs))
  have hlaw : ∀ u (F : (Fin (N + 1) → Vec d) → ℝ≥0∞), Measurable F → isoP N [] s u F =
      ∫⁻ Xs, ENNReal.ofReal (Real.exp (∑ i, isoLogpdf s u (Xs i))) * F Xs
        ∂(Measure.pi fun _ => volume) := by
    intro u F hF
    rw [(iso_samplesFrom hs u []).law F hF]
    exact lintegral_pi_withDensity (fun _ => volume) (fun _ x => isoLogpdf s u x) (fun _ => by fun_prop) F hF
  have hmB : Measurable fun p : Vec d × (Fin (N + 1) → Vec d) => ∑ i, isoLogpdf s p.1 (p.2 i) :=
    Finset.measurable_fun_sum _ fun i _ => by fun_prop
  have h3 : ∀ u, isoP N [] s u (fun Xs => ENNReal.ofReal (Real.exp (g (Xs b) +
        isoLogpdf s (Xs b + ψ (Xs b)) u - isoLogpdf s u (Xs b))) * f (Xs b) Xs) =
      ∫⁻ Xs, ENNReal.ofReal (Real.exp (g (Xs b))) * f (Xs b) Xs *
        ENNReal.ofReal (Real.exp (∑ i, isoLogpdf s u (Xs i) + isoLogpdf s (Xs b + ψ (Xs b)) u -
          isoLogpdf s u (Xs b))) ∂(Measure.pi fun _ => volume) := by
    intro u
    rw [hlaw u _ (measurable_expR_mul (by fun_prop) hfb)]
    refine lintegral_congr fun Xs => ?_
    rw [← mul_assoc, ← ofReal_exp_add, mul_right_comm, ← ofReal_exp_add]
    congr 3
    ring
  have h4 : margZ N d s (fun Xs =>
        ENNReal.ofReal (Real.exp (g (Xs b) + logH s (ψ (Xs b)) Xs b)) * f (Xs b) Xs) =
      ∫⁻ u, ∫⁻ Xs, ENNReal.ofReal (Real.exp (g (Xs b))) * f (Xs b) Xs *
        ENNReal.ofReal (Real.exp (∑ i, isoLogpdf s u (Xs i) + logH s (ψ (Xs b)) Xs b))
          ∂(Measure.pi fun _ => volume) := by
    show ∫⁻ u, isoP N [] s u _ = _
    refine lintegral_congr fun u => ?_
    rw [hlaw u _ (measurable_expR_mul (by fun_prop) hfb)]
    refine lintegral_congr fun Xs => ?_
    rw [← mul_assoc, ← ofReal_exp_add, mul_right_comm, ← ofReal_exp_add]
    congr 3
    ring
  have hmC : Measurable fun p : Vec d × (Fin (N + 1) → Vec d) => ENNReal.ofReal (Real.exp (g (p.2 b))) * f (p.2 b) p.2 :=
    (measurable_expR (by fun_prop)).mul (hfb.comp measurable_snd)
  have hmD : Measurable fun p : Vec d × (Fin (N + 1) → Vec d) => ∑ i, isoLogpdf s p.1 (p.2 i) +
      isoLogpdf s (p.2 b + ψ (p.2 b)) p.1 - isoLogpdf s p.1 (p.2 b) := by fun_prop
  have hmE : Measurable fun p : Vec d × (Fin (N + 1) → Vec d) => ∑ i, isoLogpdf s p.1 (p.2 i) +
      logH s (ψ (p.2 b)) p.2 b := by fun_prop
  rw [h4]
  simp only [h3]
  refine (lintegral_lintegral_swap ((hmC.mul (measurable_expR hmD)).aemeasurable)).trans ?_
  refine Eq.trans ?_ (lintegral_lintegral_swap ((hmC.mul (measurable_expR hmE)).aemeasurable)).symm
  refine lintegral_congr fun Xs => ?_
  refine (lintegral_add_right_eq_self _ (fun j => ψ (Xs b) j / ((N : ℝ) + 1))).symm.trans ?_
  refine lintegral_congr fun u => ?_
  rw [← complete_square s (ψ (Xs b)) u Xs b]

end Verif
