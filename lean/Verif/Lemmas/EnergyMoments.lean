import Verif.Lemmas.SvMoments
import Verif.Lemmas.Consistent

/-!
# Moments of the stochastic volatility posterior: exponentials, polynomials and the energy

Functions all of whose powers are integrable are closed under sums and products; the components of the state and their exponentials are
such functions, hence so is the energy, whatever the two matrices that enter it.
-/

open scoped ENNReal
open MeasureTheory

namespace Verif
open Verif.Model Verif.Spec Verif.Props Matrix

/-- All the powers of a function are integrable. -/
structure AllInt {Ω : Type} [MeasurableSpace Ω] (π : Measure Ω) (f : Ω → ℝ) : Prop where
  meas : Measurable f
  pow : ∀ p : ℕ, Integrable (fun x => |f x| ^ p) π

namespace AllInt

variable {Ω : Type} [MeasurableSpace Ω] {π : Measure Ω} {f g : Ω → ℝ}

theorem of_bound {F : ℕ → Ω → ℝ} (hf : Measurable f) (hF : ∀ p, Integrable (F p) π) (h : ∀ p x, |f x| ^ p ≤ F p x) : AllInt π f :=
  ⟨hf, fun p => (hF p).mono' (by fun_prop) (Filter.Eventually.of_forall fun x => by
    rw [Real.norm_eq_abs, abs_of_nonneg (by positivity)]
    exact h p x)⟩

theorem const [IsFiniteMeasure π] (c : ℝ) : AllInt π fun _ => c := ⟨measurable_const, fun _ => integrable_const _⟩

theorem add (hf : AllInt π f) (hg : AllInt π g) : AllInt π fun x => f x + g x := by
  refine of_bound (hf.meas.add hg.meas) (F := fun p x => 2 ^ (p - 1) * (|f x| ^ p + |g x| ^ p)) (fun p => ((hf.pow p).add (hg.pow p)).const_mul _) fun p x => ?_
  exact (pow_le_pow_left₀ (abs_nonneg _) (abs_add_le _ _) p).trans (add_pow_le (abs_nonneg _) (abs_nonneg _) p)

theorem neg (hf : AllInt π f) : AllInt π fun x => -f x := ⟨hf.meas.neg, fun p => by simpa only [abs_neg] using hf.pow p⟩

theorem sub (hf : AllInt π f) (hg : AllInt π g) : AllInt π fun x => f x - g x := by
  simpa only [sub_eq_add_neg] using hf.add hg.neg

theorem mul (hf : AllInt π f) (hg : AllInt π g) : AllInt π fun x => f x * g x := by
  refine of_bound (hf.meas.mul hg.meas) (F := fun p x => |f x| ^ (p * 2) + |g x| ^ (p * 2)) (fun p => (hf.pow _).add (hg.pow _)) fun p x => ?_
  rw [abs_mul, mul_pow, pow_mul, pow_mul]
  nlinarith [sq_nonneg (|f x| ^ p - |g x| ^ p), sq_nonneg (|f x| ^ p), sq_nonneg (|g x| ^ p)]

theorem sum [IsFiniteMeasure π] {ι : Type} (s : Finset ι) {f : ι → Ω → ℝ} (h : ∀ i, AllInt π (f i)) : AllInt π fun x => ∑ i ∈ s, f i x := by
  classical
  induction s using Finset.induction_on with
  | empty => simpa only [Finset.sum_empty] using const 0
  | insert a s ha ih => simpa only [Finset.sum_insert ha] using (h a).add ih

theorem integrable (hf : AllInt π f) : Integrable f π := by
  have h := hf.pow 1
  simp only [pow_one] at h
  exact h.mono hf.meas.aestronglyMeasurable (Filter.Eventually.of_forall fun x => by simp)

theorem sq (hf : AllInt π f) : Integrable (fun x => f x ^ 2) π := by
  have h := hf.pow 2
  simpa only [sq_abs] using h

end AllInt

variable {n d : ℕ}

theorem svTarget_exp_moment (m0 : Vec d) {P0 Q : Mat d d} (F : Mat d d) (hP : P0.PosDef) (hQ : Q.PosDef) (b : Vec d)
    (ys : Traj (n + 1) d) (t : Fin (n + 1)) (j : Fin d) (s : ℝ) :
    ∫⁻ x, ENNReal.ofReal (Real.exp (svTarget m0 P0 F Q b ys x)) * ENNReal.ofReal (Real.exp (s * x t j)) ∂trajVol (n + 1) d ≠ ∞ := by
  let a : Fin (n + 1) → Vec d := fun u => (fun _ => -1 / 2 : Vec d) + if u = t then Pi.single j s else 0
  refine ne_top_of_le_ne_top (gaussPath_exp_moment m0 (Fs := fun _ : Fin n => F) (Qs := fun _ => Q) hP (fun _ => hQ) (fun _ => b) a)
    (lintegral_mono fun x => ?_)
  rw [← ENNReal.ofReal_mul (Real.exp_pos _).le, ← Real.exp_add]
  refine ENNReal.ofReal_le_ofReal (Real.exp_le_exp.mpr ?_)
  have ha : ∑ u, a u ⬝ᵥ x u = ∑ u, (fun _ => -1 / 2 : Vec d) ⬝ᵥ x u + s * x t j := by
    simp only [a, add_dotProduct, Finset.sum_add_distrib]
    congr 1
    rw [Finset.sum_eq_single t (fun u _ hu => by simp [hu]) (by simp)]
    simp
  have h : svTarget m0 P0 F Q b ys x = gaussPathLog m0 P0 (fun _ => F) (fun _ => Q) (fun _ => b) x + svObs ys x := rfl
  rw [h, ha, add_assoc]
  have := svObs_le ys x
  gcongr

/-- All the exponential moments of the components are finite. -/
theorem svPosterior_exp {tau : ℤ} (k : SvType) (ht : 0 < tau) (ys : Traj (n + 1) d) (t : Fin (n + 1)) (j : Fin d) (s : ℝ) :
    Integrable (fun x => Real.exp (s * x t j)) (svPosterior k tau ys) := by
  have hP := svDynArgs_P0 ht d
  have hQ := svDynArgs_Q ht d
  obtain ⟨hl, hZ⟩ := svSampled_mass k ht ys
  have hm : Measurable fun x : Traj (n + 1) d => Real.exp (s * x t j) := by fun_prop
  refine ⟨hm.aestronglyMeasurable, ?_⟩
  have e : ∀ x : Traj (n + 1) d, ‖Real.exp (s * x t j)‖ₑ = ENNReal.ofReal (Real.exp (s * x t j)) := fun x => by
    rw [Real.enorm_eq_ofReal (Real.exp_pos _).le]
  simp only [HasFiniteIntegral, e]
  rw [svPosterior, lintegral_lawOf hl hm.ennreal_ofReal]
  refine (ENNReal.mul_ne_top (ENNReal.inv_ne_top.mpr hZ.1) ?_).lt_top
  unfold svSampled
  split_ifs
  · rw [svIndependent_eq]
    exact svTarget_exp_moment _ 0 hP hQ 0 ys t j s
  · exact svTarget_exp_moment _ _ hP hQ _ ys t j s

theorem allInt_exp {tau : ℤ} (k : SvType) (ht : 0 < tau) (ys : Traj (n + 1) d) (t : Fin (n + 1)) (j : Fin d) (s : ℝ) :
    AllInt (svPosterior k tau ys) fun x => Real.exp (s * x t j) := by
  refine AllInt.of_bound (by fun_prop) (fun p => svPosterior_exp k ht ys t j (p * s)) fun p x => le_of_eq ?_
  rw [abs_of_pos (Real.exp_pos _), ← Real.exp_nat_mul, mul_assoc]

theorem allInt_coord {tau : ℤ} (k : SvType) (ht : 0 < tau) (ys : Traj (n + 1) d) (t : Fin (n + 1)) (j : Fin d) :
    AllInt (svPosterior k tau ys) fun x => x t j := by
  refine AllInt.of_bound (by fun_prop) (F := fun p x => p.factorial * (Real.exp (1 * x t j) + Real.exp (-1 * x t j)))
    (fun p => ((svPosterior_exp k ht ys t j 1).add (svPosterior_exp k ht ys t j (-1))).const_mul _) fun p x => ?_
  have h1 := Real.pow_div_factorial_le_exp |x t j| (abs_nonneg _) p
  rw [div_le_iff₀ (by positivity)] at h1
  have h2 : Real.exp |x t j| ≤ Real.exp (1 * x t j) + Real.exp (-1 * x t j) := by
    rcases abs_cases (x t j) with ⟨h, _⟩ | ⟨h, _⟩ <;> rw [h]
    · rw [one_mul]
      linarith [Real.exp_pos (-1 * x t j)]
    · rw [neg_one_mul]
      linarith [Real.exp_pos (1 * x t j)]
  calc _ ≤ Real.exp |x t j| * p.factorial := h1
    _ ≤ _ := by
      rw [mul_comm]
      gcongr

/-- The energy in terms of the components of the state. -/
theorem sv_log_pdf_eq (x ys : Traj (n + 1) d) (m0 : Vec d) (A F B : Mat d d) (b : Vec d) :
    sv_log_pdf x ys m0 A F B b =
      -0.5 * (∑ i, (∑ j, A i j * (x 0 j - m0 j)) * (∑ j, A i j * (x 0 j - m0 j))) +
      (∑ t : Fin n, -0.5 * ∑ i, (∑ j, B i j * (x t.succ j - ∑ l, x t.castSucc l * F j l * b j)) *
        (∑ j, B i j * (x t.succ j - ∑ l, x t.castSucc l * F j l * b j))) +
      ∑ t, ∑ j, (-(Real.log (2 * Real.pi) + x t j + ys t j ^ 2 * Real.exp (-1 * x t j)) / 2) := by
  have h : ∀ t j, norm_logpdf (ys t j) 0 (Real.exp (0.5 * x t j)) true =
      -(Real.log (2 * Real.pi) + x t j + ys t j ^ 2 * Real.exp (-1 * x t j)) / 2 := fun t j => by
    have e : Real.exp (0.5 * x t j) ^ 2 = Real.exp (x t j) := by
      rw [← Real.exp_nat_mul]
      congr 1
      push_cast
      ring
    rw [norm_logpdf, if_pos rfl, e, sub_zero, Real.log_mul (by positivity) (Real.exp_pos _).ne', Real.log_exp, neg_one_mul, Real.exp_neg]
    rfl
  unfold sv_log_pdf sv_log_likelihood sv_log_potential
  simp only [h, mvn_logpdf, logpdf_with_inv, mulVec, dotProduct, Pi.sub_apply, Bool.false_eq_true, if_false, sub_zero]
  rfl

/-- All the powers of the energy are integrable. -/
theorem allInt_energy {tau : ℤ} (k : SvType) (ht : 0 < tau) (ys ys' : Traj (n + 1) d) (m0 : Vec d) (A F B : Mat d d) (b : Vec d) :
    AllInt (svPosterior k tau ys) fun x => sv_log_pdf x ys' m0 A F B b := by
  have := C67_proper (n := n) (d := d) k ht ys
  have hc := allInt_coord (n := n) (d := d) k ht ys
  have he := fun t j => allInt_exp (n := n) (d := d) k ht ys t j (-1)
  have hk := fun c : ℝ => AllInt.const (π := svPosterior k tau ys) c
  simp only [sv_log_pdf_eq]
  have h1 : ∀ i, AllInt (svPosterior k tau ys) fun x => ∑ j, A i j * (x 0 j - m0 j) := fun i =>
    AllInt.sum _ fun j => (hk _).mul ((hc 0 j).sub (hk _))
  have h2 : ∀ (t : Fin n) i, AllInt (svPosterior k tau ys) fun x => ∑ j, B i j * (x t.succ j - ∑ l, x t.castSucc l * F j l * b j) := fun t i =>
    AllInt.sum _ fun j => (hk _).mul ((hc t.succ j).sub (AllInt.sum _ fun l => ((hc t.castSucc l).mul (hk _)).mul (hk _)))
  refine AllInt.add (AllInt.add ((hk _).mul (AllInt.sum _ fun i => (h1 i).mul (h1 i)))
    (AllInt.sum _ fun t => (hk _).mul (AllInt.sum _ fun i => (h2 t i).mul (h2 t i)))) (AllInt.sum _ fun t => AllInt.sum _ fun j => ?_)
  have h3 := ((((hk (Real.log (2 * Real.pi))).add (hc t j)).add ((hk (ys' t j ^ 2)).mul (he t j))).neg).mul (hk (1 / 2))
  refine cast (congrArg _ (funext fun x => ?_)) h3
  ring

/-- The energy is not constant. -/
theorem energy_ne (hd : d ≠ 0) (ys : Traj (n + 1) d) (m0 : Vec d) (A F B : Mat d d) (b : Vec d) (μ : ℝ) :
    ∃ x : Traj (n + 1) d, sv_log_pdf x ys m0 A F B b ≠ μ := by
  by_contra hcon
  push Not at hcon
  obtain ⟨p, q, hp⟩ : ∃ p q : Fin d → ℝ, ∀ s i, ∑ j, A i j * (s - m0 j) = s * p i + q i :=
    ⟨fun i => ∑ j, A i j, fun i => -∑ j, A i j * m0 j, fun s i => by
      simp only [mul_sub, Finset.sum_sub_distrib, Finset.mul_sum]
      rw [sub_eq_add_neg]
      congr 1
      exact Finset.sum_congr rfl fun j _ => mul_comm _ _⟩
  obtain ⟨r, hr⟩ : ∃ r : Fin d → ℝ, ∀ s i, ∑ j, B i j * (s - ∑ l, s * F j l * b j) = s * r i :=
    ⟨fun i => ∑ j, B i j * (1 - ∑ l, F j l * b j), fun s i => by
      rw [Finset.mul_sum]
      refine Finset.sum_congr rfl fun j _ => ?_
      have : ∑ l, s * F j l * b j = s * ∑ l, F j l * b j := by
        rw [Finset.mul_sum]
        exact Finset.sum_congr rfl fun l _ => mul_assoc _ _ _
      rw [this]
      ring⟩
  have h : ∀ s : ℝ, -0.5 * (∑ i, (s * p i + q i) * (s * p i + q i)) + (∑ _t : Fin n, -0.5 * ∑ i, (s * r i) * (s * r i)) +
      ∑ t : Fin (n + 1), ∑ j, (-(Real.log (2 * Real.pi) + s + ys t j ^ 2 * Real.exp (-1 * s)) / 2) = μ := fun s => by
    have := hcon fun _ _ => s
    rw [sv_log_pdf_eq] at this
    simpa only [hp, hr] using this
  obtain ⟨Y, hY⟩ : ∃ Y : ℝ, Y = ∑ t, ∑ j, ys t j ^ 2 := ⟨_, rfl⟩
  have hY0 : 0 ≤ Y := hY ▸ Finset.sum_nonneg fun t _ => Finset.sum_nonneg fun j _ => sq_nonneg _
  obtain ⟨P, hPd⟩ : ∃ P : ℝ, P = ∑ i, p i ^ 2 := ⟨_, rfl⟩
  obtain ⟨C, hC⟩ : ∃ C : ℝ, C = ∑ i, p i * q i := ⟨_, rfl⟩
  obtain ⟨Rr, hRr⟩ : ∃ Rr : ℝ, Rr = n * ∑ i, r i ^ 2 := ⟨_, rfl⟩
  have hP0 : 0 ≤ P := hPd ▸ Finset.sum_nonneg fun i _ => sq_nonneg _
  have hR0 : 0 ≤ Rr := hRr ▸ mul_nonneg (Nat.cast_nonneg _) (Finset.sum_nonneg fun i _ => sq_nonneg _)
  have h' : ∀ s : ℝ, -0.5 * (s ^ 2 * P + 2 * s * C + ∑ i, q i ^ 2) + -0.5 * (s ^ 2 * Rr) +
      -((n + 1) * d * Real.log (2 * Real.pi) + (n + 1) * d * s + Y * Real.exp (-s)) / 2 = μ := fun s => by
    rw [← h s]
    congr 1
    · congr 1
      · congr 1
        rw [hPd, hC, Finset.mul_sum, Finset.mul_sum, ← Finset.sum_add_distrib, ← Finset.sum_add_distrib]
        exact Finset.sum_congr rfl fun i _ => by ring
      · rw [Finset.sum_const, Finset.card_univ, Fintype.card_fin, nsmul_eq_mul, hRr]
        have : ∑ i, s * r i * (s * r i) = s ^ 2 * ∑ i, r i ^ 2 := by
          rw [Finset.mul_sum]
          exact Finset.sum_congr rfl fun i _ => by ring
        rw [this]
        ring
    · have e : ∀ t j, -(Real.log (2 * Real.pi) + s + ys t j ^ 2 * Real.exp (-1 * s)) / 2 =
          -(Real.log (2 * Real.pi) + s) / 2 + ys t j ^ 2 * (-Real.exp (-s) / 2) := fun t j => by
        rw [neg_one_mul]
        ring
      simp only [e, Finset.sum_add_distrib, ← Finset.sum_mul, Finset.sum_const, Finset.card_univ, Fintype.card_fin, nsmul_eq_mul, ← hY]
      push_cast
      ring
  have h0 := h' 0
  have h1 := h' 1
  have h2 := h' (-1)
  rw [neg_zero, Real.exp_zero] at h0
  rw [neg_neg] at h2
  have e1 : Real.exp 1 ≥ 2 := by have := Real.add_one_le_exp (1 : ℝ); linarith
  have e2 : 0 < Real.exp (-1) := Real.exp_pos _
  have hD : (0 : ℝ) < (n + 1) * d := by
    have : 0 < d := Nat.pos_of_ne_zero hd
    positivity
  have hz : P + Rr + Y * (Real.exp 1 + Real.exp (-1) - 2) / 2 = 0 := by
    nlinarith
  have hYe : 0 ≤ Y * (Real.exp 1 + Real.exp (-1) - 2) / 2 := div_nonneg (mul_nonneg hY0 (by linarith)) (by norm_num)
  have hP' : P = 0 := by linarith
  have hR' : Rr = 0 := by linarith
  have hY' : Y = 0 := by
    have : Y * (Real.exp 1 + Real.exp (-1) - 2) = 0 := by linarith
    rcases mul_eq_zero.mp this with h | h
    · exact h
    · linarith
  have hp0 : ∀ i, p i = 0 := fun i => by
    have := (Finset.sum_eq_zero_iff_of_nonneg fun i _ => sq_nonneg (p i)).mp (hPd ▸ hP') i (Finset.mem_univ i)
    exact pow_eq_zero_iff (two_ne_zero) |>.mp this
  have hC' : C = 0 := by simp [hC, hp0]
  rw [hP', hR', hY', hC'] at h0 h1
  linarith

/-- The energy varies under the posterior. -/
theorem energy_var_pos {tau : ℤ} (k : SvType) (ht : 0 < tau) (hd : d ≠ 0) (ys ys' : Traj (n + 1) d) (m0 : Vec d) (A F B : Mat d d) (b : Vec d) :
    0 < ∫ x, (sv_log_pdf x ys' m0 A F B b - ∫ x, sv_log_pdf x ys' m0 A F B b ∂svPosterior k tau ys) ^ 2 ∂svPosterior k tau ys := by
  have := C67_proper (n := n) (d := d) k ht ys
  obtain ⟨hl, hZ⟩ := svSampled_mass (n := n) (d := d) k ht ys
  obtain ⟨μ, hμ⟩ : ∃ μ, μ = ∫ x, sv_log_pdf x ys' m0 A F B b ∂svPosterior k tau ys := ⟨_, rfl⟩
  rw [← hμ]
  have hi := ((allInt_energy k ht ys ys' m0 A F B b).sub (AllInt.const μ)).sq
  rw [integral_pos_iff_support_of_nonneg (fun x => sq_nonneg _) hi]
  have hac : trajVol (n + 1) d ≪ svPosterior k tau ys := ac_lawOf hl hZ.2
  refine pos_iff_ne_zero.mpr fun h0 => ?_
  have h2 := hac h0
  have hcont : Continuous fun x : Traj (n + 1) d => sv_log_pdf x ys' m0 A F B b := by
    simp only [sv_log_pdf_eq]
    fun_prop
  have hopen : IsOpen {x : Traj (n + 1) d | sv_log_pdf x ys' m0 A F B b ≠ μ} := isOpen_ne_fun hcont continuous_const
  refine (hopen.measure_pos (trajVol (n + 1) d) (energy_ne hd ys' m0 A F B b μ)).ne' (measure_mono_null (fun x hx => ?_) h2)
  simp only [Function.mem_support]
  exact pow_ne_zero 2 (sub_ne_zero.mpr hx)

end Verif
