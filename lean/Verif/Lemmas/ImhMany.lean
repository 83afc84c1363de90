import Verif.Lemmas.EsjdMany
import Verif.Props.Settles

/-!
# Independent Metropolis-Hastings with many candidates
-/

open scoped ENNReal
open MeasureTheory ProbabilityTheory Finset

namespace Verif
open Verif.Model Verif.Spec Verif.Props Matrix

variable {N n d : ℕ}

/-- One self-normalised weight among `N` independent ones. -/
theorem selfnorm_ge {X : Type} [MeasurableSpace X] (ρ : Measure X) [IsProbabilityMeasure ρ] {w f : X → ℝ≥0∞} (hw : Measurable w) (hf : Measurable f)
    {a C : ℝ≥0∞} (ha0 : a ≠ 0) (haC : a ≤ C) (hC : C ≠ ∞) (hwC : ∀ x, w x ≤ C) (hf1 : ∀ x, f x ≤ 1) (i : Fin N) :
    (2 * C + N * ∫⁻ x, w x ∂ρ)⁻¹ * ∫⁻ x, w x * f x ∂ρ ≤ ∫⁻ y, w (y i) * f (y i) * (a + ∑ j, w (y j))⁻¹ ∂(Measure.pi fun _ : Fin N => ρ) := by
  obtain ⟨m, hm⟩ : ∃ m, m = 2 * C + N * ∫⁻ x, w x ∂ρ := ⟨_, rfl⟩
  have hZC : ∫⁻ x, w x ∂ρ ≤ C := (lintegral_mono hwC).trans (by rw [lintegral_const, measure_univ, mul_one])
  have hC0 : C ≠ 0 := fun h => ha0 (le_antisymm (h ▸ haC) (zero_le))
  have hm0 : m ≠ 0 := by
    rw [hm]
    simp [hC0]
  have hmt : m ≠ ∞ := by
    rw [hm]
    exact ENNReal.add_ne_top.mpr ⟨ENNReal.mul_ne_top (by simp) hC, ENNReal.mul_ne_top (by simp) (ne_top_of_le_ne_top hC hZC)⟩
  have hwf : Measurable fun x => w x * f x := hw.mul hf
  have hIt : ∫⁻ x, w x * f x ∂ρ ≠ ∞ := ne_top_of_le_ne_top hC ((lintegral_mono fun x => (mul_le_mul' (hwC x) (hf1 x)).trans (by rw [mul_one])).trans
    (by rw [lintegral_const, measure_univ, mul_one]))
  have hwfi : Measurable fun y : Fin N → X => w (y i) * f (y i) := hwf.comp (measurable_pi_apply i)
  have hS : Measurable fun y : Fin N → X => a + ∑ j, w (y j) :=
    measurable_const.add (Finset.measurable_fun_sum _ fun j _ => hw.comp (measurable_pi_apply j))
  have e1 : ∫⁻ y, w (y i) * f (y i) ∂(Measure.pi fun _ : Fin N => ρ) = ∫⁻ x, w x * f x ∂ρ := lintegral_pi_eval ρ hwf i
  -- the mean of the sum
  have e2 : ∫⁻ y, w (y i) * f (y i) * (a + ∑ j, w (y j)) ∂(Measure.pi fun _ : Fin N => ρ) ≤ (∫⁻ x, w x * f x ∂ρ) * m := by
    obtain ⟨k, rfl⟩ : ∃ k, N = k + 1 := ⟨N - 1, by have := i.2; omega⟩
    have hG : Measurable fun y : Fin (k + 1) → X => w (y i) * f (y i) * (a + ∑ j, w (y j)) := hwfi.mul hS
    have hr : Measurable fun x' : Fin k → X => 2 * C + ∑ j, w (x' j) :=
      measurable_const.add (Finset.measurable_fun_sum _ fun j _ => hw.comp (measurable_pi_apply j))
    rw [lintegral_pi_insertNth (fun _ : Fin (k + 1) => ρ) i _ hG]
    calc _ ≤ ∫⁻ x' : Fin k → X, ∫⁻ xi, w xi * f xi * (2 * C + ∑ j, w (x' j)) ∂ρ ∂(Measure.pi fun _ : Fin k => ρ) := by
          refine lintegral_mono fun x' => lintegral_mono fun xi => ?_
          show w (i.insertNth (α := fun _ => X) xi x' i) * f (i.insertNth (α := fun _ => X) xi x' i) *
            (a + ∑ j, w (i.insertNth (α := fun _ => X) xi x' j)) ≤ _
          rw [Fin.sum_univ_succAbove _ i, Fin.insertNth_apply_same]
          simp only [Fin.insertNth_apply_succAbove]
          rw [← add_assoc, two_mul]
          gcongr
          exact hwC xi
      _ = ∫⁻ x' : Fin k → X, (∫⁻ x, w x * f x ∂ρ) * (2 * C + ∑ j, w (x' j)) ∂(Measure.pi fun _ : Fin k => ρ) := by
          refine lintegral_congr fun x' => ?_
          rw [lintegral_mul_const _ hwf]
      _ = (∫⁻ x, w x * f x ∂ρ) * (2 * C + k * ∫⁻ x, w x ∂ρ) := by
          rw [lintegral_const_mul _ hr, lintegral_add_left measurable_const, lintegral_const, measure_univ, mul_one, lintegral_pi_sum ρ hw]
      _ ≤ _ := by
          rw [hm]
          gcongr
          simp
  have hI : Measurable fun y : Fin N → X => w (y i) * f (y i) * (a + ∑ j, w (y j))⁻¹ := hwfi.mul hS.inv
  have hWS : Measurable fun y : Fin N → X => w (y i) * f (y i) * (a + ∑ j, w (y j)) := hwfi.mul hS
  have h3 : 2 * (m⁻¹ * ∫⁻ x, w x * f x ∂ρ) ≤ ∫⁻ y, w (y i) * f (y i) * (a + ∑ j, w (y j))⁻¹ ∂(Measure.pi fun _ : Fin N => ρ) +
      m⁻¹ * ∫⁻ x, w x * f x ∂ρ := by
    calc 2 * (m⁻¹ * ∫⁻ x, w x * f x ∂ρ) = ∫⁻ y, (2 * m⁻¹) * (w (y i) * f (y i)) ∂(Measure.pi fun _ : Fin N => ρ) := by
          rw [lintegral_const_mul _ hwfi, e1, mul_assoc]
      _ ≤ ∫⁻ y, (w (y i) * f (y i) * (a + ∑ j, w (y j))⁻¹ + w (y i) * f (y i) * (a + ∑ j, w (y j)) * (m⁻¹ * m⁻¹)) ∂(Measure.pi fun _ : Fin N => ρ) := by
          refine lintegral_mono fun y => ?_
          have hy0 : a + ∑ j, w (y j) ≠ 0 := by simp [ha0]
          have hyt : a + ∑ j, w (y j) ≠ ∞ := ENNReal.add_ne_top.mpr ⟨ne_top_of_le_ne_top hC haC,
            ENNReal.sum_ne_top.mpr fun j _ => ne_top_of_le_ne_top hC (hwC _)⟩
          have h := mul_le_mul_right (two_div_le hy0 hyt hm0 hmt) (w (y i) * f (y i))
          calc _ = w (y i) * f (y i) * (2 * m⁻¹) := by ring
            _ ≤ _ := h
            _ = _ := by ring
      _ = ∫⁻ y, w (y i) * f (y i) * (a + ∑ j, w (y j))⁻¹ ∂(Measure.pi fun _ : Fin N => ρ) +
          (∫⁻ y, w (y i) * f (y i) * (a + ∑ j, w (y j)) ∂(Measure.pi fun _ : Fin N => ρ)) * (m⁻¹ * m⁻¹) := by
          rw [lintegral_add_left hI, lintegral_mul_const _ hWS]
      _ ≤ _ := by
          refine add_le_add le_rfl ?_
          calc _ ≤ (∫⁻ x, w x * f x ∂ρ) * m * (m⁻¹ * m⁻¹) := by gcongr
            _ = m⁻¹ * (∫⁻ x, w x * f x ∂ρ) * (m * m⁻¹) := by ring
            _ = _ := by rw [ENNReal.mul_inv_cancel hm0 hmt, mul_one]
  rw [← hm]
  rw [two_mul] at h3
  exact (ENNReal.add_le_add_iff_right (ENNReal.mul_ne_top (ENNReal.inv_ne_top.mpr hm0) hIt)).mp h3

section imh
variable {D : Dyn n d} (hP : D.P0.PosDef) (hQ : ∀ t, (D.Qs t).PosDef) {log_pdf : Traj (n + 1) d → ℝ} (hl : Measurable log_pdf)
include hP hQ hl

/-- One step with the move that has no guard. -/
theorem imhExact_ge {B : ℝ} (hB : ∀ x, log_pdf x ≤ B) (key : Key) (x : Traj (n + 1) d) {f : Traj (n + 1) d → ℝ≥0∞} (hf : Measurable f)
    (hf1 : ∀ x, f x ≤ 1) :
    let Z := ∫⁻ x, ENNReal.ofReal (Real.exp (mtTarget D log_pdf x)) ∂trajVol (n + 1) d
    N * ((2 * ENNReal.ofReal (Real.exp B) + N * Z)⁻¹ *
      ∫⁻ y, ENNReal.ofReal (Real.exp (mtTarget D log_pdf y)) * f y ∂trajVol (n + 1) d) ≤
    imhExact key (imh_init log_pdf x) D log_pdf N (fun s => f s.1) := by
  intro Z
  obtain ⟨ρ, hρ⟩ : ∃ ρ, ρ = (trajVol (n + 1) d).withDensity fun x => ENNReal.ofReal (Real.exp (gaussPathLog D.m0 D.P0 D.Fs D.Qs D.bs x)) := ⟨_, rfl⟩
  have hS := fun M : ℕ => Props.C39_prior (N := M) D.m0 hP (Fs := D.Fs) hQ D.bs (splitKey key 3 0)
  have hpr : IsProbabilityMeasure ρ := by
    rw [hρ]
    exact ⟨by rw [withDensity_apply _ MeasurableSet.univ, Measure.restrict_univ]; exact (hS 1).norm 0⟩
  have hlaw : ∀ F, Measurable F → (prior_sampling (splitKey key 3 0) D.m0 D.P0 D.Fs D.Qs D.bs N : Ex _) F = ∫⁻ e, F e ∂(Measure.pi fun _ : Fin N => ρ) := by
    rw [hρ]
    exact (hS N).law
  let w : Traj (n + 1) d → ℝ≥0∞ := fun y => ENNReal.ofReal (Real.exp (log_pdf y))
  have hw : Measurable w := measurable_expR hl
  have hden : ∀ g : Traj (n + 1) d → ℝ≥0∞, Measurable g → ∫⁻ y, w y * g y ∂ρ =
      ∫⁻ y, ENNReal.ofReal (Real.exp (mtTarget D log_pdf y)) * g y ∂trajVol (n + 1) d := fun g hg => by
    have hwg : Measurable fun y => w y * g y := hw.mul hg
    rw [hρ]
    refine (lintegral_withDensity_eq_lintegral_mul _ (measurable_expR ((hS 1).meas 0)) hwg).trans ?_
    refine lintegral_congr fun y => ?_
    rw [mtTarget, ofReal_exp_add, mul_assoc]
    rfl
  have hZ : ∫⁻ y, w y ∂ρ = Z := by
    have := hden (fun _ => 1) measurable_const
    simpa only [mul_one] using this
  have hwC : ∀ y, w y ≤ ENNReal.ofReal (Real.exp B) := fun y => ENNReal.ofReal_le_ofReal (Real.exp_le_exp.mpr (hB y))
  have low : ∀ e : Fin N → Traj (n + 1) d, ∑ i : Fin N, w (e i) * f (e i) * (w x + ∑ j, w (e j))⁻¹ ≤
      liuMove (imhW log_pdf (imh_init log_pdf x) e) 0 (fun k => f (imhStates log_pdf (imh_init log_pdf x) e k).1) := fun e => by
    have h := liu_movesAway (imhW log_pdf (imh_init log_pdf x) e) (normalize_isProb _) (normalize_pos _) 0
      (fun k => f (imhStates log_pdf (imh_init log_pdf x) e k).1)
    rw [one_mul] at h
    refine le_trans (le_of_eq ?_) h
    have hu : univ.erase (0 : Fin (N + 1)) = univ.map (Fin.succEmb N) := by
      ext k
      refine Fin.cases ?_ (fun i => ?_) k <;> simp [Fin.succ_ne_zero]
    rw [hu, sum_map]
    refine sum_congr rfl fun i _ => ?_
    show _ = ENNReal.ofReal (normalizeW (insert0 (log_pdf x) fun i => log_pdf (e i)) i.succ) * f (e i)
    rw [normalize_eq, ENNReal.ofReal_div_of_pos (sum_exp_pos _), ENNReal.ofReal_sum_of_nonneg fun k _ => (Real.exp_pos _).le, Fin.sum_univ_succ]
    show _ = w (e i) / (w x + ∑ j, w (e j)) * f (e i)
    rw [div_eq_mul_inv]
    ring
  have hGi : ∀ i : Fin N, Measurable fun e : Fin N → Traj (n + 1) d => w (e i) * f (e i) * (w x + ∑ j, w (e j))⁻¹ := fun i =>
    ((hw.mul hf).comp (measurable_pi_apply i)).mul
      (measurable_const.add (Finset.measurable_fun_sum _ fun j _ => hw.comp (measurable_pi_apply j))).inv
  have hM : Measurable fun e : Fin N → Traj (n + 1) d =>
      liuMove (imhW log_pdf (imh_init log_pdf x) e) 0 (fun k => f (imhStates log_pdf (imh_init log_pdf x) e k).1) := measurable_select (((measurable_imhW hl).comp measurable_prodMk_left) : Measurable (imhW (N := N) log_pdf (imh_init log_pdf x)))
    ((measurable_imhStates hl).comp measurable_prodMk_left : Measurable (imhStates (N := N) log_pdf (imh_init log_pdf x)))
    liuMove_ker (f := fun s => f s.1) (by fun_prop)
  show _ ≤ (prior_sampling (splitKey key 3 0) D.m0 D.P0 D.Fs D.Qs D.bs N : Ex _) fun e =>
    liuMove (imhW log_pdf (imh_init log_pdf x) e) 0 (fun k => f (imhStates log_pdf (imh_init log_pdf x) e k).1)
  rw [hlaw _ hM]
  refine le_trans ?_ (lintegral_mono low)
  rw [lintegral_finsetSum _ fun i _ => hGi i, ← hZ, ← hden f hf]
  refine le_trans (le_of_eq ?_) (sum_le_sum fun i _ => selfnorm_ge ρ hw hf (a := w x) (C := ENNReal.ofReal (Real.exp B))
    (ENNReal.ofReal_pos.mpr (Real.exp_pos _)).ne' (hwC x) ENNReal.ofReal_ne_top hwC hf1 i)
  simp

/-- The law of one step without guard is close to the target. -/
theorem imhExact_tv {B : ℝ} (hB : ∀ x, log_pdf x ≤ B) (key : Key) (x : Traj (n + 1) d) :
    TVLe (imhManyErr N B (∫⁻ x, ENNReal.ofReal (Real.exp (mtTarget D log_pdf x)) ∂trajVol (n + 1) d))
      (fun f => imhExact key (imh_init log_pdf x) D log_pdf N (fun s => f s.1))
      fun f => ∫⁻ x, f x ∂lawOf (trajVol (n + 1) d) (mtTarget D log_pdf) := by
  obtain ⟨Z, hZe⟩ : ∃ Z, Z = ∫⁻ x, ENNReal.ofReal (Real.exp (mtTarget D log_pdf x)) ∂trajVol (n + 1) d := ⟨_, rfl⟩
  have hZ := (imh_doeblin (N := N) hP hQ hl hB).1
  have hge := fun (f : Traj (n + 1) d → ℝ≥0∞) hf hf1 => imhExact_ge (N := N) hP hQ hl hB key x (f := f) hf hf1
  have hmt := measurable_mtTarget D hl
  have hpr := lawOf_isProb hZ hmt
  have hlaw := fun (f : Traj (n + 1) d → ℝ≥0∞) (hf : Measurable f) => lintegral_lawOf (lam := trajVol (n + 1) d) hmt hf
  rw [← hZe] at hZ
  simp only [← hZe] at hge hlaw
  rw [← hZe]
  have hker : IsKer fun _ : Unit => imhExact key (imh_init log_pdf x) D log_pdf N :=
    (drawSelect_ker (imh_draws_ker (β := Traj (n + 1) d × ℝ) hP hQ (splitKey key 3 0)) (measurable_imhW hl) (measurable_imhStates hl)
      liuMove_ker).comp (g := fun _ : Unit => imh_init log_pdf x) measurable_const
  have hmass : imhExact key (imh_init log_pdf x) D log_pdf N (fun _ => 1) = 1 :=
    drawSelect_mass (imh_draws_mass hP hQ _) (fun e => normalize_isProb _) _ fun w hw k => liu_moveMass w hw k
  obtain ⟨C, hC⟩ : ∃ C, C = ENNReal.ofReal (Real.exp B) := ⟨_, rfl⟩
  rw [imhManyErr]
  rw [← hC] at hge ⊢
  have hC0 : C ≠ 0 := by rw [hC]; exact (ENNReal.ofReal_pos.mpr (Real.exp_pos _)).ne'
  have hCt : C ≠ ∞ := by rw [hC]; exact ENNReal.ofReal_ne_top
  have hZC : Z ≤ C := by
    rw [hZe, hC]
    calc _ ≤ ∫⁻ x, ENNReal.ofReal (Real.exp B) * ENNReal.ofReal (Real.exp (gaussPathLog D.m0 D.P0 D.Fs D.Qs D.bs x)) ∂trajVol (n + 1) d := by
          refine lintegral_mono fun x => ?_
          rw [← ENNReal.ofReal_mul (Real.exp_pos _).le, ← Real.exp_add]
          exact ENNReal.ofReal_le_ofReal (Real.exp_le_exp.mpr (by unfold mtTarget; linarith [hB x]))
      _ = ENNReal.ofReal (Real.exp B) := by
          have hS := C39_prior (N := 1) D.m0 hP (Fs := D.Fs) hQ D.bs []
          rw [lintegral_const_mul _ (measurable_expR (hS.meas 0)), hS.norm 0, mul_one]
  have hm0 : 2 * C + N * Z ≠ 0 := by simp [hC0]
  have hmt' : 2 * C + N * Z ≠ ∞ :=
    ENNReal.add_ne_top.mpr ⟨ENNReal.mul_ne_top (by simp) hCt, ENNReal.mul_ne_top (by simp) hZ.2⟩
  refine tvLe_of_le_add hker () hmass measurable_fst (π := lawOf (trajVol (n + 1) d) (mtTarget D log_pdf)) fun f hf hf1 => ?_
  have h1 := hge f hf hf1
  have h2 : ∫⁻ y, ENNReal.ofReal (Real.exp (mtTarget D log_pdf y)) * f y ∂trajVol (n + 1) d =
      Z * ∫⁻ y, f y ∂lawOf (trajVol (n + 1) d) (mtTarget D log_pdf) := by
    rw [hlaw f hf, ← mul_assoc, ENNReal.mul_inv_cancel hZ.1 hZ.2, one_mul]
  rw [h2] at h1
  have hI1 : ∫⁻ y, f y ∂lawOf (trajVol (n + 1) d) (mtTarget D log_pdf) ≤ 1 :=
    (lintegral_mono hf1).trans (by rw [lintegral_const, measure_univ, mul_one])
  generalize ∫⁻ y, f y ∂lawOf (trajVol (n + 1) d) (mtTarget D log_pdf) = I at h1 hI1 ⊢
  calc I = (2 * C + N * Z) * (2 * C + N * Z)⁻¹ * I := by rw [ENNReal.mul_inv_cancel hm0 hmt', one_mul]
    _ = N * ((2 * C + N * Z)⁻¹ * (Z * I)) + 2 * C * (2 * C + N * Z)⁻¹ * I := by ring
    _ ≤ imhExact key (imh_init log_pdf x) D log_pdf N (fun s => f s.1) + 2 * C / ((N + 1) * Z) := by
        gcongr
        refine (mul_le_mul_right hI1 _).trans ?_
        rw [mul_one, div_eq_mul_inv]
        gcongr
        calc ((N : ℝ≥0∞) + 1) * Z = Z + N * Z := by ring
          _ ≤ 2 * C + N * Z := by
              gcongr
              exact hZC.trans (by rw [two_mul]; exact le_self_add)

end imh

end Verif
