import Verif.Lemmas.LgWrongLong
import Verif.Lemmas.LgWrongFinal

/-!
# Particle-aMALA+ on the linear Gaussian model with four times or more, coordinate by coordinate
-/

open scoped ENNReal
open MeasureTheory ProbabilityTheory Finset

namespace Verif
open Verif.Spec Verif.Model Verif.Props

variable {N n d : ℕ} (ys : Fin (n + 4) → Vec d) (sigma δ : ℝ)

theorem win_coord (t : Fin (n + 2)) (v : Fin (n + 4) → Vec d) (j : Fin d) : (fun s => win t v s j) = win t fun s => v s j := by
  funext s
  fin_cases s <;> rfl

/-! ## The noise -/

section
variable (x e : Fin (n + 4) → Vec d) (η : Fin (n + 4) → Fin (N + 1) → Vec d)

/-- One coordinate. -/
def lgCoordL (j : Fin d) : LgL n N := (fun t => ys t j, fun t => x t j, fun t => e t j, fun t i => η t i j)

/-- The auxiliary variables of the code. -/
noncomputable def lgAuxL : Fin (n + 4) → Vec d := fun t j =>
  x t j + 0.5 * δ * fullGrad (jaxGrad (lgGamma_0 ys sigma)) (fun x' x y => jaxGrad (fun x' => lgGamma_t sigma x' x y) x')
    (fun x' x y => jaxGrad (fun x => lgGamma_t sigma x' x y) x) (tailA ys) x t j + auxStd (fun _ : Fin (n + 4) => δ) t * e t j

/-- The particles of the code. -/
noncomputable def lgPartL : Fin (n + 4) → Fin (N + 1) → Vec d :=
  auxParticles (lgAuxL ys sigma δ x e) (auxStd fun _ : Fin (n + 4) => δ) η (fun _ => 0) x

theorem lgAuxL_eq (t : Fin (n + 4)) (j : Fin d) : lgAuxL ys sigma δ x e t j = llU (1 / sigma ^ 2) δ (lgCoordL ys x e η j) t := by
  have hs : auxStd (fun _ : Fin (n + 4) => δ) t = √(0.5 * δ) := rfl
  have h1 : insert0 (jaxGrad (lgGamma_0 ys sigma) (x 0)) (fun t : Fin (n + 3) =>
        jaxGrad (fun x' => lgGamma_t sigma (initA x t) x' (tailA ys t)) (tailA x t)) t j =
      (Fin.cons (ys 0 j - x 0 j - 1 / sigma ^ 2 * x 0 j) fun t : Fin (n + 3) =>
        ys t.succ j - x t.succ j - 1 / sigma ^ 2 * (x t.succ j - x t.castSucc j) : Fin (n + 4) → ℝ) t := by
    refine Fin.cases ?_ (fun t => ?_) t
    · rw [insert0_zero, Fin.cons_zero, (C91_lg_gradients ys sigma 0 (x 0) 0).1]
      rfl
    · rw [insert0_succ, Fin.cons_succ, (C91_lg_gradients ys sigma _ _ _).2.1]
      rfl
  have h2 : snocA (fun t : Fin (n + 3) => jaxGrad (fun x' => lgGamma_t sigma x' (tailA x t) (tailA ys t)) (initA x t)) 0 t j =
      (Fin.snoc (fun t : Fin (n + 3) => 1 / sigma ^ 2 * (x t.succ j - x t.castSucc j)) 0 : Fin (n + 4) → ℝ) t := by
    refine Fin.lastCases ?_ (fun t => ?_) t
    · rw [snocA_last, Fin.snoc_last]
      rfl
    · rw [snocA_castSucc, Fin.snoc_castSucc, (C91_lg_gradients ys sigma _ _ _).2.2]
      rfl
  rw [lgAuxL, llU, hs]
  congr 1
  unfold fullGrad
  simp only [Pi.add_apply]
  rw [h1, h2, lgMeanL]
  simp only [lgCoordL]
  ring

theorem lgPartL_eq (t : Fin (n + 4)) (i : Fin (N + 1)) (j : Fin d) :
    lgPartL ys sigma δ x e η t i j = llP (1 / sigma ^ 2) δ (lgCoordL ys x e η j) t i := by
  rw [llP, ← lgAuxL_eq]
  unfold lgPartL auxParticles atSet
  by_cases h : i = 0
  · subst h
    rw [Function.update_self, if_pos rfl]
    rfl
  · rw [Function.update_of_ne h, if_neg h]
    rfl

theorem lg_part_fun (t : Fin (n + 4)) (i : Fin (N + 1)) :
    lgPartL ys sigma δ x e η t i = fun j => llP (1 / sigma ^ 2) δ (lgCoordL ys x e η j) t i :=
  funext fun j => lgPartL_eq ys sigma δ x e η t i j

/-! ## Densities -/

theorem lg_target_eqL (hs : 0 < sigma) : lgTarget sigma ys x =
    ∑ j, (lgLogL (1 / sigma ^ 2) (fun t => ys t j) (fun t => x t j) + (n + 4) * lgK0 sigma) := by
  rw [← lgTarget_gamma ys hs, pathLogDensity]
  unfold lgGamma_0 lgGamma_t
  simp only [lg_pot, lg_norm, ← sum_add_distrib]
  rw [sum_comm, ← sum_add_distrib]
  refine sum_congr rfl fun j _ => ?_
  have h : ∀ t : Fin (n + 3), -Real.log (2 * Real.pi) / 2 - (tailA ys t j - x t.succ j) ^ 2 / 2 +
      (-Real.log (2 * Real.pi * sigma ^ 2) / 2 - 1 / sigma ^ 2 * (x t.succ j - x t.castSucc j) ^ 2 / 2) =
      lgK0 sigma - (1 / sigma ^ 2 * (x t.succ j - x t.castSucc j) ^ 2 / 2 + (ys t.succ j - x t.succ j) ^ 2 / 2) := fun t => by
    rw [lgK0, tailA_apply]; ring
  simp only [h, sum_sub_distrib, sum_const, card_univ, Fintype.card_fin, nsmul_eq_mul, lgLogL, Pi.zero_apply]
  push_cast
  rw [lgK0]
  ring

/-- The constant of the density of the noise. -/
noncomputable def lgKnL (n N d : ℕ) : ℝ := -(d * (((n + 4) + (n + 4) * (N + 1)) * (1 / 2 * Real.log (2 * Real.pi))))

theorem lg_density_eqL (hs : 0 < sigma) (k : Fin (N + 1)) (x' : Fin (n + 4) → Vec d)
    (hx' : ∀ j, (fun t => x' t j) = llNew (1 / sigma ^ 2) δ k (lgCoordL ys x e η j)) :
    lgTarget sigma ys x + ∑ t, stdLogpdf (e t) + ∑ t, ∑ i, stdLogpdf (η t i) =
      lgTarget sigma ys x' + ∑ j, llQ (1 / sigma ^ 2) δ k (lgCoordL ys x e η j) + lgKnL n N d := by
  simp only [lg_target_eqL ys sigma _ hs, hx', std_eq]
  have e1 : ∑ t, ∑ j, (-(e t j ^ 2 / 2) - 1 / 2 * Real.log (2 * Real.pi)) =
      ∑ j, (-∑ t, e t j ^ 2 / 2 - (n + 4) * (1 / 2 * Real.log (2 * Real.pi))) := by
    rw [sum_comm]
    refine sum_congr rfl fun j _ => ?_
    simp only [sum_sub_distrib, sum_neg_distrib, sum_const, card_univ, Fintype.card_fin, nsmul_eq_mul]
    push_cast
    ring
  have e2 : ∑ t, ∑ i, ∑ j, (-(η t i j ^ 2 / 2) - 1 / 2 * Real.log (2 * Real.pi)) =
      ∑ j, (-∑ t, ∑ i, η t i j ^ 2 / 2 - (n + 4) * (N + 1) * (1 / 2 * Real.log (2 * Real.pi))) := by
    have h1 : ∀ t, ∑ i, ∑ j, (-(η t i j ^ 2 / 2) - 1 / 2 * Real.log (2 * Real.pi)) =
        ∑ j, ∑ i, (-(η t i j ^ 2 / 2) - 1 / 2 * Real.log (2 * Real.pi)) := fun t => sum_comm
    simp only [h1]
    rw [sum_comm]
    refine sum_congr rfl fun j _ => ?_
    simp only [sum_sub_distrib, sum_neg_distrib, sum_const, card_univ, Fintype.card_fin, nsmul_eq_mul]
    push_cast
    ring
  have e3 : lgKnL n N d = ∑ j : Fin d, -(((n + 4) + (n + 4) * (N + 1)) * (1 / 2 * Real.log (2 * Real.pi))) := by
    simp only [lgKnL, sum_const, card_univ, Fintype.card_fin, nsmul_eq_mul]
    ring
  rw [e1, e2, e3, ← sum_add_distrib, ← sum_add_distrib, ← sum_add_distrib, ← sum_add_distrib]
  refine sum_congr rfl fun j _ => ?_
  simp only [llQ, lgCoordL]
  ring

/-! ## The log-weights of the code -/

theorem heavy_sum (hd : 0 < d) {K : ℝ} (hK0 : 0 ≤ K) (hK : 4 * (N + 1) ≤ Real.exp K) {k : Fin (N + 1)} {lw : Fin (N + 1) → ℝ}
    {g : Fin d → Fin (N + 1) → ℝ} {c : ℝ} (h : ∀ i, lw i = ∑ j, g j i + c) (hg : ∀ j i, i ≠ k → K ≤ g j k - g j i) :
    3 / 4 ≤ normalizeW lw k := by
  refine normalizeW_heavy hK fun i hi => ?_
  rw [h, h, add_sub_add_right_eq_sub, ← sum_sub_distrib]
  exact le_sum_of_forall hK0 hd fun j => hg j i hi

theorem lg_aux_coord (t : Fin (n + 2)) (j : Fin d) :
    (fun s => win t (lgAuxL ys sigma δ x e) s j) = win t (llU (1 / sigma ^ 2) δ (lgCoordL ys x e η j)) := by
  rw [win_coord]
  congr 1
  funext s
  exact lgAuxL_eq ys sigma δ x e η s j

theorem lg_longGt (t : Fin (n + 2)) (t0 t1 t2 : Fin (n + 4)) (i0 i1 i2 : Fin (N + 1)) :
    alsGammatTilde (lgGamma_t sigma) (fun x' x y => jaxGrad (fun x' => lgGamma_t sigma x' x y) x')
      (fun x' x y => jaxGrad (fun x => lgGamma_t sigma x' x y) x) (lgPartL ys sigma δ x e η t0 i0) (lgPartL ys sigma δ x e η t1 i1)
      (lgPartL ys sigma δ x e η t2 i2) (alsParams (fun _ => δ) (fun _ => δ) (lgAuxL ys sigma δ x e) (tailA ys) t.castSucc)
      (alsParams (fun _ => δ) (fun _ => δ) (lgAuxL ys sigma δ x e) (tailA ys) t.succ) =
      ∑ j, lgG2 (1 / sigma ^ 2) δ (win t (lgCoordL ys x e η j).1) (win t (llU (1 / sigma ^ 2) δ (lgCoordL ys x e η j)))
        (llP (1 / sigma ^ 2) δ (lgCoordL ys x e η j) t0 i0) (llP (1 / sigma ^ 2) δ (lgCoordL ys x e η j) t1 i1)
        (llP (1 / sigma ^ 2) δ (lgCoordL ys x e η j) t2 i2) + d * lgK0 sigma := by
  have h := lg_threeGt (win t ys) sigma δ (win t (lgAuxL ys sigma δ x e)) (lgPartL ys sigma δ x e η t0 i0)
    (lgPartL ys sigma δ x e η t1 i1) (lgPartL ys sigma δ x e η t2 i2)
  refine Eq.trans (show _ = _ from ?_) (h.trans ?_)
  · rfl
  · rw [sum_add_distrib]
    simp only [lgPartL_eq, win_coord t ys, lg_aux_coord ys sigma δ x e η, sum_const, card_univ, Fintype.card_fin, nsmul_eq_mul]
    rfl

theorem lg_longG1 (i0 i1 : Fin (N + 1)) :
    alsGamma1Tilde (jaxGrad (lgGamma_0 ys sigma)) (lgGamma_t sigma) (fun x' x y => jaxGrad (fun x' => lgGamma_t sigma x' x y) x')
      (fun x' x y => jaxGrad (fun x => lgGamma_t sigma x' x y) x) (lgPartL ys sigma δ x e η 0 i0) (lgPartL ys sigma δ x e η 1 i1)
      (alsParams1 (fun _ => δ) (fun _ => δ) (lgAuxL ys sigma δ x e) (tailA ys)).1
      (alsParams1 (fun _ => δ) (fun _ => δ) (lgAuxL ys sigma δ x e) (tailA ys)).2 =
      ∑ j, lgG1 (1 / sigma ^ 2) δ (win 0 (lgCoordL ys x e η j).1) (win 0 (llU (1 / sigma ^ 2) δ (lgCoordL ys x e η j)))
        (llP (1 / sigma ^ 2) δ (lgCoordL ys x e η j) 0 i0) (llP (1 / sigma ^ 2) δ (lgCoordL ys x e η j) 1 i1) + d * lgK0 sigma := by
  have h := lg_threeG1 (win 0 ys) sigma δ (win 0 (lgAuxL ys sigma δ x e)) (lgPartL ys sigma δ x e η 0 i0)
    (lgPartL ys sigma δ x e η 1 i1)
  refine Eq.trans (show _ = _ from ?_) (h.trans ?_)
  · rfl
  · rw [sum_add_distrib]
    simp only [lgPartL_eq, win_coord 0 ys, lg_aux_coord ys sigma δ x e η, sum_const, card_univ, Fintype.card_fin, nsmul_eq_mul]
    rfl

theorem lg_longW0 (i : Fin (N + 1)) :
    longW0 (n := n + 1) (lgGamma_0 ys sigma) (jaxGrad (lgGamma_0 ys sigma)) (fun _ => δ) (fun _ => δ) (lgAuxL ys sigma δ x e)
      (lgPartL ys sigma δ x e η) i = ∑ j, ll0 (1 / sigma ^ 2) δ i (lgCoordL ys x e η j) + d * lgK0 sigma := by
  have h := lg_threeW0 (win 0 ys) sigma δ (win 0 (lgAuxL ys sigma δ x e)) (win 0 (lgPartL ys sigma δ x e η)) i
  refine Eq.trans (show _ = _ from ?_) (h.trans ?_)
  · rfl
  · rw [sum_add_distrib]
    simp only [win_coord 0 ys, lg_aux_coord ys sigma δ x e η, sum_const, card_univ, Fintype.card_fin, nsmul_eq_mul]
    refine congrArg (· + _) (sum_congr rfl fun j _ => ?_)
    show lgW0 _ _ _ _ (lgPartL ys sigma δ x e η 0 i j) = _
    rw [lgPartL_eq]
    rfl

theorem lg_longW1 (k i : Fin (N + 1)) :
    longW1 (n := n + 1) (jaxGrad (lgGamma_0 ys sigma)) (lgGamma_t sigma) (fun x' x y => jaxGrad (fun x' => lgGamma_t sigma x' x y) x')
      (fun x' x y => jaxGrad (fun x => lgGamma_t sigma x' x y) x) (tailA ys) (fun _ => δ) (fun _ => δ) (lgAuxL ys sigma δ x e)
      (lgPartL ys sigma δ x e η) k i = ∑ j, ll1 (1 / sigma ^ 2) δ k i (lgCoordL ys x e η j) + d * lgK0 sigma := by
  have h := lg_threeW1 (win 0 ys) sigma δ (win 0 (lgAuxL ys sigma δ x e)) (win 0 (lgPartL ys sigma δ x e η)) (longA k) i
  refine Eq.trans (show _ = _ from ?_) (h.trans ?_)
  · rfl
  · rw [sum_add_distrib]
    simp only [win_coord 0 ys, lg_aux_coord ys sigma δ x e η, sum_const, card_univ, Fintype.card_fin, nsmul_eq_mul]
    refine congrArg (· + _) (sum_congr rfl fun j _ => ?_)
    show lgW1 _ _ _ _ (lgPartL ys sigma δ x e η 0 (longA k i) j) (lgPartL ys sigma δ x e η 1 i j) = _
    rw [lgPartL_eq, lgPartL_eq]
    rfl

theorem lg_longW2 (t : Fin (n + 2)) (i : Fin (N + 1)) :
    longW2 (n := n + 1) (lgGamma_t sigma) (fun x' x y => jaxGrad (fun x' => lgGamma_t sigma x' x y) x')
      (fun x' x y => jaxGrad (fun x => lgGamma_t sigma x' x y) x) (tailA ys) (fun _ => δ) (fun _ => δ) (lgAuxL ys sigma δ x e)
      (lgPartL ys sigma δ x e η) t i = ∑ j, ll2 (1 / sigma ^ 2) δ i t (lgCoordL ys x e η j) + d * lgK0 sigma := by
  have h := lg_threeW2 (win t ys) sigma δ (win t (lgAuxL ys sigma δ x e)) (win t (lgPartL ys sigma δ x e η)) (fun _ => 0) (fun _ => 0) i
  refine Eq.trans (show _ = _ from ?_) (h.trans ?_)
  · rfl
  · rw [sum_add_distrib]
    simp only [win_coord t ys, lg_aux_coord ys sigma δ x e η, sum_const, card_univ, Fintype.card_fin, nsmul_eq_mul]
    refine congrArg (· + _) (sum_congr rfl fun j _ => ?_)
    show lgW2 _ _ _ _ (lgPartL ys sigma δ x e η t.castSucc.castSucc 0 j) (lgPartL ys sigma δ x e η t.castSucc.succ 0 j)
      (lgPartL ys sigma δ x e η t.succ.succ i j) = _
    rw [lgPartL_eq, lgPartL_eq, lgPartL_eq]
    rfl

end

/-- Near the direction of the witness the kernel draws the new trajectory with probability bounded below. -/
theorem lg_long_ge {k : Fin (N + 1)} (hd : 0 < d) (key : Key) {resampling : Resampling Ex N}
    (hR : ∀ key, CondResampling fun w i j => resampling key w i j true)
    (hG : ∀ key, GivesToHeavy fun w i j => resampling key w i j true) {mv : AncestorMove Ex N}
    (hm : ∀ key, MoveKer (moveIndex mv key)) (hH : ∀ key, KeepsHeavy (moveIndex mv key)) :
    ∃ c : ℝ≥0∞, c ≠ 0 ∧ ∀ (K : ℝ) x e (η : Fin (n + 4) → Fin (N + 1) → Vec d),
      0 ≤ K → 4 * (N + 1) ≤ Real.exp K →
      (∀ j, LlGaps (1 / sigma ^ 2) δ K k (lgCoordL ys x e η j)) →
      Hits c
        (alsForward (n := n + 1) key (fun _ => 0) (lgGamma_0 ys sigma) (jaxGrad (lgGamma_0 ys sigma)) (lgGamma_t sigma)
          (fun x' x y => jaxGrad (fun x' => lgGamma_t sigma x' x y) x') (fun x' x y => jaxGrad (fun x => lgGamma_t sigma x' x y) x)
          (tailA ys) (fun _ => δ) (fun _ => δ) resampling (lgAuxL ys sigma δ x e) (lgPartL ys sigma δ x e η) >>= fun F =>
          alsPass (n := n + 1) key (fun _ => 0) (jaxGrad (lgGamma_0 ys sigma)) (lgGamma_t sigma)
            (fun x' x y => jaxGrad (fun x' => lgGamma_t sigma x' x y) x') (fun x' x y => jaxGrad (fun x => lgGamma_t sigma x' x y) x)
            (tailA ys) (fun _ => δ) (fun _ => δ) (lgAuxL ys sigma δ x e) mv true F)
        (longNew (lgPartL ys sigma δ x e η) k, longIdx k) := by
  obtain ⟨c1, hc1, h1⟩ := als_forward_hits (n := n + 1) (lgGamma_0 ys sigma) (jaxGrad (lgGamma_0 ys sigma)) (lgGamma_t sigma)
    (fun x' x y => jaxGrad (fun x' => lgGamma_t sigma x' x y) x') (fun x' x y => jaxGrad (fun x => lgGamma_t sigma x' x y) x)
    (tailA ys) (fun _ => δ) (fun _ => δ) k key hR hG
  obtain ⟨c2, hc2, h2⟩ := als_backward_hits (n := n) (d := d) (P0 := AlsParams0 d) (P := AlParams (Vec d) d) (P1 := AlParams (Vec d) d)
    (splitKey key (n + 1 + 5) 2) k hm hH
  refine ⟨c1 * c2, mul_ne_zero hc1 hc2, fun K x e η hK0 hK hg => ?_⟩
  refine Hits.bind (h1 (lgAuxL ys sigma δ x e) (lgPartL ys sigma δ x e η) ?_ ?_ fun t => ?_) ?_
  · exact heavy_sum hd hK0 hK (lg_longW0 ys sigma δ x e η) fun j i hi => (hg j).g0 i hi
  · exact heavy_sum hd hK0 hK (lg_longW1 ys sigma δ x e η k) fun j i hi => (hg j).g1 i hi
  · exact heavy_sum hd hK0 hK (lg_longW2 ys sigma δ x e η t) fun j i hi => (hg j).g2 (t, i) hi
  · refine h2 _ _ _ _ _ _ _ ?_ ?_ (fun t => ?_) ?_
    · obtain ⟨M, hM⟩ : ∃ M, maxA (fun i => longW2 (n := n + 1) (lgGamma_t sigma) (fun x' x y => jaxGrad (fun x' => lgGamma_t sigma x' x y) x')
          (fun x' x y => jaxGrad (fun x => lgGamma_t sigma x' x y) x) (tailA ys) (fun _ => δ) (fun _ => δ) (lgAuxL ys sigma δ x e)
          (lgPartL ys sigma δ x e η) (Fin.last (n + 1)) i) = M := ⟨_, rfl⟩
      refine heavy_sum hd hK0 hK (g := fun j i => ll2 (1 / sigma ^ 2) δ i (Fin.last (n + 1)) (lgCoordL ys x e η j))
        (c := d * lgK0 sigma - M) (fun i => ?_) fun j i hi => (hg j).g2 (Fin.last (n + 1), i) hi
      rw [← add_sub_assoc, ← lg_longW2, ← hM]
      rfl
    · obtain ⟨M, hM⟩ : ∃ M, maxA (fun i => longW2 (n := n + 1) (lgGamma_t sigma) (fun x' x y => jaxGrad (fun x' => lgGamma_t sigma x' x y) x')
          (fun x' x y => jaxGrad (fun x => lgGamma_t sigma x' x y) x) (tailA ys) (fun _ => δ) (fun _ => δ) (lgAuxL ys sigma δ x e)
          (lgPartL ys sigma δ x e η) (Fin.last n).castSucc i) = M := ⟨_, rfl⟩
      refine heavy_sum hd hK0 hK (g := fun j i => llBL (1 / sigma ^ 2) δ i (lgCoordL ys x e η j))
        (c := d * lgK0 sigma + d * lgK0 sigma - M) (fun i => ?_) fun j i hi => (hg j).gL i hi
      have e1 := lg_longW2 ys sigma δ x e η (Fin.last n).castSucc i
      have e2 := lg_longGt ys sigma δ x e η (Fin.last (n + 1)) (Fin.last (n + 1)).castSucc.castSucc (Fin.last (n + 1)).castSucc.succ
        (Fin.last (n + 3)) 0 i 0
      simp only [llBL, sum_add_distrib]
      refine Eq.trans (congrArg₂ (· + ·) e2 (congrArg₂ (· - ·) e1 hM)) ?_
      ring
    · refine Fin.cases ?_ (fun t => ?_) t
      · refine heavy_sum (k := k) hd hK0 hK (g := fun j i => llB1 (1 / sigma ^ 2) δ k i (lgCoordL ys x e η j))
          (c := d * lgK0 sigma + d * lgK0 sigma + d * lgK0 sigma) (fun i => ?_) fun j i hi => (hg j).gB1 i hi
        have e0 := lg_longW1 ys sigma δ x e η k i
        have e1 := lg_longGt ys sigma δ x e η 1 1 2 3 i 0 0
        have e2 := lg_longGt ys sigma δ x e η 0 0 1 2 0 i 0
        simp only [llB1, sum_add_distrib]
        refine Eq.trans (congrArg₂ (· + ·) (congrArg₂ (· + ·) e1 e2) e0) ?_
        ring
      · obtain ⟨M, hM⟩ : ∃ M, maxA (fun i => longW2 (n := n + 1) (lgGamma_t sigma) (fun x' x y => jaxGrad (fun x' => lgGamma_t sigma x' x y) x')
            (fun x' x y => jaxGrad (fun x => lgGamma_t sigma x' x y) x) (tailA ys) (fun _ => δ) (fun _ => δ) (lgAuxL ys sigma δ x e)
            (lgPartL ys sigma δ x e η) t.castSucc.castSucc i) = M := ⟨_, rfl⟩
        refine heavy_sum (k := 0) hd hK0 hK (g := fun j i => llB (1 / sigma ^ 2) δ i t (lgCoordL ys x e η j))
          (c := d * lgK0 sigma + d * lgK0 sigma + d * lgK0 sigma - M) (fun i => ?_) fun j i hi => (hg j).gB (t, i) hi
        have e0 := lg_longW2 ys sigma δ x e η t.castSucc.castSucc i
        have e1 := lg_longGt ys sigma δ x e η t.succ.succ t.castSucc.castSucc.succ.succ t.castSucc.succ.succ.succ t.succ.succ.succ.succ i 0 0
        have e2 := lg_longGt ys sigma δ x e η t.castSucc.succ t.castSucc.castSucc.castSucc.succ t.castSucc.castSucc.succ.succ
          t.castSucc.succ.succ.succ 0 i 0
        simp only [llB, sum_add_distrib]
        refine Eq.trans (congrArg₂ (· + ·) (congrArg₂ (· + ·) e1 e2) (congrArg₂ (· - ·) e0 hM)) ?_
        ring
    · obtain ⟨M, hM⟩ : ∃ M, maxA (fun i => longW0 (n := n + 1) (lgGamma_0 ys sigma) (jaxGrad (lgGamma_0 ys sigma)) (fun _ => δ)
          (fun _ => δ) (lgAuxL ys sigma δ x e) (lgPartL ys sigma δ x e η) i) = M := ⟨_, rfl⟩
      refine heavy_sum hd hK0 hK (g := fun j i => llB0 (1 / sigma ^ 2) δ k i (lgCoordL ys x e η j))
        (c := d * lgK0 sigma + d * lgK0 sigma + d * lgK0 sigma - M) (fun i => ?_) fun j i hi => (hg j).gB0 i hi
      have e0 := lg_longW0 ys sigma δ x e η i
      have e1 := lg_longG1 ys sigma δ x e η i k
      have e2 := lg_longGt ys sigma δ x e η 0 0 1 2 i k 0
      simp only [llB0, sum_add_distrib]
      refine Eq.trans (congrArg₂ (· + ·) (congrArg₂ (· + ·) e1 e2) (congrArg₂ (· - ·) e0 hM)) ?_
      ring

end Verif
