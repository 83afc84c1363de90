import Verif.Lemmas.TAtp

/-!
# Reversed dynamics of a linear Gaussian model
-/

namespace Verif
open Verif.Spec Verif.Model Matrix

variable {n d : ℕ}

theorem margLaw_succ (m0 : Vec d) (P0 : Mat d d) (Fs Qs : Fin (n + 1) → Mat d d) (bs : Fin (n + 1) → Vec d)
    (t : Fin (n + 1)) : margLaw m0 P0 Fs Qs bs t.succ =
      margLaw (Fs 0 *ᵥ m0 + bs 0) (Fs 0 * P0 * (Fs 0)ᵀ + Qs 0) (tailA Fs) (tailA Qs) (tailA bs) t := rfl

theorem margLaw_zero (m0 : Vec d) (P0 : Mat d d) (Fs Qs : Fin n → Mat d d) (bs : Fin n → Vec d) :
    margLaw m0 P0 Fs Qs bs 0 = (m0, P0) := by
  cases n <;> rfl

/-- Exact reversed dynamics. -/
noncomputable def exactRev (m0 : Vec d) (P0 : Mat d d) (Fs Qs : Fin n → Mat d d) (bs : Fin n → Vec d) : RevDyn n d where
  mT := (margLaw m0 P0 Fs Qs bs (Fin.last n)).1
  PT := (margLaw m0 P0 Fs Qs bs (Fin.last n)).2
  Fs t := kGain (margLaw m0 P0 Fs Qs bs t.castSucc).2 (Fs t) (Qs t)
  Qs t := kCov (margLaw m0 P0 Fs Qs bs t.castSucc).2 (Fs t) (Qs t)
  bs t := (margLaw m0 P0 Fs Qs bs t.castSucc).1 - kGain (margLaw m0 P0 Fs Qs bs t.castSucc).2 (Fs t) (Qs t) *ᵥ
    (Fs t *ᵥ (margLaw m0 P0 Fs Qs bs t.castSucc).1 + bs t)

theorem margLaw_posDef {m0 : Vec d} {P0 : Mat d d} {Fs Qs : Fin n → Mat d d} {bs : Fin n → Vec d} (hP : P0.PosDef)
    (hQ : ∀ t, (Qs t).PosDef) (t : Fin (n + 1)) : (margLaw m0 P0 Fs Qs bs t).2.PosDef := by
  induction n generalizing m0 P0 with
  | zero => exact hP
  | succ n ih =>
    refine Fin.cases hP (fun t => ?_) t
    rw [margLaw_succ]
    refine ih ?_ (fun t => hQ t.succ) t
    rw [add_comm]
    exact innov_posDef hP (hQ 0) _

theorem exactRev_density {m0 : Vec d} {P0 : Mat d d} {Fs Qs : Fin n → Mat d d} {bs : Fin n → Vec d} (hP : P0.PosDef)
    (hQ : ∀ t, (Qs t).PosDef) (x : Fin (n + 1) → Vec d) :
    gaussPathLog m0 P0 Fs Qs bs x = revPathLog (exactRev m0 P0 Fs Qs bs) x := by
  induction n generalizing m0 P0 with
  | zero => simp [gaussPathLog, pathLogDensity, revPathLog, exactRev, margLaw]
  | succ n ih =>
    have hP1 : (Fs 0 * P0 * (Fs 0)ᵀ + Qs 0).PosDef := by
      rw [add_comm]
      exact innov_posDef hP (hQ 0) _
    have h := ih (m0 := Fs 0 *ᵥ m0 + bs 0) (Fs := tailA Fs) (Qs := tailA Qs) (bs := tailA bs) hP1 (fun t => hQ t.succ)
      (tailA x)
    have hb := update_bayes hP (hQ 0) (Fs 0) m0 (x 0) (bs 0) (x 1)
    simp only [gaussPathLog, pathLogDensity, revPathLog] at h ⊢
    rw [Fin.sum_univ_succ, Fin.sum_univ_succ]
    have h2 : normalLogpdf ((exactRev m0 P0 Fs Qs bs).Fs 0 *ᵥ x (Fin.succ 0) + (exactRev m0 P0 Fs Qs bs).bs 0)
        ((exactRev m0 P0 Fs Qs bs).Qs 0) (x (Fin.castSucc 0)) =
        normalLogpdf (kMean m0 P0 (Fs 0) (bs 0) (Qs 0) (x 1)) (kCov P0 (Fs 0) (Qs 0)) (x 0) := by
      simp only [exactRev, Fin.castSucc_zero, margLaw_zero, kMean_affine]
      rfl
    rw [h2]
    rw [add_comm (Fs 0 * P0 * (Fs 0)ᵀ)] at h
    have h3 : ∀ a b c e f g : ℝ, a + b = e + f → e + c = g → a + (b + c) = f + g := by intros; linarith
    refine (h3 _ _ _ _ _ _ hb h).trans ?_
    rw [add_comm (Qs 0)]
    rw [add_left_comm]
    rfl

theorem exactRev_reversal {m0 : Vec d} {P0 : Mat d d} {Fs Qs : Fin n → Mat d d} {bs : Fin n → Vec d} (hP : P0.PosDef)
    (hQ : ∀ t, (Qs t).PosDef) : IsReversal m0 P0 Fs Qs bs (exactRev m0 P0 Fs Qs bs) where
  final_posDef := margLaw_posDef hP hQ _
  posDef t := kCov_posDef (margLaw_posDef hP hQ _) (hQ t) _
  density := exactRev_density hP hQ

theorem get_gain_eq {P Q F : Mat d d} (hP : P.PosDef) (hQ : Q.PosDef) : get_gain F Q P = F * P * (Q + F * P * Fᵀ)⁻¹ := by
  have hS := innov_posDef hP hQ F
  rw [get_gain, solvePos, transpose_mul, add_comm, PosDef.inv_transpose hS, transpose_mul, transpose_transpose,
    PosDef.transpose_eq hP]

theorem reversedBody_eq {P Q F : Mat d d} {m b : Vec d} (hP : P.PosDef) (hQ : Q.PosDef)
    (hm : Fᵀ *ᵥ m - Fᵀ *ᵥ b = F *ᵥ m + b) (hPP : Fᵀ * P * F = F * P * Fᵀ) (hFP : F * P = P * Fᵀ) :
    reversedBody (m, P) (F, Q, b) = ((F *ᵥ m + b, F * P * Fᵀ + Q), (kGain P F Q, kCov P F Q,
      m - kGain P F Q *ᵥ (F *ᵥ m + b))) := by
  have hg : get_gain F Q P = kGain P F Q := by rw [get_gain_eq hP hQ, kGain, hFP]
  have hS := innov_posDef hP hQ F
  simp only [reversedBody, hg, hm, hPP]
  rw [half_symm (by rw [add_comm]; exact PosDef.transpose_eq hS)]
  have : P - kGain P F Q * F * P = kCov P F Q := by rw [kCov, Matrix.mul_assoc]
  rw [this, half_symm (PosDef.transpose_eq (kCov_posDef hP hQ F))]

/-- `_get_reversed_dynamics` is exact under the conditions at every step. -/
theorem get_reversed_dynamics_eq {m0 : Vec d} {P0 : Mat d d} {Fs Qs : Fin n → Mat d d} {bs : Fin n → Vec d}
    (hP : P0.PosDef) (hQ : ∀ t, (Qs t).PosDef) (h : ∀ t : Fin n, RevOK (Fs t) (bs t) (margLaw m0 P0 Fs Qs bs t.castSucc)) :
    get_reversed_dynamics m0 P0 Fs Qs bs = exactRev m0 P0 Fs Qs bs := by
  have key : scan reversedBody (m0, P0) (fun t => (Fs t, Qs t, bs t)) =
      (((exactRev m0 P0 Fs Qs bs).mT, (exactRev m0 P0 Fs Qs bs).PT), fun t => ((exactRev m0 P0 Fs Qs bs).Fs t,
        (exactRev m0 P0 Fs Qs bs).Qs t, (exactRev m0 P0 Fs Qs bs).bs t)) := by
    induction n generalizing m0 P0 with
    | zero =>
      refine Prod.ext rfl ?_
      funext t
      exact t.elim0
    | succ n ih =>
      have h0 := h 0
      rw [Fin.castSucc_zero, margLaw_zero] at h0
      have hP1 : (Fs 0 * P0 * (Fs 0)ᵀ + Qs 0).PosDef := by
        rw [add_comm]
        exact innov_posDef hP (hQ 0) _
      have hih := ih (m0 := Fs 0 *ᵥ m0 + bs 0) (Fs := tailA Fs) (Qs := tailA Qs) (bs := tailA bs) hP1 (fun t => hQ t.succ)
        (fun t => h t.succ)
      have hb := reversedBody_eq (b := bs 0) (m := m0) hP (hQ 0) h0.mean h0.cov h0.gain
      rw [scan_succ, hb]
      simp only
      have hih' : scan reversedBody (Fs 0 *ᵥ m0 + bs 0, Fs 0 * P0 * (Fs 0)ᵀ + Qs 0)
          (tailA fun t => (Fs t, Qs t, bs t)) = _ := hih
      rw [hih']
      refine Prod.ext rfl ?_
      funext t
      refine Fin.cases ?_ (fun t => ?_) t
      · simp only [insert0_zero, exactRev, Fin.castSucc_zero, margLaw_zero]
      · rfl
  simp only [get_reversed_dynamics, key]

/-! ## Uniqueness -/

/-- A symmetric matrix is determined by its quadratic form. -/
theorem symm_ext {A B : Mat d d} (hA : Aᵀ = A) (hB : Bᵀ = B) (h : ∀ z : Vec d, z ⬝ᵥ (A *ᵥ z) = z ⬝ᵥ (B *ᵥ z)) : A = B := by
  have pol : ∀ (C : Mat d d), Cᵀ = C → ∀ x y : Vec d, (x + y) ⬝ᵥ (C *ᵥ (x + y)) = x ⬝ᵥ (C *ᵥ x) + y ⬝ᵥ (C *ᵥ y) +
      2 * (x ⬝ᵥ (C *ᵥ y)) := by
    intro C hC x y
    have : y ⬝ᵥ (C *ᵥ x) = x ⬝ᵥ (C *ᵥ y) := by
      rw [dotProduct_mulVec, ← mulVec_transpose, hC, dotProduct_comm]
    rw [mulVec_add, dotProduct_add, add_dotProduct, add_dotProduct, this]
    ring
  ext i j
  have h1 := h (Pi.single i 1 + Pi.single j 1)
  rw [pol A hA, pol B hB, h (Pi.single i 1), h (Pi.single j 1)] at h1
  have h2 : (Pi.single i 1 : Vec d) ⬝ᵥ (A *ᵥ Pi.single j 1) = (Pi.single i 1 : Vec d) ⬝ᵥ (B *ᵥ Pi.single j 1) := by linarith
  simpa using h2

theorem quad_shift {A : Mat d d} (hA : Aᵀ = A) (m x : Vec d) :
    (x - m) ⬝ᵥ (A *ᵥ (x - m)) = x ⬝ᵥ (A *ᵥ x) - 2 * (x ⬝ᵥ (A *ᵥ m)) + m ⬝ᵥ (A *ᵥ m) := by
  have : m ⬝ᵥ (A *ᵥ x) = x ⬝ᵥ (A *ᵥ m) := by
    rw [dotProduct_mulVec, ← mulVec_transpose, hA, dotProduct_comm]
  rw [mulVec_sub, dotProduct_sub, sub_dotProduct, sub_dotProduct, this]
  ring

/-- A Gaussian density determines its parameters, even up to a constant factor. -/
theorem normalLogpdf_ext {m m' : Vec d} {C C' : Mat d d} (hC : C.PosDef) (hC' : C'.PosDef) {c : ℝ}
    (h : ∀ x, normalLogpdf m C x = normalLogpdf m' C' x + c) : m = m' ∧ C = C' := by
  have hs := PosDef.inv_transpose hC
  have hs' := PosDef.inv_transpose hC'
  have h1 : ∀ x : Vec d, x ⬝ᵥ (C⁻¹ *ᵥ x) - 2 * (x ⬝ᵥ (C⁻¹ *ᵥ m)) = x ⬝ᵥ (C'⁻¹ *ᵥ x) - 2 * (x ⬝ᵥ (C'⁻¹ *ᵥ m')) := by
    intro x
    have e1 := h x
    have e0 := h 0
    simp only [normalLogpdf] at e1 e0
    rw [quad_shift hs, quad_shift hs'] at e1 e0
    simp only [zero_dotProduct, mul_zero, sub_zero, zero_add] at e0
    linarith
  have hquad : ∀ x : Vec d, x ⬝ᵥ (C⁻¹ *ᵥ x) = x ⬝ᵥ (C'⁻¹ *ᵥ x) := by
    intro x
    have e1 := h1 x
    have e2 := h1 (-x)
    simp only [mulVec_neg, dotProduct_neg, neg_dotProduct, neg_neg] at e2
    linarith
  have hinv := symm_ext hs hs' hquad
  have hCC : C = C' := by
    rw [← nonsing_inv_nonsing_inv C (PosDef.isUnit_det hC), hinv, nonsing_inv_nonsing_inv C' (PosDef.isUnit_det hC')]
  refine ⟨?_, hCC⟩
  have hv : C⁻¹ *ᵥ m = C⁻¹ *ᵥ m' := by
    funext i
    have e1 := h1 (Pi.single i 1)
    rw [hinv] at e1 ⊢
    have : (Pi.single i 1 : Vec d) ⬝ᵥ (C'⁻¹ *ᵥ m) = (Pi.single i 1 : Vec d) ⬝ᵥ (C'⁻¹ *ᵥ m') := by linarith
    simpa using this
  have := congrArg (fun v => C *ᵥ v) hv
  simpa only [mulVec_mulVec, mul_nonsing_inv _ (PosDef.isUnit_det hC), one_mulVec] using this

/-- An affine map is determined by its values. -/
theorem affine_ext {A A' : Mat d d} {c c' : Vec d} (h : ∀ x : Vec d, A *ᵥ x + c = A' *ᵥ x + c') : A = A' ∧ c = c' := by
  have h0 := h 0
  simp only [mulVec_zero, zero_add] at h0
  refine ⟨?_, h0⟩
  ext i j
  have := congrFun (h (Pi.single j 1)) i
  simpa [h0] using this

/-- Reversed dynamics are unique. -/
theorem revPathLog_ext {r r' : RevDyn n d} (hT : r.PT.PosDef) (hQ : ∀ t, (r.Qs t).PosDef) (hT' : r'.PT.PosDef)
    (hQ' : ∀ t, (r'.Qs t).PosDef) (h : ∀ x, revPathLog r x = revPathLog r' x) : r = r' := by
  induction n with
  | zero =>
    obtain ⟨h1, h2⟩ := normalLogpdf_ext (c := 0) hT hT' fun z => by
      have := h (fun _ => z)
      simpa [revPathLog] using this
    cases r; cases r'
    simp only [RevDyn.mk.injEq]
    exact ⟨h1, h2, Subsingleton.elim _ _, Subsingleton.elim _ _, Subsingleton.elim _ _⟩
  | succ n ih =>
    have split : ∀ (r : RevDyn (n + 1) d) (x0 : Vec d) (x : Fin (n + 1) → Vec d), revPathLog r (insert0 x0 x) =
        normalLogpdf (r.Fs 0 *ᵥ x 0 + r.bs 0) (r.Qs 0) x0 +
          revPathLog ⟨r.mT, r.PT, tailA r.Fs, tailA r.Qs, tailA r.bs⟩ x := by
      intro r x0 x
      simp only [revPathLog]
      rw [Fin.sum_univ_succ, add_left_comm]
      rfl
    have hstep := fun x : Fin (n + 1) → Vec d => normalLogpdf_ext (hQ 0) (hQ' 0) (fun x0 => by
      have := h (insert0 x0 x)
      rw [split, split] at this
      exact (eq_sub_of_add_eq this).trans (add_sub_assoc _ _ _))
    obtain ⟨hF, hb⟩ := affine_ext fun z : Vec d => (hstep fun _ => z).1
    have hS := (hstep 0).2
    have htail := ih (r := ⟨r.mT, r.PT, tailA r.Fs, tailA r.Qs, tailA r.bs⟩)
      (r' := ⟨r'.mT, r'.PT, tailA r'.Fs, tailA r'.Qs, tailA r'.bs⟩) hT (fun t => hQ t.succ) hT' (fun t => hQ' t.succ)
      (fun x => by
        have := h (insert0 0 x)
        rw [split, split, hF, hb, hS] at this
        exact add_left_cancel this)
    simp only [RevDyn.mk.injEq] at htail
    obtain ⟨e1, e2, e3, e4, e5⟩ := htail
    have ext0 : ∀ {α : Type} {f g : Fin (n + 1) → α}, f 0 = g 0 → tailA f = tailA g → f = g := by
      intro α f g h0 ht
      funext t
      exact Fin.cases h0 (fun t => congrFun ht t) t
    cases r; cases r'
    simp only [RevDyn.mk.injEq]
    exact ⟨e1, e2, ext0 hF e3, ext0 hS e4, ext0 hb e5⟩

/-- For one step the conditions are necessary. -/
theorem reversal_one_step {m0 : Vec d} {P0 : Mat d d} {Fs Qs : Fin 1 → Mat d d} {bs : Fin 1 → Vec d} (hP : P0.PosDef)
    (hQ : ∀ t, (Qs t).PosDef) (h : IsReversal m0 P0 Fs Qs bs (get_reversed_dynamics m0 P0 Fs Qs bs)) :
    RevOK (Fs 0) (bs 0) (m0, P0) := by
  have he := exactRev_reversal (m0 := m0) (Fs := Fs) (bs := bs) hP hQ
  have heq := revPathLog_ext h.final_posDef h.posDef he.final_posDef he.posDef
    (fun x => (h.density x).symm.trans (he.density x))
  have hS := innov_posDef hP (hQ 0) (Fs 0)
  have e1 := congrArg RevDyn.mT heq
  have e2 := congrArg RevDyn.PT heq
  have e3 := congrFun (congrArg RevDyn.Fs heq) 0
  have hsym : ((Fs 0)ᵀ * P0 * Fs 0 + Qs 0)ᵀ = (Fs 0)ᵀ * P0 * Fs 0 + Qs 0 := by
    rw [transpose_add, transpose_mul, transpose_mul, transpose_transpose, PosDef.transpose_eq hP,
      PosDef.transpose_eq (hQ 0), Matrix.mul_assoc]
  constructor
  · exact e1
  · have e2' : (0.5 : ℝ) • ((Fs 0)ᵀ * P0 * Fs 0 + Qs 0 + ((Fs 0)ᵀ * P0 * Fs 0 + Qs 0)ᵀ) = Fs 0 * P0 * (Fs 0)ᵀ + Qs 0 := e2
    rw [half_symm hsym] at e2'
    exact add_right_cancel e2'
  · have e3' : get_gain (Fs 0) (Qs 0) P0 = kGain P0 (Fs 0) (Qs 0) := e3
    rw [get_gain_eq hP (hQ 0), kGain] at e3'
    have := congrArg (fun A => A * (Qs 0 + Fs 0 * P0 * (Fs 0)ᵀ)) e3'
    rwa [Matrix.mul_assoc (Fs 0 * P0), Matrix.mul_assoc (P0 * (Fs 0)ᵀ), nonsing_inv_mul _ (PosDef.isUnit_det hS),
      Matrix.mul_one, Matrix.mul_one] at this

end Verif
