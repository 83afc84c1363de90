import Verif.Lemmas.LagSums
import Verif.Lemmas.LongAverages

/-!
# The chain of trajectories and acceptance flags, and its averages at a fixed lag
-/

open scoped ENNReal
open MeasureTheory ProbabilityTheory

namespace Verif
open Verif.Model Verif.Spec Verif.Props

section flags

variable {X : Type} [MeasurableSpace X] {N n : ℕ}
  {K : Key → (Fin (n + 1) → X) → (Fin (n + 1) → Fin (N + 1)) → Ex ((Fin (n + 1) → X) × (Fin (n + 1) → Fin (N + 1)))}

/-- One step, as a kernel from the trajectory to the new trajectory and the flags. -/
def FlagStep (K : Key → (Fin (n + 1) → X) → (Fin (n + 1) → Fin (N + 1)) → Ex ((Fin (n + 1) → X) × (Fin (n + 1) → Fin (N + 1))))
    (κ : Kernel (Fin (n + 1) → X) ((Fin (n + 1) → X) × (Fin (n + 1) → Bool))) : Prop :=
  ∀ key x b G, Measurable G → K key x b (fun r => G (r.1, fun t => decide (r.2 t ≠ b t))) = ∫⁻ y, G y ∂κ x

theorem exists_flagStep (hfree : ∀ key key' x b f, Measurable f → K key x b f = K key' x b f) (hK : MarkovStep (K []))
    (hrel : Relabels (K [])) : ∃ κ, IsMarkovKernel κ ∧ FlagStep K κ := by
  have hg : Measurable fun p : (Fin (n + 1) → X) × ((Fin (n + 1) → X) × (Fin (n + 1) → Fin (N + 1))) =>
      (p.2.1, fun t => decide (p.2.2 t ≠ 0)) := by
    refine (by fun_prop : Measurable fun p : (Fin (n + 1) → X) × ((Fin (n + 1) → X) × (Fin (n + 1) → Fin (N + 1))) => p.2.1).prodMk ?_
    refine measurable_pi_lambda _ fun t => ?_
    exact (measurable_from_top (f := fun i : Fin (N + 1) => decide (i ≠ 0))).comp
      (by fun_prop : Measurable fun p : (Fin (n + 1) → X) × ((Fin (n + 1) → X) × (Fin (n + 1) → Fin (N + 1))) => p.2.2 t)
  have hker : IsKer fun x => K [] x (fun _ => 0) >>= fun r => pure (r.1, fun t => decide (r.2 t ≠ 0)) :=
    (hK.ker.comp (g := fun x : Fin (n + 1) → X => (x, fun _ => (0 : Fin (N + 1)))) (by fun_prop)).bind (IsKer.pure hg)
  obtain ⟨κ, hκm, hκ⟩ := exists_markov hker fun x => hK.mass x _
  classical
  refine ⟨κ, hκm, fun key x b G hG => ?_⟩
  have hm : Measurable fun r : (Fin (n + 1) → X) × (Fin (n + 1) → Fin (N + 1)) => G (r.1, fun t => decide (r.2 t ≠ b t)) := by
    refine hG.comp (measurable_fst.prodMk (measurable_pi_lambda _ fun t => ?_))
    exact (measurable_from_top (f := fun i : Fin (N + 1) => decide (i ≠ b t))).comp (by fun_prop)
  rw [hfree key [] x b _ hm, ← hκ x G hG]
  have := hrel.indexFree x b (fun _ => 0) (fun x p => G (x, fun t => decide (p t))) fun p => hG.comp (by fun_prop)
  refine Eq.trans ?_ (this.trans ?_)
  · refine Ex.congr_fun' (K [] x b) fun r => congrArg G (Prod.ext rfl (funext fun t => ?_))
    exact decide_eq_decide.mpr Iff.rfl
  · refine Ex.congr_fun' (K [] x fun _ => 0) fun r => congrArg G (Prod.ext rfl (funext fun t => ?_))
    exact decide_eq_decide.mpr Iff.rfl

/-- The chain of trajectories and flags. -/
noncomputable def flagStep (κ : Kernel (Fin (n + 1) → X) ((Fin (n + 1) → X) × (Fin (n + 1) → Bool))) (_ : Key)
    (y : (Fin (n + 1) → X) × (Fin (n + 1) → Bool)) : Ex ((Fin (n + 1) → X) × (Fin (n + 1) → Bool)) := fun G => ∫⁻ z, G z ∂κ y.1

variable {κ : Kernel (Fin (n + 1) → X) ((Fin (n + 1) → X) × (Fin (n + 1) → Bool))} [IsMarkovKernel κ]

omit [IsMarkovKernel κ] in
theorem flagStep_stepOf : StepOf (κ.comap Prod.fst measurable_fst) (flagStep κ) := fun _ y G _ => by
  rw [Kernel.comap_apply]
  rfl

theorem flag_chain (hκ : FlagStep K κ) {L : ℕ} (keys : Fin L → Key) (x : Fin (n + 1) → X) (b : Fin (n + 1) → Fin (N + 1)) (fl : Fin (n + 1) → Bool)
    {F : (Fin L → (Fin (n + 1) → X) × (Fin (n + 1) → Bool)) → ℝ≥0∞} (hF : Measurable F) :
    chain (fun key (s : (Fin (n + 1) → X) × (Fin (n + 1) → Fin (N + 1))) => K key s.1 s.2) (x, b) keys
      (fun tr => F fun i => ((tr i.succ).1, fun t => decide ((tr i.succ).2 t ≠ (tr i.castSucc).2 t))) =
    chain (flagStep κ) (x, fl) keys (fun tr => F fun i => tr i.succ) := by
  induction L generalizing x b fl with
  | zero =>
    show F _ = F _
    exact congrArg F (funext fun i => i.elim0)
  | succ L ih =>
    obtain ⟨G, hG⟩ : ∃ G : (Fin (n + 1) → X) × (Fin (n + 1) → Bool) → ℝ≥0∞,
      G = fun y => chain (flagStep κ) y (tailA keys) (fun tr => F tr) := ⟨_, rfl⟩
    have hGm : Measurable G := hG ▸ (flagStep_stepOf.chain_ker (tailA keys)).measurable' hF
    have hFi : ∀ y, Measurable fun q : Fin L → (Fin (n + 1) → X) × (Fin (n + 1) → Bool) => F (insert0 y q) := fun y =>
      hF.comp (measurable_insertHead y L)
    have hG' : ∀ y, G y = chain (flagStep κ) y (tailA keys) (fun tr => F (insert0 y fun i => tr i.succ)) := fun y => by
      rw [hG]
      refine Eq.trans ?_ (chain_head (tailA keys) y fun y tr => F (insert0 y fun i => tr i.succ))
      refine Ex.congr_fun' _ fun tr => congrArg F (funext fun i => ?_)
      exact Fin.cases rfl (fun _ => rfl) i
    show K (keys 0) x b (fun s' => chain (fun key (s : (Fin (n + 1) → X) × (Fin (n + 1) → Fin (N + 1))) => K key s.1 s.2) s' (tailA keys)
      (fun rest => F fun i => ((insert0 (x, b) rest i.succ).1, fun t => decide ((insert0 (x, b) rest i.succ).2 t ≠ (insert0 (x, b) rest i.castSucc).2 t)))) =
      ∫⁻ z, chain (flagStep κ) z (tailA keys) (fun rest => F rest) ∂κ x
    have e1 : ∀ s', chain (fun key (s : (Fin (n + 1) → X) × (Fin (n + 1) → Fin (N + 1))) => K key s.1 s.2) s' (tailA keys)
      (fun rest => F fun i => ((insert0 (x, b) rest i.succ).1, fun t => decide ((insert0 (x, b) rest i.succ).2 t ≠ (insert0 (x, b) rest i.castSucc).2 t))) =
        G (s'.1, fun t => decide (s'.2 t ≠ b t)) := fun s' => by
      rw [hG', ← ih (tailA keys) s'.1 s'.2 _ (hFi _)]
      refine Eq.trans ?_ (chain_head (tailA keys) s' fun s' tr => F (insert0 (s'.1, fun t => decide (s'.2 t ≠ b t)) fun i : Fin L =>
        ((tr i.succ).1, fun t => decide ((tr i.succ).2 t ≠ (tr i.castSucc).2 t))))
      refine Ex.congr_fun' _ fun tr => congrArg F (funext fun i => ?_)
      exact Fin.cases rfl (fun _ => rfl) i
    simp only [e1]
    rw [hκ _ x b G hGm, hG]

theorem stepMean_mul {Y : Type} [MeasurableSpace Y] (κ : Kernel Y Y) (c : ℝ) (Φ : Y → Y → ℝ) (j : ℕ) (y z : Y) :
    stepMean κ (fun y z => c * Φ y z) j y z = c * stepMean κ Φ j y z := by
  induction j generalizing z with
  | zero => rfl
  | succ j ih =>
    show ∫ w, stepMean κ (fun y z => c * Φ y z) j y w ∂κ z = c * ∫ w, stepMean κ Φ j y w ∂κ z
    simp only [ih]
    exact integral_const_mul _ _

/-- The average over the pairs at lag `l`, compared with the one of the means given the first state of the pair. -/
theorem lag_dev {u v : ℕ → ℝ} {C a c : ℝ} (hv : ∀ i, |v i| ≤ C) (ha : a = 0 ∨ a = 1) {l L : ℕ} (hL : 2 * (l + 1) ≤ L) :
    ((∑ i ∈ Finset.range (L + 1 - l), (if i = 0 then a else 1) * u i) / ((L : ℝ) - l + a) - c) ^ 2 ≤
      12 / (L : ℝ) ^ 2 * (∑ i ∈ Finset.range (L + 1 - l), (if i = 0 then a else 1) * (u i - v i)) ^ 2 +
        48 * ((l : ℝ) + 1) ^ 2 * C ^ 2 / (L : ℝ) ^ 2 + 3 * ((∑ i ∈ Finset.range L, v (i + 1)) / L - c) ^ 2 := by
  obtain ⟨Mt, hMt⟩ : ∃ M, M = ∑ i ∈ Finset.range (L + 1 - l), (if i = 0 then a else 1) * (u i - v i) := ⟨_, rfl⟩
  obtain ⟨S, hS⟩ : ∃ S, S = ∑ i ∈ Finset.range L, v (i + 1) := ⟨_, rfl⟩
  obtain ⟨S', hS'⟩ : ∃ S, S = ∑ i ∈ Finset.range (L + 1 - l), (if i = 0 then a else 1) * v i := ⟨_, rfl⟩
  have hC : 0 ≤ C := (abs_nonneg _).trans (hv 0)
  have ha' : |a| ≤ 1 := by rcases ha with rfl | rfl <;> simp
  have ha0 : 0 ≤ a ∧ a ≤ 1 := by rcases ha with rfl | rfl <;> simp
  have e1 : ∑ i ∈ Finset.range (L + 1 - l), (if i = 0 then a else 1) * u i = Mt + S' := by
    rw [hMt, hS', ← Finset.sum_add_distrib]
    exact Finset.sum_congr rfl fun i _ => by ring
  have hLr : 2 * ((l : ℝ) + 1) ≤ L := by exact_mod_cast hL
  have hl0 : (0 : ℝ) ≤ l := Nat.cast_nonneg l
  have hL0 : (0 : ℝ) < L := by linarith
  have e2 : |S' - S| ≤ (l + 1) * C := by
    have h1 : L + 1 - l = (L - l) + 1 := by omega
    have h2 : S' = ∑ i ∈ Finset.range (L - l), v (i + 1) + a * v 0 := by
      rw [hS', h1, Finset.sum_range_succ']
      simp
    have h3 : S = ∑ i ∈ Finset.range (L - l), v (i + 1) + ∑ i ∈ Finset.range l, v (L - l + i + 1) := by
      rw [hS, ← Finset.sum_range_add, show L - l + l = L by omega]
    rw [h2, h3, add_sub_add_left_eq_sub]
    have h4 : |∑ i ∈ Finset.range l, v (L - l + i + 1)| ≤ l * C := by
      refine (Finset.abs_sum_le_sum_abs _ _).trans ((Finset.sum_le_sum fun i _ => hv _).trans ?_)
      simp
    have h5 : |a * v 0| ≤ C := by
      rw [abs_mul]
      calc |a| * |v 0| ≤ 1 * C := mul_le_mul ha' (hv 0) (abs_nonneg _) zero_le_one
        _ = C := one_mul C
    have := abs_sub (a * v 0) (∑ i ∈ Finset.range l, v (L - l + i + 1))
    linarith
  have e3 : |S| ≤ L * C := by
    rw [hS]
    refine (Finset.abs_sum_le_sum_abs _ _).trans ((Finset.sum_le_sum fun i _ => hv _).trans ?_)
    simp
  obtain ⟨m, hm⟩ : ∃ m, m = (L : ℝ) - l + a := ⟨_, rfl⟩
  have hm2 : L / 2 ≤ m := by rw [hm]; linarith [ha0.1]
  have hm0 : 0 < m := lt_of_lt_of_le (by positivity) hm2
  rw [e1, ← hMt, ← hS, ← hm]
  have e4 : |(S' - S) / m + (S / m - S / L)| ≤ 4 * ((l : ℝ) + 1) * C / L := by
    have h1 : |(S' - S) / m| ≤ ((l : ℝ) + 1) * C / m := by
      rw [abs_div, abs_of_pos hm0]
      gcongr
    have h2 : |S / m - S / L| ≤ ((l : ℝ) + 1) * C / m := by
      have : S / m - S / L = S * (L - m) / (m * L) := by field_simp
      rw [this, abs_div, abs_mul, abs_of_pos (mul_pos hm0 hL0), div_le_div_iff₀ (mul_pos hm0 hL0) hm0]
      have h3 : |(L : ℝ) - m| ≤ l + 1 := by
        rw [hm, abs_le]
        constructor <;> linarith [ha0.1, ha0.2]
      calc |S| * |(L : ℝ) - m| * m ≤ L * C * (l + 1) * m := by gcongr
        _ = _ := by ring
    have h3 : ((l : ℝ) + 1) * C / m ≤ 2 * ((l : ℝ) + 1) * C / L := by
      rw [div_le_div_iff₀ hm0 hL0]
      have : 0 ≤ ((l : ℝ) + 1) * C := by positivity
      nlinarith
    calc _ ≤ |(S' - S) / m| + |S / m - S / L| := abs_add_le _ _
      _ ≤ 2 * ((l : ℝ) + 1) * C / L + 2 * ((l : ℝ) + 1) * C / L := add_le_add (h1.trans h3) (h2.trans h3)
      _ = _ := by ring
  have e5 : (Mt / m) ^ 2 ≤ 4 / (L : ℝ) ^ 2 * Mt ^ 2 := by
    rw [div_pow, div_mul_eq_mul_div, div_le_div_iff₀ (by positivity) (by positivity)]
    have : (L : ℝ) ^ 2 ≤ 4 * m ^ 2 := by nlinarith
    nlinarith [sq_nonneg Mt]
  have e6 : ((S' - S) / m + (S / m - S / L)) ^ 2 ≤ 16 * ((l : ℝ) + 1) ^ 2 * C ^ 2 / (L : ℝ) ^ 2 := by
    rw [← sq_abs]
    refine (pow_le_pow_left₀ (abs_nonneg _) e4 2).trans (le_of_eq ?_)
    ring
  obtain ⟨p, hp⟩ : ∃ p, p = Mt / m := ⟨_, rfl⟩
  obtain ⟨q, hq⟩ : ∃ q, q = (S' - S) / m + (S / m - S / L) := ⟨_, rfl⟩
  obtain ⟨r, hr⟩ : ∃ r, r = S / L - c := ⟨_, rfl⟩
  have e7 : (Mt + S') / m - c = p + q + r := by
    rw [hp, hq, hr]
    ring
  rw [e7, ← hr]
  rw [← hp] at e5
  rw [← hq] at e6
  have : (p + q + r) ^ 2 ≤ 3 * p ^ 2 + 3 * q ^ 2 + 3 * r ^ 2 := by nlinarith [sq_nonneg (p - q), sq_nonneg (q - r), sq_nonneg (p - r)]
  calc (p + q + r) ^ 2 ≤ 3 * p ^ 2 + 3 * q ^ 2 + 3 * r ^ 2 := this
    _ ≤ 3 * (4 / (L : ℝ) ^ 2 * Mt ^ 2) + 3 * (16 * ((l : ℝ) + 1) ^ 2 * C ^ 2 / (L : ℝ) ^ 2) + 3 * r ^ 2 := by gcongr
    _ = _ := by ring

/-- Averages over the pairs at lag `l`, along the chain of trajectories and flags. -/
theorem lag_average {π : Measure (Fin (n + 1) → X)} [IsProbabilityMeasure π] {fl : Fin (n + 1) → Bool}
    (hx : ∀ h : (Fin (n + 1) → X) → ℝ, Measurable h → (∃ C, ∀ x, |h x| ≤ C) → ∀ δ : ℝ≥0∞, δ ≠ 0 → ∃ M0 : ℕ, ∀ (key : Key) (L : ℕ), M0 ≤ L →
      ∫⁻ x, chain (flagStep κ) (x, fl) (splitKey key L) (fun tr => ENNReal.ofReal (((∑ i : Fin L, h (tr i.succ).1) / L - ∫ x, h x ∂π) ^ 2)) ∂π ≤ δ)
    {Φ : ((Fin (n + 1) → X) × (Fin (n + 1) → Bool)) → ((Fin (n + 1) → X) × (Fin (n + 1) → Bool)) → ℝ}
    (hΦ : Measurable fun p : ((Fin (n + 1) → X) × (Fin (n + 1) → Bool)) × ((Fin (n + 1) → X) × (Fin (n + 1) → Bool)) => Φ p.1 p.2)
    (hC : ∃ C, ∀ y z, |Φ y z| ≤ C) (l : ℕ) {h : (Fin (n + 1) → X) → ℝ} (hh : Measurable h)
    (he : ∀ y, stepMean (κ.comap Prod.fst measurable_fst) Φ l y y = h y.1) {a : ℝ} (ha : a = 0 ∨ a = 1) {δ : ℝ≥0∞} (hδ : δ ≠ 0) :
    ∃ M0 : ℕ, ∀ (key : Key) (L : ℕ), M0 ≤ L →
      ∫⁻ x, chain (flagStep κ) (x, fl) (splitKey key L) (fun tr => ENNReal.ofReal (((∑ i ∈ Finset.range (L + 1 - l),
        (if i = 0 then a else 1) * Φ (atN tr i) (atN tr (i + l))) / ((L : ℝ) - l + a) - ∫ x, h x ∂π) ^ 2)) ∂π ≤ δ := by
  obtain ⟨C, hC0, hC⟩ : ∃ C, 0 < C ∧ ∀ y z, |Φ y z| ≤ C := by
    obtain ⟨C, hC⟩ := hC
    exact ⟨|C| + 1, by positivity, fun y z => (hC y z).trans ((le_abs_self C).trans (by linarith))⟩
  have hhC : ∀ x, |h x| ≤ C := fun x => by
    rw [← he (x, fl)]
    exact abs_stepMean_le hC l _ _
  obtain ⟨M0, hM0⟩ := hx h hh ⟨C, hhC⟩ (δ / 6) (ENNReal.div_pos hδ (by norm_num)).ne'
  obtain ⟨B, hB⟩ : ∃ B, B = 96 * C ^ 2 * ((l : ℝ) + 1) ^ 2 := ⟨_, rfl⟩
  have hB0 : 0 < B := by rw [hB]; positivity
  obtain ⟨M1, hM1⟩ : ∃ M1 : ℕ, ∀ L : ℕ, M1 ≤ L → ENNReal.ofReal (B / L) ≤ δ / 2 := by
    obtain ⟨e, he0, he⟩ : ∃ e : ℝ, 0 < e ∧ ENNReal.ofReal e ≤ δ / 2 := by
      obtain ⟨e, h1, h2⟩ := ENNReal.lt_iff_exists_nnreal_btwn.mp (ENNReal.half_pos hδ)
      exact ⟨e, by exact_mod_cast h1, by rw [ENNReal.ofReal_coe_nnreal]; exact h2.le⟩
    obtain ⟨M1, hM1⟩ := exists_nat_gt (B / e)
    refine ⟨M1, fun L hL => (ENNReal.ofReal_le_ofReal ?_).trans he⟩
    have h1 : B / e < L := hM1.trans_le (by exact_mod_cast hL)
    have h2 : (0 : ℝ) < L := (div_pos hB0 he0).trans h1
    rw [div_le_iff₀ h2]
    rw [div_lt_iff₀ he0] at h1
    linarith
  refine ⟨max (max M0 M1) (2 * (l + 1)), fun key L hL => ?_⟩
  have hL1 : M0 ≤ L := ((le_max_left _ _).trans (le_max_left _ _)).trans hL
  have hL2 : M1 ≤ L := ((le_max_right _ _).trans (le_max_left _ _)).trans hL
  have hL3 : 2 * (l + 1) ≤ L := (le_max_right _ _).trans hL
  have hL0 : (0 : ℝ) < L := by exact_mod_cast (by omega : 0 < L)
  have hst : StepOf (κ.comap Prod.fst measurable_fst) (flagStep κ) := flagStep_stepOf
  obtain ⟨P, _, hP⟩ := hst.path (splitKey key L)
  have hat : ∀ i, Measurable fun tr : Fin (L + 1) → (Fin (n + 1) → X) × (Fin (n + 1) → Bool) => atN tr i := fun i => measurable_atN i
  have hΦt : ∀ i, Measurable fun tr : Fin (L + 1) → (Fin (n + 1) → X) × (Fin (n + 1) → Bool) => Φ (atN tr i) (atN tr (i + l)) := fun i =>
    hΦ.comp ((hat i).prodMk (hat (i + l)))
  have hht : ∀ i, Measurable fun tr : Fin (L + 1) → (Fin (n + 1) → X) × (Fin (n + 1) → Bool) => h (atN tr i).1 := fun i =>
    hh.comp (measurable_fst.comp (hat i))
  obtain ⟨w, hw⟩ : ∃ w : ℕ → ℝ, w = fun i => if i = 0 then a else 1 := ⟨_, rfl⟩
  have hw1 : ∀ i, |w i| ≤ 1 := fun i => by
    rw [hw]
    dsimp only
    split_ifs
    · rcases ha with rfl | rfl <;> simp
    · simp
  obtain ⟨Mt, hMt⟩ : ∃ Mt : (Fin (L + 1) → (Fin (n + 1) → X) × (Fin (n + 1) → Bool)) → ℝ, Mt = fun tr => ∑ i ∈ Finset.range (L + 1 - l),
    w i * (Φ (atN tr i) (atN tr (i + l)) - h (atN tr i).1) := ⟨_, rfl⟩
  have hMtm : Measurable Mt := by
    rw [hMt]
    exact Finset.measurable_sum _ fun i _ => ((hΦt i).sub (hht i)).const_mul _
  have hAm : Measurable fun tr : Fin (L + 1) → (Fin (n + 1) → X) × (Fin (n + 1) → Bool) => ∑ i ∈ Finset.range (L + 1 - l),
      (if i = 0 then a else 1) * Φ (atN tr i) (atN tr (i + l)) :=
    Finset.measurable_sum _ fun i _ => (hΦt i).const_mul _
  have hBm : Measurable fun tr : Fin (L + 1) → (Fin (n + 1) → X) × (Fin (n + 1) → Bool) => ∑ i : Fin L, h (tr i.succ).1 := by fun_prop
  -- the martingale part
  have hmart : ∀ x, ∫⁻ tr, ENNReal.ofReal (Mt tr ^ 2) ∂P (x, fl) ≤ ENNReal.ofReal (4 * C ^ 2 * l ^ 2 * L) := fun x => by
    have h1 := lag_sq hst (Φ := fun y z => (2 * C)⁻¹ * Φ y z) (hΦ.const_mul _) (fun y z => by
      rw [abs_mul, abs_of_pos (by positivity : 0 < (2 * C)⁻¹), inv_mul_le_iff₀ (by positivity)]
      linarith [hC y z]) l hw1 (splitKey key L) (x, fl)
    simp only [stepMean_mul, he] at h1
    rw [hP _ _ (by
      refine Measurable.ennreal_ofReal (Measurable.pow_const (Finset.measurable_sum _ fun i _ => ?_) 2)
      exact ((hΦt i).const_mul _ |>.sub ((hht i).const_mul _)).const_mul _)] at h1
    have e : ∀ tr, ENNReal.ofReal (Mt tr ^ 2) = ENNReal.ofReal (4 * C ^ 2) * ENNReal.ofReal ((∑ i ∈ Finset.range (L + 1 - l),
        w i * ((2 * C)⁻¹ * Φ (atN tr i) (atN tr (i + l)) - (2 * C)⁻¹ * h (atN tr i).1)) ^ 2) := fun tr => by
      rw [← ENNReal.ofReal_mul (by positivity)]
      congr 1
      have : ∑ i ∈ Finset.range (L + 1 - l), w i * ((2 * C)⁻¹ * Φ (atN tr i) (atN tr (i + l)) - (2 * C)⁻¹ * h (atN tr i).1) = (2 * C)⁻¹ * Mt tr := by
        rw [hMt, Finset.mul_sum]
        exact Finset.sum_congr rfl fun i _ => by ring
      rw [this]
      field_simp
      ring
    simp only [e]
    rw [lintegral_const_mul' _ _ ENNReal.ofReal_ne_top]
    calc _ ≤ ENNReal.ofReal (4 * C ^ 2) * ((l ^ 2 * L : ℕ) : ℝ≥0∞) := mul_le_mul_right h1 _
      _ = _ := by
        rw [← ENNReal.ofReal_natCast, ← ENNReal.ofReal_mul (by positivity)]
        congr 1
        push_cast
        ring
  have hpt : ∀ tr : Fin (L + 1) → (Fin (n + 1) → X) × (Fin (n + 1) → Bool), ENNReal.ofReal (((∑ i ∈ Finset.range (L + 1 - l),
        (if i = 0 then a else 1) * Φ (atN tr i) (atN tr (i + l))) / ((L : ℝ) - l + a) - ∫ x, h x ∂π) ^ 2) ≤
      ENNReal.ofReal (12 / (L : ℝ) ^ 2) * ENNReal.ofReal (Mt tr ^ 2) + (ENNReal.ofReal (48 * ((l : ℝ) + 1) ^ 2 * C ^ 2 / (L : ℝ) ^ 2) +
        3 * ENNReal.ofReal (((∑ i : Fin L, h (tr i.succ).1) / L - ∫ x, h x ∂π) ^ 2)) := fun tr => by
    have h1 := lag_dev (u := fun i => Φ (atN tr i) (atN tr (i + l))) (v := fun i => h (atN tr i).1) (c := ∫ x, h x ∂π) (fun i => hhC _) ha hL3
    have e1 : ∑ i ∈ Finset.range L, h (atN tr (i + 1)).1 = ∑ i : Fin L, h (tr i.succ).1 := by
      rw [Finset.sum_range]
      refine Finset.sum_congr rfl fun i _ => ?_
      rw [atN_of_le tr (by omega)]
      rfl
    rw [e1] at h1
    refine (ENNReal.ofReal_le_ofReal h1).trans (le_of_eq ?_)
    rw [hMt, hw, add_assoc, ENNReal.ofReal_add (by positivity) (by positivity), ENNReal.ofReal_add (by positivity) (by positivity),
      ENNReal.ofReal_mul (by positivity), ENNReal.ofReal_mul (by norm_num), ENNReal.ofReal_ofNat]
  have hbd : ∀ x, chain (flagStep κ) (x, fl) (splitKey key L) (fun tr => ENNReal.ofReal (((∑ i ∈ Finset.range (L + 1 - l),
        (if i = 0 then a else 1) * Φ (atN tr i) (atN tr (i + l))) / ((L : ℝ) - l + a) - ∫ x, h x ∂π) ^ 2)) ≤
      ENNReal.ofReal (B / L) + 3 * chain (flagStep κ) (x, fl) (splitKey key L) (fun tr =>
        ENNReal.ofReal (((∑ i : Fin L, h (tr i.succ).1) / L - ∫ x, h x ∂π) ^ 2)) := fun x => by
    rw [hP _ _ (((hAm.div_const _).sub_const _).pow_const 2).ennreal_ofReal, hP _ _ (((hBm.div_const _).sub_const _).pow_const 2).ennreal_ofReal]
    refine (lintegral_mono hpt).trans ?_
    rw [lintegral_add_left ((hMtm.pow_const 2).ennreal_ofReal.const_mul _), lintegral_add_left measurable_const, lintegral_const,
      measure_univ, mul_one, lintegral_const_mul' _ _ ENNReal.ofReal_ne_top, lintegral_const_mul' _ _ (by norm_num), ← add_assoc]
    refine add_le_add ?_ le_rfl
    calc _ ≤ ENNReal.ofReal (12 / (L : ℝ) ^ 2) * ENNReal.ofReal (4 * C ^ 2 * l ^ 2 * L) + ENNReal.ofReal (48 * ((l : ℝ) + 1) ^ 2 * C ^ 2 / (L : ℝ) ^ 2) :=
          add_le_add (mul_le_mul_right (hmart x) _) le_rfl
      _ = ENNReal.ofReal (12 / (L : ℝ) ^ 2 * (4 * C ^ 2 * l ^ 2 * L) + 48 * ((l : ℝ) + 1) ^ 2 * C ^ 2 / (L : ℝ) ^ 2) := by
          rw [← ENNReal.ofReal_mul (by positivity), ← ENNReal.ofReal_add (by positivity) (by positivity)]
      _ ≤ _ := by
          refine ENNReal.ofReal_le_ofReal ?_
          rw [hB]
          have h1 : (1 : ℝ) ≤ L := by exact_mod_cast (by omega : 1 ≤ L)
          have e : 12 / (L : ℝ) ^ 2 * (4 * C ^ 2 * l ^ 2 * L) + 48 * ((l : ℝ) + 1) ^ 2 * C ^ 2 / (L : ℝ) ^ 2 =
            (48 * C ^ 2 * l ^ 2 + 48 * ((l : ℝ) + 1) ^ 2 * C ^ 2 / L) / L := by
            field_simp
            ring
          rw [e]
          gcongr
          have h2 : 48 * ((l : ℝ) + 1) ^ 2 * C ^ 2 / L ≤ 48 * ((l : ℝ) + 1) ^ 2 * C ^ 2 := div_le_self (by positivity) h1
          have h3 : (l : ℝ) ^ 2 ≤ ((l : ℝ) + 1) ^ 2 := by gcongr; linarith
          nlinarith [sq_nonneg C, mul_le_mul_of_nonneg_left h3 (sq_nonneg C)]
  refine (lintegral_mono hbd).trans ?_
  rw [lintegral_add_left measurable_const, lintegral_const, measure_univ, mul_one, lintegral_const_mul' _ _ (by norm_num)]
  calc _ ≤ δ / 2 + 3 * (δ / 6) := add_le_add (hM1 L hL2) (mul_le_mul_right (hM0 key L hL1) _)
    _ = δ / 2 + δ / 2 := by
        congr 1
        rw [show (6 : ℝ≥0∞) = 3 * 2 by norm_num, ENNReal.div_eq_inv_mul, ENNReal.mul_inv (by simp) (by simp), ← mul_assoc, ← mul_assoc,
          ENNReal.mul_inv_cancel (by simp) (by simp), one_mul, ENNReal.div_eq_inv_mul]
    _ = δ := ENNReal.add_halves δ

end flags

end Verif
