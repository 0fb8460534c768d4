import Verif.Numpy.Fourier
import Mathlib.MeasureTheory.Integral.IntervalIntegral.FundThmCalculus
import Mathlib.MeasureTheory.Integral.DominatedConvergence
import Mathlib.Analysis.SpecialFunctions.Integrals.Basic

/-!
# Sums over the points of `np.linspace` converge to integrals
-/

namespace Lasy

/-- the sum over the left ends of `n` equal intervals -/
noncomputable def leftSum (a b : ℝ) (n : ℕ) (f : ℝ → ℝ) : ℝ :=
  (b - a) / n * ∑ i : Fin n, f (a + (i : ℕ) * ((b - a) / n))

/-- the sum over the points of `np.linspace(a, b, n)`, times the step -/
noncomputable def linSum (a b : ℝ) (n : ℕ) (f : ℝ → ℝ) : ℝ :=
  (b - a) / ((n : ℝ) - 1) * ∑ i : Fin n, f (linspace a b n i)

theorem linSum_succ (a b : ℝ) (n : ℕ) (hn : n ≠ 0) (f : ℝ → ℝ) :
    linSum a b (n + 1) f = leftSum a b n f + (b - a) / n * f b := by
  unfold linSum leftSum linspace
  have h : ((n + 1 : ℕ) : ℝ) - 1 = n := by push_cast; ring
  have hn' : (n : ℝ) ≠ 0 := by exact_mod_cast hn
  rw [Fin.sum_univ_castSucc, h, mul_add]
  congr 2
  simp only [Fin.val_last]
  congr 1
  field_simp
  ring

/-- the points of a sum are in the interval -/
theorem left_mem {a b : ℝ} (hab : a ≤ b) {n : ℕ} (i : Fin n) : a + (i : ℕ) * ((b - a) / n) ∈ Set.Icc a b := by
  have hn : (0 : ℝ) < n := by
    have := i.2
    exact_mod_cast (show 0 < n by omega)
  have h1 : ((i : ℕ) : ℝ) ≤ n := by exact_mod_cast i.2.le
  have h0 : (0 : ℝ) ≤ (i : ℕ) := by positivity
  constructor
  · have : 0 ≤ ((i : ℕ) : ℝ) * ((b - a) / n) := mul_nonneg h0 (div_nonneg (by linarith) hn.le)
    linarith
  · have : ((i : ℕ) : ℝ) * ((b - a) / n) ≤ n * ((b - a) / n) :=
      mul_le_mul_of_nonneg_right h1 (div_nonneg (by linarith) hn.le)
    rw [mul_div_cancel₀ _ hn.ne'] at this
    linarith

theorem linspace_mem {a b : ℝ} (hab : a ≤ b) {n : ℕ} (i : Fin n) : linspace a b n i ∈ Set.Icc a b := by
  unfold linspace
  have hi := i.2
  rcases Nat.lt_or_ge n 2 with h | h
  · have : n = 1 := by omega
    subst this
    have : (i : ℕ) = 0 := by omega
    simp [hab]
  · have hn : (0 : ℝ) < (n : ℝ) - 1 := by
      have : (2 : ℝ) ≤ n := by exact_mod_cast h
      linarith
    have h1 : ((i : ℕ) : ℝ) ≤ (n : ℝ) - 1 := by
      have : ((i : ℕ) : ℝ) + 1 ≤ n := by exact_mod_cast hi
      linarith
    have h0 : (0 : ℝ) ≤ (i : ℕ) := by positivity
    have hq : 0 ≤ (b - a) / ((n : ℝ) - 1) := div_nonneg (by linarith) hn.le
    constructor
    · have := mul_nonneg h0 hq
      linarith
    · have := mul_le_mul_of_nonneg_right h1 hq
      rw [mul_div_cancel₀ _ hn.ne'] at this
      linarith

/-- how far a left sum is from the integral of a function that varies by at most `ε` in each interval -/
theorem leftSum_close {a b : ℝ} (hab : a ≤ b) {n : ℕ} (hn : n ≠ 0) {f : ℝ → ℝ} (hf : ContinuousOn f (Set.Icc a b)) {ε : ℝ}
    (h : ∀ s ∈ Set.Icc a b, ∀ t ∈ Set.Icc a b, |s - t| ≤ (b - a) / n → |f s - f t| ≤ ε) :
    |leftSum a b n f - ∫ t in a..b, f t| ≤ (b - a) * ε := by
  have hn' : (0 : ℝ) < n := by exact_mod_cast Nat.pos_of_ne_zero hn
  have hq : 0 ≤ (b - a) / n := div_nonneg (by linarith) hn'.le
  let x : ℕ → ℝ := fun i => a + i * ((b - a) / n)
  have hx0 : x 0 = a := by simp [x]
  have hxn : x n = b := by simp only [x]; field_simp; ring
  have hxs : ∀ i, x (i + 1) - x i = (b - a) / n := by intro i; simp only [x]; push_cast; ring
  have hmem : ∀ i ≤ n, x i ∈ Set.Icc a b := by
    intro i hi
    rcases hi.lt_or_eq with h | h
    · exact left_mem hab ⟨i, h⟩
    · rw [h, hxn]; exact ⟨hab, le_rfl⟩
  have hle : ∀ i, x i ≤ x (i + 1) := by intro i; have := hxs i; linarith
  have hsub : ∀ i < n, Set.Icc (x i) (x (i + 1)) ⊆ Set.Icc a b := fun i hi =>
    Set.Icc_subset_Icc (hmem i hi.le).1 (hmem (i + 1) hi).2
  have hint : ∀ i < n, IntervalIntegrable f MeasureTheory.volume (x i) (x (i + 1)) := by
    intro i hi
    apply ContinuousOn.intervalIntegrable
    rw [Set.uIcc_of_le (hle i)]
    exact hf.mono (hsub i hi)
  have hI : ∫ t in a..b, f t = ∑ i ∈ Finset.range n, ∫ t in x i..x (i + 1), f t := by
    rw [intervalIntegral.sum_integral_adjacent_intervals hint, hx0, hxn]
  have hL : leftSum a b n f = ∑ i ∈ Finset.range n, ∫ t in x i..x (i + 1), f (x i) := by
    unfold leftSum
    rw [Finset.mul_sum, Finset.sum_range fun i => ∫ t in x i..x (i + 1), f (x i)]
    refine Finset.sum_congr rfl fun i _ => ?_
    rw [intervalIntegral.integral_const, hxs, smul_eq_mul]
  rw [hI, hL, ← Finset.sum_sub_distrib]
  refine (Finset.abs_sum_le_sum_abs _ _).trans ?_
  have hterm : ∀ i ∈ Finset.range n, |(∫ t in x i..x (i + 1), f (x i)) - ∫ t in x i..x (i + 1), f t| ≤ ε * ((b - a) / n) := by
    intro i hi
    rw [Finset.mem_range] at hi
    rw [← intervalIntegral.integral_sub (by simp) (hint i hi)]
    have := intervalIntegral.norm_integral_le_of_norm_le_const (a := x i) (b := x (i + 1)) (f := fun t => f (x i) - f t) (C := ε)
      (fun t ht => by
        rw [Set.uIoc_of_le (hle i)] at ht
        rw [Real.norm_eq_abs]
        have hs := hxs i
        refine h _ (hmem i hi.le) _ (hsub i hi ⟨ht.1.le, ht.2⟩) ?_
        rw [abs_sub_comm, abs_of_nonneg (by linarith [ht.1])]
        linarith [ht.2])
    rwa [hxs, abs_of_nonneg hq] at this
  refine (Finset.sum_le_sum hterm).trans (le_of_eq ?_)
  rw [Finset.sum_const, Finset.card_range, nsmul_eq_mul]
  field_simp

theorem linSum_close {a b : ℝ} (hab : a ≤ b) {n : ℕ} (hn : 2 ≤ n) {f : ℝ → ℝ} (hf : ContinuousOn f (Set.Icc a b)) {ε M : ℝ}
    (h : ∀ s ∈ Set.Icc a b, ∀ t ∈ Set.Icc a b, |s - t| ≤ (b - a) / ((n : ℝ) - 1) → |f s - f t| ≤ ε)
    (hM : ∀ s ∈ Set.Icc a b, |f s| ≤ M) :
    |linSum a b n f - ∫ t in a..b, f t| ≤ (b - a) * ε + (b - a) / ((n : ℝ) - 1) * M := by
  obtain ⟨m, rfl⟩ : ∃ m, n = m + 1 := ⟨n - 1, by omega⟩
  have hm : m ≠ 0 := by omega
  have e : ((m + 1 : ℕ) : ℝ) - 1 = m := by push_cast; ring
  rw [e] at h ⊢
  have h1 := leftSum_close hab hm hf h
  rw [linSum_succ _ _ _ hm]
  have hq : 0 ≤ (b - a) / (m : ℝ) := div_nonneg (by linarith) (by positivity)
  have h2 : |(b - a) / (m : ℝ) * f b| ≤ (b - a) / m * M := by
    rw [abs_mul, abs_of_nonneg hq]
    exact mul_le_mul_of_nonneg_left (hM b ⟨hab, le_rfl⟩) hq
  calc _ = |(leftSum a b m f - ∫ t in a..b, f t) + (b - a) / m * f b| := by ring_nf
    _ ≤ _ := (abs_add_le _ _).trans (add_le_add h1 h2)

/-- size of a sum -/
theorem leftSum_abs_le {a b : ℝ} (hab : a ≤ b) {n : ℕ} (hn : n ≠ 0) {f : ℝ → ℝ} {M : ℝ}
    (hM : ∀ s ∈ Set.Icc a b, |f s| ≤ M) : |leftSum a b n f| ≤ (b - a) * M := by
  have hn' : (0 : ℝ) < n := by exact_mod_cast Nat.pos_of_ne_zero hn
  have hq : 0 ≤ (b - a) / n := div_nonneg (by linarith) hn'.le
  unfold leftSum
  rw [abs_mul, abs_of_nonneg hq]
  have : |∑ i : Fin n, f (a + (i : ℕ) * ((b - a) / n))| ≤ n * M := by
    refine (Finset.abs_sum_le_sum_abs _ _).trans ((Finset.sum_le_sum fun i _ => hM _ (left_mem hab i)).trans ?_)
    simp
  calc _ ≤ (b - a) / n * (n * M) := mul_le_mul_of_nonneg_left this hq
    _ = _ := by field_simp

theorem linSum_abs_le {a b : ℝ} (hab : a ≤ b) {n : ℕ} (hn : 2 ≤ n) {f : ℝ → ℝ} {M : ℝ}
    (hM : ∀ s ∈ Set.Icc a b, |f s| ≤ M) : |linSum a b n f| ≤ 2 * (b - a) * M := by
  obtain ⟨m, rfl⟩ : ∃ m, n = m + 1 := ⟨n - 1, by omega⟩
  have hm : m ≠ 0 := by omega
  have hm' : (1 : ℝ) ≤ m := by exact_mod_cast Nat.pos_of_ne_zero hm
  have hM0 : 0 ≤ M := (abs_nonneg _).trans (hM a ⟨le_rfl, hab⟩)
  rw [linSum_succ _ _ _ hm]
  have hq : 0 ≤ (b - a) / (m : ℝ) := div_nonneg (by linarith) (by positivity)
  have hq' : (b - a) / (m : ℝ) ≤ b - a := div_le_self (by linarith) hm'
  have h1 := leftSum_abs_le hab hm hM
  have h2 : |(b - a) / (m : ℝ) * f b| ≤ (b - a) * M := by
    rw [abs_mul, abs_of_nonneg hq]
    exact mul_le_mul hq' (hM b ⟨hab, le_rfl⟩) (abs_nonneg _) (by linarith)
  have := abs_add_le (leftSum a b m f) ((b - a) / m * f b)
  linarith

theorem leftSum_sub (a b : ℝ) (n : ℕ) (f g : ℝ → ℝ) : leftSum a b n f - leftSum a b n g = leftSum a b n fun x => f x - g x := by
  simp only [leftSum, Finset.sum_sub_distrib, mul_sub]

theorem linSum_sub (a b : ℝ) (n : ℕ) (f g : ℝ → ℝ) : linSum a b n f - linSum a b n g = linSum a b n fun x => f x - g x := by
  simp only [linSum, Finset.sum_sub_distrib, mul_sub]

/-- sums of a continuous function of a parameter converge to the integral, uniformly in the parameter -/
theorem sum_uniform {X : Type} [PseudoMetricSpace X] {K : Set X} (hK : IsCompact K) {a b : ℝ} (hab : a ≤ b)
    {F : X → ℝ → ℝ} (hF : Continuous fun p : X × ℝ => F p.1 p.2) {ε : ℝ} (hε : 0 < ε) :
    ∃ N : ℕ, 2 ≤ N ∧ ∀ n ≥ N, ∀ x ∈ K, |linSum a b n (F x) - ∫ t in a..b, F x t| ≤ ε ∧
      |leftSum a b n (F x) - ∫ t in a..b, F x t| ≤ ε := by
  have hc : IsCompact (K ×ˢ Set.Icc a b) := hK.prod isCompact_Icc
  have hu := hc.uniformContinuousOn_of_continuous hF.continuousOn
  rw [Metric.uniformContinuousOn_iff] at hu
  have hpos : 0 < b - a + 1 := by linarith
  obtain ⟨δ, hδ, hu⟩ := hu (ε / 2 / (b - a + 1)) (by positivity)
  obtain ⟨M, hM⟩ := (hc.image_of_continuousOn (hF.abs.continuousOn)).bddAbove
  have hM' : ∀ x ∈ K, ∀ s ∈ Set.Icc a b, |F x s| ≤ max M 0 := fun x hx s hs =>
    (hM ⟨(x, s), ⟨hx, hs⟩, rfl⟩).trans (le_max_left _ _)
  obtain ⟨N, hN⟩ := exists_nat_gt ((b - a) / δ + (b - a) * (max M 0) * 2 / ε)
  have hpre : ∀ x ∈ K, ∀ d < δ, ∀ s ∈ Set.Icc a b, ∀ t ∈ Set.Icc a b, |s - t| ≤ d → |F x s - F x t| ≤ ε / 2 / (b - a + 1) := by
    intro x hx d hd s hs t ht hst
    have := hu (x, s) ⟨hx, hs⟩ (x, t) ⟨hx, ht⟩ (by
      rw [Prod.dist_eq, dist_self, Real.dist_eq]
      simp only
      rw [max_eq_right (abs_nonneg _)]
      linarith)
    rw [Real.dist_eq] at this
    exact this.le
  have hεb : (b - a) * (ε / 2 / (b - a + 1)) ≤ ε / 2 := by
    rw [mul_div_assoc', div_le_iff₀ hpos]
    nlinarith
  refine ⟨N + 2, by omega, fun n hn x hx => ?_⟩
  have hnN : (N : ℝ) + 1 ≤ (n : ℝ) - 1 := by
    have : ((N + 2 : ℕ) : ℝ) ≤ n := by exact_mod_cast hn
    push_cast at this
    linarith
  have hN0 : (0 : ℝ) ≤ N := by positivity
  have ha : 0 ≤ (b - a) / δ := div_nonneg (by linarith) hδ.le
  have hb : 0 ≤ (b - a) * (max M 0) * 2 / ε := by
    have := le_max_right M 0
    have h2 : 0 ≤ b - a := by linarith
    positivity
  have hsmall : ∀ d : ℝ, (N : ℝ) < d → (b - a) / d < δ ∧ (b - a) / d * max M 0 ≤ ε / 2 := by
    intro d hd
    have hd0 : 0 < d := by linarith
    constructor
    · rw [div_lt_iff₀ hd0]
      have : (b - a) / δ < d := by linarith
      rw [div_lt_iff₀ hδ] at this
      linarith
    · rw [div_mul_eq_mul_div, div_le_iff₀ hd0]
      have : (b - a) * (max M 0) * 2 / ε < d := by linarith
      rw [div_lt_iff₀ hε] at this
      linarith
  have hcont : ContinuousOn (F x) (Set.Icc a b) :=
    (hF.comp (Continuous.prodMk continuous_const continuous_id)).continuousOn
  constructor
  · obtain ⟨h1, h2⟩ := hsmall ((n : ℝ) - 1) (by linarith)
    have := linSum_close hab (by omega) hcont (hpre x hx _ h1) (hM' x hx)
    linarith
  · obtain ⟨h1, -⟩ := hsmall (n : ℝ) (by linarith)
    have := leftSum_close hab (by omega) hcont (hpre x hx _ h1)
    linarith

/-- what the two kinds of sums have in common -/
structure Quad (a b : ℝ) (S : ℕ → (ℝ → ℝ) → ℝ) : Prop where
  sub : ∀ n f g, S n f - S n g = S n fun x => f x - g x
  bound : ∀ n ≥ 2, ∀ (f : ℝ → ℝ) (M : ℝ), (∀ s ∈ Set.Icc a b, |f s| ≤ M) → |S n f| ≤ 2 * (b - a) * M
  conv : ∀ {X : Type} [PseudoMetricSpace X] {K : Set X}, IsCompact K → ∀ {F : X → ℝ → ℝ},
    (Continuous fun p : X × ℝ => F p.1 p.2) → ∀ {ε : ℝ}, 0 < ε →
      ∃ N : ℕ, 2 ≤ N ∧ ∀ n ≥ N, ∀ x ∈ K, |S n (F x) - ∫ t in a..b, F x t| ≤ ε

theorem quad_lin {a b : ℝ} (hab : a ≤ b) : Quad a b (linSum a b) where
  sub := linSum_sub a b
  bound := fun n hn f M hM => linSum_abs_le hab hn hM
  conv := fun hK F hF ε hε => by
    obtain ⟨N, hN, h⟩ := sum_uniform hK hab hF hε
    exact ⟨N, hN, fun n hn x hx => (h n hn x hx).1⟩

theorem quad_left {a b : ℝ} (hab : a ≤ b) : Quad a b (leftSum a b) where
  sub := leftSum_sub a b
  bound := fun n hn f M hM => by
    have h := leftSum_abs_le hab (n := n) (by omega) hM
    have h0 : 0 ≤ (b - a) * M := mul_nonneg (by linarith) ((abs_nonneg _).trans (hM a ⟨le_rfl, hab⟩))
    linarith
  conv := fun hK F hF ε hε => by
    obtain ⟨N, hN, h⟩ := sum_uniform hK hab hF hε
    exact ⟨N, hN, fun n hn x hx => (h n hn x hx).2⟩

/-- two nested sums converge to the iterated integral, uniformly in a parameter -/
theorem quad_two {a b a' b' : ℝ} (hab : a ≤ b) {S T : ℕ → (ℝ → ℝ) → ℝ} (hS : Quad a b S) (hT : Quad a' b' T)
    {X : Type} [PseudoMetricSpace X] {K : Set X} (hK : IsCompact K) {F : X → ℝ → ℝ → ℝ}
    (hF : Continuous fun p : X × ℝ × ℝ => F p.1 p.2.1 p.2.2) {ε : ℝ} (hε : 0 < ε) :
    ∃ N : ℕ, 2 ≤ N ∧ ∀ n ≥ N, ∀ m ≥ N, ∀ x ∈ K,
      |S n (fun y => T m (F x y)) - ∫ y in a..b, ∫ t in a'..b', F x y t| ≤ ε := by
  have hpos : 0 < 2 * (b - a) + 1 := by linarith
  obtain ⟨N1, hN1, h1⟩ := hT.conv (X := X × ℝ) (K := K ×ˢ Set.Icc a b) (hK.prod isCompact_Icc)
    (F := fun p t => F p.1 p.2 t)
    (hF.comp ((continuous_fst.comp continuous_fst).prodMk ((continuous_snd.comp continuous_fst).prodMk continuous_snd)))
    (ε := ε / 2 / (2 * (b - a) + 1)) (by positivity)
  have hG : Continuous fun p : X × ℝ => ∫ t in a'..b', F p.1 p.2 t :=
    intervalIntegral.continuous_parametric_intervalIntegral_of_continuous' (f := fun (p : X × ℝ) t => F p.1 p.2 t)
      (hF.comp ((continuous_fst.comp continuous_fst).prodMk ((continuous_snd.comp continuous_fst).prodMk continuous_snd))) _ _
  obtain ⟨N2, hN2, h2⟩ := hS.conv hK (F := fun x y => ∫ t in a'..b', F x y t) hG (ε := ε / 2) (by positivity)
  refine ⟨max N1 N2, le_max_of_le_left hN1, fun n hn m hm x hx => ?_⟩
  have e1 : |S n (fun y => T m (F x y)) - S n fun y => ∫ t in a'..b', F x y t| ≤ ε / 2 := by
    rw [hS.sub]
    refine (hS.bound n (by omega) _ (ε / 2 / (2 * (b - a) + 1)) fun y hy =>
      h1 m (le_trans (le_max_left _ _) hm) (x, y) ⟨hx, hy⟩).trans ?_
    rw [mul_div_assoc', div_le_iff₀ hpos]
    nlinarith
  have e2 := h2 n (le_trans (le_max_right _ _) hn) x hx
  calc _ = |(S n (fun y => T m (F x y)) - S n fun y => ∫ t in a'..b', F x y t) +
      ((S n fun y => ∫ t in a'..b', F x y t) - ∫ y in a..b, ∫ t in a'..b', F x y t)| := by ring_nf
    _ ≤ _ := (abs_add_le _ _).trans (by linarith)

/-- three nested sums -/
theorem quad_three {a b a' b' a'' b'' : ℝ} (hab : a ≤ b) (hab' : a' ≤ b') {S T U : ℕ → (ℝ → ℝ) → ℝ}
    (hS : Quad a b S) (hT : Quad a' b' T) (hU : Quad a'' b'' U) {F : ℝ → ℝ → ℝ → ℝ}
    (hF : Continuous fun p : ℝ × ℝ × ℝ => F p.1 p.2.1 p.2.2) {ε : ℝ} (hε : 0 < ε) :
    ∃ N : ℕ, 2 ≤ N ∧ ∀ l ≥ N, ∀ n ≥ N, ∀ m ≥ N,
      |S l (fun x => T n fun y => U m (F x y)) - ∫ x in a..b, ∫ y in a'..b', ∫ t in a''..b'', F x y t| ≤ ε := by
  have hpos : 0 < 2 * (b - a) + 1 := by linarith
  obtain ⟨N1, hN1, h1⟩ := quad_two hab' hT hU (X := ℝ) (K := Set.Icc a b) isCompact_Icc hF
    (ε := ε / 2 / (2 * (b - a) + 1)) (by positivity)
  have hG : Continuous fun p : ℝ × ℝ => ∫ t in a''..b'', F p.1 p.2 t :=
    intervalIntegral.continuous_parametric_intervalIntegral_of_continuous' (f := fun (p : ℝ × ℝ) t => F p.1 p.2 t)
      (hF.comp ((continuous_fst.comp continuous_fst).prodMk ((continuous_snd.comp continuous_fst).prodMk continuous_snd))) _ _
  have hG2 : Continuous fun x : ℝ => ∫ y in a'..b', ∫ t in a''..b'', F x y t :=
    intervalIntegral.continuous_parametric_intervalIntegral_of_continuous' (f := fun (x : ℝ) y => ∫ t in a''..b'', F x y t) hG _ _
  obtain ⟨N2, hN2, h2⟩ := hS.conv (X := Unit) (K := Set.univ) isCompact_univ
    (F := fun _ x => ∫ y in a'..b', ∫ t in a''..b'', F x y t) (hG2.comp continuous_snd) (ε := ε / 2) (by positivity)
  refine ⟨max N1 N2, le_max_of_le_left hN1, fun l hl n hn m hm => ?_⟩
  have e1 : |S l (fun x => T n fun y => U m (F x y)) - S l fun x => ∫ y in a'..b', ∫ t in a''..b'', F x y t| ≤ ε / 2 := by
    rw [hS.sub]
    refine (hS.bound l (by omega) _ (ε / 2 / (2 * (b - a) + 1)) fun x hx =>
      h1 n (le_trans (le_max_left _ _) hn) m (le_trans (le_max_left _ _) hm) x hx).trans ?_
    rw [mul_div_assoc', div_le_iff₀ hpos]
    nlinarith
  have e2 := h2 l (le_trans (le_max_right _ _) hl) () trivial
  calc _ = |(S l (fun x => T n fun y => U m (F x y)) - S l fun x => ∫ y in a'..b', ∫ t in a''..b'', F x y t) +
      ((S l fun x => ∫ y in a'..b', ∫ t in a''..b'', F x y t) - ∫ x in a..b, ∫ y in a'..b', ∫ t in a''..b'', F x y t)| := by
        ring_nf
    _ ≤ _ := (abs_add_le _ _).trans (by linarith)

/-- a point moved into an interval -/
noncomputable def clampTo (a b x : ℝ) : ℝ := max a (min b x)

theorem clampTo_mem {a b : ℝ} (hab : a ≤ b) (x : ℝ) : clampTo a b x ∈ Set.Icc a b :=
  ⟨le_max_left _ _, max_le hab (min_le_left _ _)⟩

theorem clampTo_of_mem {a b x : ℝ} (h : x ∈ Set.Icc a b) : clampTo a b x = x := by
  unfold clampTo
  rw [min_eq_right h.2, max_eq_right h.1]

theorem continuous_clampTo (a b : ℝ) : Continuous (clampTo a b) := by
  unfold clampTo
  fun_prop

end Lasy
