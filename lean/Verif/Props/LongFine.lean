import Verif.Props.LongFromData
import Verif.Props.FromArrayAccuracy

/-!
# Property C152: measured temporal data with a fine sampling
-/

namespace Lasy
open Complex

/-- an interpolated value is near a number if the samples around the point (moved to the end of the axis if it is outside)
are -/
theorem npInterp_near {n : ℕ} (hn : 0 < n) {g : Fin n → ℝ} (hg : Ascending g) {δ : ℝ} (hδ : 0 ≤ δ) (hd : Gaps g δ)
    {f : Fin n → ℝ} {x v η : ℝ}
    (hf : ∀ k, |g k - max (g ⟨0, hn⟩) (min x (g ⟨n - 1, by omega⟩))| ≤ δ → |f k - v| ≤ η) :
    ∃ w, npInterp g f x = .ok w ∧ |w - v| ≤ η := by
  have h0 : g ⟨0, hn⟩ ≤ g ⟨n - 1, by omega⟩ := hg.le_iff.mpr (by rw [Fin.le_def]; simp)
  by_cases h1 : x ≤ g ⟨0, hn⟩
  · refine ⟨_, npInterp_left hn g f h1, hf _ ?_⟩
    rw [min_eq_left (h1.trans h0), max_eq_left h1, sub_self, abs_zero]
    exact hδ
  by_cases h2 : g ⟨n - 1, by omega⟩ ≤ x
  · refine ⟨_, npInterp_right hn hg f h2, hf _ ?_⟩
    rw [min_eq_right h2, max_eq_right h0, sub_self, abs_zero]
    exact hδ
  rw [not_le] at h1 h2
  have hn2 : 2 ≤ n := by
    by_contra hc
    have : n = 1 := by omega
    subst this
    exact absurd h2 (not_lt.2 h1.le)
  have hin : Inside g x := ⟨⟨_, h1.le⟩, ⟨_, h2.le⟩⟩
  rw [min_eq_left h2.le, max_eq_right h1.le] at hf
  refine ⟨∑ i, linWeight g x i * f i, ?_, ?_⟩
  · unfold npInterp
    rw [dif_pos hn, if_neg (not_le.2 h1), if_neg (not_le.2 h2)]
  have hw := linWeight_nonneg hn2 hg hin
  have hs := linWeight_sum hn2 g x
  calc |∑ i, linWeight g x i * f i - v| = |∑ i, linWeight g x i * (f i - v)| := by
        congr 1
        simp only [mul_sub, Finset.sum_sub_distrib, ← Finset.sum_mul, hs, one_mul]
    _ ≤ ∑ i, |linWeight g x i * (f i - v)| := Finset.abs_sum_le_sum_abs _ _
    _ ≤ ∑ i, linWeight g x i * η := Finset.sum_le_sum fun i _ => by
        rw [abs_mul, abs_of_nonneg (hw i)]
        by_cases hz : linWeight g x i = 0
        · rw [hz, zero_mul, zero_mul]
        · exact mul_le_mul_of_nonneg_left (hf i (linWeight_near hn2 hg hin hd hz)) (hw i)
    _ = η := by rw [← Finset.sum_mul, hs, one_mul]

/-- an axis with small gaps that covers a number has a sample near it -/
theorem nearest_close {n : ℕ} {g : Fin n → ℝ} {δ x : ℝ} (hd : Gaps g δ) (hδ : 0 ≤ δ) (hn : 0 < n)
    (h0 : g ⟨0, hn⟩ ≤ x) (h1 : x ≤ g ⟨n - 1, by omega⟩) {a : Fin n} (ha : NearestSample g x a) : |g a - x| ≤ δ := by
  classical
  have hex : ∃ k : ℕ, ∃ h : k < n, x ≤ g ⟨k, h⟩ := ⟨n - 1, by omega, h1⟩
  obtain ⟨hk, hx⟩ := Nat.find_spec hex
  by_cases hz : Nat.find hex = 0
  · have hx' : x = g ⟨0, hn⟩ := by
      refine le_antisymm ?_ h0
      have e : (⟨Nat.find hex, hk⟩ : Fin n) = ⟨0, hn⟩ := Fin.ext hz
      rwa [e] at hx
    have := ha.1 ⟨0, hn⟩
    rw [← hx', sub_self, abs_zero] at this
    linarith
  · have hp := Nat.find_min hex (show Nat.find hex - 1 < Nat.find hex by omega)
    push Not at hp
    have hp' := hp (by omega)
    have hgap := hd (Nat.find hex - 1) (by omega)
    have e : (⟨Nat.find hex - 1 + 1, by omega⟩ : Fin n) = ⟨Nat.find hex, hk⟩ := Fin.ext (by simp; omega)
    rw [e] at hgap
    refine (ha.1 ⟨Nat.find hex, hk⟩).trans ?_
    rw [abs_of_nonneg (by linarith)]
    linarith

theorem gaps_slice1 {n : ℕ} {g : Fin n → ℝ} {δ : ℝ} (hd : Gaps g δ) (a b : ℕ) (h : b ≤ n) : Gaps (slice1 g a b h) δ := by
  intro k hk
  exact hd (a + k) (by omega)

theorem sqrt_add_le' {a b : ℝ} (ha : 0 ≤ a) (hb : 0 ≤ b) : Real.sqrt (a + b) ≤ Real.sqrt a + Real.sqrt b := by
  rw [Real.sqrt_le_iff]
  refine ⟨by positivity, ?_⟩
  nlinarith [Real.sq_sqrt ha, Real.sq_sqrt hb, mul_nonneg (Real.sqrt_nonneg a) (Real.sqrt_nonneg b)]

/-- how `sqrt(i) exp(-i p)` depends on `i` and `p` -/
theorem sampleField_close {i i' p p' M η η' : ℝ} (hi' : 0 ≤ i') (hM : i' ≤ M) (h : |i - i'| ≤ η) (h' : |p - p'| ≤ η') :
    ‖sampleField i p - sampleField i' p'‖ ≤ Real.sqrt η + Real.sqrt M * η' := by
  have e : sampleField i p - sampleField i' p' = ((Real.sqrt i - Real.sqrt i' : ℝ) : ℂ) * exp (-I * p) +
      (Real.sqrt i' : ℂ) * (exp (-I * p) - exp (-I * p')) := by
    unfold sampleField
    push_cast
    ring
  have hexp : ∀ q : ℝ, ‖exp (-I * q)‖ = 1 := fun q => by
    rw [show -I * (q : ℂ) = ((-q : ℝ) : ℂ) * I by push_cast; ring, Complex.norm_exp_ofReal_mul_I]
  rw [e]
  refine (norm_add_le _ _).trans (add_le_add ?_ ?_)
  · rw [norm_mul, hexp, mul_one, Complex.norm_real, Real.norm_eq_abs]
    have hη : 0 ≤ η := (abs_nonneg _).trans h
    rw [abs_le] at h ⊢
    constructor
    · rw [neg_le_sub_iff_le_add]
      refine (Real.sqrt_le_sqrt (show i' ≤ η + max i 0 by linarith [le_max_left i 0])).trans ?_
      refine (sqrt_add_le' hη (le_max_right _ _)).trans ?_
      rcases le_total 0 i with h0 | h0
      · rw [max_eq_left h0, add_comm]
      · rw [max_eq_right h0, Real.sqrt_zero, Real.sqrt_eq_zero_of_nonpos h0, add_comm]
    · rw [sub_le_iff_le_add]
      refine (Real.sqrt_le_sqrt (show i ≤ η + i' by linarith)).trans (sqrt_add_le' hη hi')
  · rw [norm_mul, Complex.norm_real, Real.norm_eq_abs, abs_of_nonneg (Real.sqrt_nonneg _)]
    refine mul_le_mul (Real.sqrt_le_sqrt hM) ?_ (norm_nonneg _) (Real.sqrt_nonneg _)
    have e2 : exp (-I * p) - exp (-I * p') = exp (-I * p') * (exp (I * ((p' - p : ℝ) : ℂ)) - 1) := by
      rw [mul_sub, mul_one, ← Complex.exp_add]
      congr 2
      push_cast
      ring
    rw [e2, norm_mul, hexp, one_mul]
    refine (Real.norm_exp_I_mul_ofReal_sub_one_le).trans ?_
    rw [Real.norm_eq_abs, abs_sub_comm]
    exact h'

/-- **C152** (measured pulses). Let a pulse with continuous intensity `J ≥ 0` and phase `φ` on `[A, B]` be recorded on any increasing
time axis with small gaps inside of `[A, B]` that covers `[lo, hi]`. Then `LongitudinalProfileFromData` (temporal data) accepts
the record, and at *every* time `t` its value is, up to any given error, `sqrt(J) exp(-i φ)` at `t`, if `t` is in `[lo, hi]`,
and at the nearest end of `[lo, hi]` otherwise (it does not vanish outside). -/
theorem C152_temporal {A B : ℝ} {J φ : ℝ → ℝ} (hJ : ContinuousOn J (Set.Icc A B)) (hφ : ContinuousOn φ (Set.Icc A B))
    (h0 : ∀ t ∈ Set.Icc A B, 0 ≤ J t) {lo hi : ℝ} (hlh : lo < hi) {ε : ℝ} (hε : 0 < ε) :
    ∃ δ > 0, ∀ (n : ℕ) (hn : 0 < n) (axis : Fin n → ℝ), Ascending axis → Gaps axis δ → (∀ k, axis k ∈ Set.Icc A B) →
      axis ⟨0, hn⟩ ≤ lo → hi ≤ axis ⟨n - 1, by omega⟩ → ∀ wavelength, ∃ p : LongProf,
        longTemporal axis (fun k => J (axis k)) (some fun k => φ (axis k)) wavelength lo hi = .ok p ∧ p.lambda0 = wavelength ∧
        ∀ t, ∃ z, p.evaluate t = .ok z ∧ ‖z - sampleField (J (max lo (min t hi))) (φ (max lo (min t hi)))‖ ≤ ε := by
  obtain ⟨M, hM⟩ := (isCompact_Icc (a := A) (b := B)).exists_bound_of_continuousOn hJ
  set S := Real.sqrt (max M 0)
  have hS : 0 ≤ S := Real.sqrt_nonneg _
  obtain ⟨d1, hd1, u1⟩ := Metric.uniformContinuousOn_iff_le.1 ((isCompact_Icc (a := A) (b := B)).uniformContinuousOn_of_continuous hJ)
    ((ε / 2) ^ 2) (by positivity)
  obtain ⟨d2, hd2, u2⟩ := Metric.uniformContinuousOn_iff_le.1 ((isCompact_Icc (a := A) (b := B)).uniformContinuousOn_of_continuous hφ)
    (ε / 2 / (S + 1)) (by positivity)
  refine ⟨min (min d1 d2 / 4) ((hi - lo) / 4), by have := sub_pos.2 hlh; positivity, ?_⟩
  intro n hn axis hasc hgap hin hlo hhi wavelength
  set δ := min (min d1 d2 / 4) ((hi - lo) / 4) with hδ
  have hδ0 : 0 < δ := by have := sub_pos.2 hlh; positivity
  have hδ1 : 4 * δ ≤ d1 := by
    have := (min_le_left (min d1 d2 / 4) ((hi - lo) / 4)).trans (div_le_div_of_nonneg_right (min_le_left d1 d2) (by norm_num))
    rw [← hδ] at this
    linarith
  have hδ2 : 4 * δ ≤ d2 := by
    have := (min_le_left (min d1 d2 / 4) ((hi - lo) / 4)).trans (div_le_div_of_nonneg_right (min_le_right d1 d2) (by norm_num))
    rw [← hδ] at this
    linarith
  have hδ3 : 4 * δ ≤ hi - lo := by
    have := min_le_right (min d1 d2 / 4) ((hi - lo) / 4)
    rw [← hδ] at this
    linarith
  obtain ⟨a, b, ha, hb, e⟩ := cropLong_eq hn axis (fun k => J (axis k)) (fun k => φ (axis k)) wavelength lo hi
  have ca := nearest_close hgap hδ0.le hn hlo (hlh.le.trans hhi) ha
  have cb := nearest_close hgap hδ0.le hn (hlo.trans hlh.le) hhi hb
  rw [abs_le] at ca cb
  have hab : a < b := by
    by_contra hc
    have := hasc.le_iff.mpr (not_lt.1 hc)
    linarith
  rw [Fin.lt_def] at hab
  refine ⟨_, e, rfl, fun t => ?_⟩
  have hm : 0 < (b : ℕ) - a := by omega
  have hs := ascending_slice1 hasc a b b.2.le
  have hg := gaps_slice1 hgap a b b.2.le
  -- the ends of the axis that is kept
  have e0 : slice1 axis a b b.2.le ⟨0, hm⟩ = axis a := rfl
  have el : hi - 2 * δ ≤ slice1 axis a b b.2.le ⟨(b : ℕ) - a - 1, by omega⟩ ∧
      slice1 axis a b b.2.le ⟨(b : ℕ) - a - 1, by omega⟩ ≤ hi + δ := by
    have e1 : slice1 axis a b b.2.le ⟨(b : ℕ) - a - 1, by omega⟩ = axis ⟨(b : ℕ) - 1, by omega⟩ := by
      unfold slice1
      congr 1
      apply Fin.ext
      simp only
      omega
    rw [e1]
    have g1 := hgap ((b : ℕ) - 1) (by omega)
    have g2 := hasc ⟨(b : ℕ) - 1, by omega⟩ b (by rw [Fin.lt_def]; simp only; omega)
    have e2 : (⟨(b : ℕ) - 1 + 1, by omega⟩ : Fin n) = b := Fin.ext (by simp only; omega)
    rw [e2] at g1
    constructor <;> linarith
  set r := max lo (min t hi) with hr
  have hrI : r ∈ Set.Icc A B := by
    have h1 := (hin ⟨0, hn⟩).1
    have h2 := (hin ⟨n - 1, by omega⟩).2
    have h3 : lo ≤ r := le_max_left _ _
    have h4 : r ≤ hi := max_le hlh.le (min_le_right _ _)
    exact ⟨by linarith, by linarith⟩
  have hclose : |max (slice1 axis a b b.2.le ⟨0, hm⟩) (min t (slice1 axis a b b.2.le ⟨(b : ℕ) - a - 1, by omega⟩)) - r| ≤ 2 * δ := by
    rw [e0, hr]
    refine (abs_max_sub_max_le_max _ _ _ _).trans (max_le ?_ ?_)
    · rw [abs_le]
      constructor <;> linarith
    · refine (abs_min_sub_min_le_max _ _ _ _).trans (max_le ?_ ?_)
      · rw [sub_self, abs_zero]
        linarith
      · rw [abs_le]
        constructor <;> linarith
  have hnear : ∀ k : Fin ((b : ℕ) - a), |slice1 axis a b b.2.le k -
      max (slice1 axis a b b.2.le ⟨0, hm⟩) (min t (slice1 axis a b b.2.le ⟨(b : ℕ) - a - 1, by omega⟩))| ≤ δ →
      |axis ⟨a + k, by omega⟩ - r| ≤ 4 * δ := by
    intro k hk
    have := abs_sub_le (slice1 axis a b b.2.le k)
      (max (slice1 axis a b b.2.le ⟨0, hm⟩) (min t (slice1 axis a b b.2.le ⟨(b : ℕ) - a - 1, by omega⟩))) r
    have e : slice1 axis a b b.2.le k = axis ⟨a + k, by omega⟩ := rfl
    rw [e] at this hk
    linarith
  obtain ⟨v, hv, hv'⟩ := npInterp_near hm hs hδ0.le hg (f := slice1 (fun k => J (axis k)) a b b.2.le) (x := t) (v := J r)
    (η := (ε / 2) ^ 2) fun k hk => by
      have := u1 _ (hin ⟨a + k, by omega⟩) r hrI (by rw [Real.dist_eq]; exact (hnear k hk).trans hδ1)
      rwa [Real.dist_eq] at this
  obtain ⟨w, hw, hw'⟩ := npInterp_near hm hs hδ0.le hg (f := slice1 (fun k => φ (axis k)) a b b.2.le) (x := t) (v := φ r)
    (η := ε / 2 / (S + 1)) fun k hk => by
      have := u2 _ (hin ⟨a + k, by omega⟩) r hrI (by rw [Real.dist_eq]; exact (hnear k hk).trans hδ2)
      rwa [Real.dist_eq] at this
  refine ⟨_, evaluate_of hv hw, ?_⟩
  refine (sampleField_close (M := max M 0) (h0 r hrI) ?_ hv' hw').trans ?_
  · exact (le_abs_self _).trans ((hM r hrI).trans (le_max_left _ _))
  · rw [Real.sqrt_sq (by positivity)]
    have : S * (ε / 2 / (S + 1)) ≤ ε / 2 := by
      rw [mul_div_assoc', div_le_iff₀ (by positivity)]
      nlinarith
    linarith

/-- without a phase array the profile is the root of the intensity -/
theorem C152_no_phase {A B : ℝ} {J : ℝ → ℝ} (hJ : ContinuousOn J (Set.Icc A B))
    (h0 : ∀ t ∈ Set.Icc A B, 0 ≤ J t) {lo hi : ℝ} (hlh : lo < hi) {ε : ℝ} (hε : 0 < ε) :
    ∃ δ > 0, ∀ (n : ℕ) (hn : 0 < n) (axis : Fin n → ℝ), Ascending axis → Gaps axis δ → (∀ k, axis k ∈ Set.Icc A B) →
      axis ⟨0, hn⟩ ≤ lo → hi ≤ axis ⟨n - 1, by omega⟩ → ∀ wavelength, ∃ p : LongProf,
        longTemporal axis (fun k => J (axis k)) none wavelength lo hi = .ok p ∧
        ∀ t ∈ Set.Icc lo hi, ∃ z, p.evaluate t = .ok z ∧ ‖z - Real.sqrt (J t)‖ ≤ ε := by
  obtain ⟨δ, hδ, key⟩ := C152_temporal hJ (φ := fun _ => 0) continuousOn_const h0 hlh hε
  refine ⟨δ, hδ, fun n hn axis h1 h2 h3 h4 h5 wavelength => ?_⟩
  obtain ⟨p, hp, -, hz⟩ := key n hn axis h1 h2 h3 h4 h5 wavelength
  refine ⟨p, hp, fun t ht => ?_⟩
  obtain ⟨z, e, hz⟩ := hz t
  rw [min_eq_left ht.2, max_eq_right ht.1] at hz
  refine ⟨z, e, ?_⟩
  simpa [sampleField] using hz

/-- the hypotheses are met: the record of a Gaussian pulse with a chirp on `n` equidistant samples, `n` large -/
example {ε : ℝ} (hε : 0 < ε) : ∃ N : ℕ, ∀ n ≥ N, ∃ p : LongProf,
    longTemporal (linspace (-4) 4 n) (fun k => Real.exp (-(linspace (-4) 4 n k) ^ 2)) (some fun k => (linspace (-4) 4 n k) ^ 2)
      1 (-3) 3 = .ok p ∧
    ∀ t ∈ Set.Icc (-3 : ℝ) 3, ∃ z, p.evaluate t = .ok z ∧ ‖z - sampleField (Real.exp (-t ^ 2)) (t ^ 2)‖ ≤ ε := by
  obtain ⟨δ, hδ, key⟩ := C152_temporal (A := -4) (B := 4) (J := fun t => Real.exp (-t ^ 2)) (φ := fun t => t ^ 2)
    (by fun_prop) (by fun_prop) (fun t _ => (Real.exp_pos _).le) (lo := -3) (hi := 3) (by norm_num) hε
  obtain ⟨N, hN⟩ := exists_nat_gt (8 / δ + 2)
  refine ⟨N, fun n hn => ?_⟩
  have hn' : 8 / δ + 2 < (n : ℝ) := hN.trans_le (by exact_mod_cast hn)
  have h8 : 0 < 8 / δ := by positivity
  have hn2 : 2 ≤ n := by
    have : (2 : ℝ) < n := by linarith
    exact_mod_cast this.le
  have hd : 0 < (n : ℝ) - 1 := by linarith
  have hstep : ∀ k : Fin n, linspace (-4) 4 n k = -4 + 8 / ((n : ℝ) - 1) * k := by
    intro k
    unfold linspace
    ring
  have hk : ∀ k : Fin n, (k : ℝ) ≤ n - 1 := by
    intro k
    have : ((k : ℕ) : ℝ) + 1 ≤ n := by exact_mod_cast k.2
    linarith
  obtain ⟨p, hp, -, hz⟩ := key n (by omega) (linspace (-4) 4 n)
    (fun i j hij => by
      rw [hstep, hstep]
      have : ((i : ℕ) : ℝ) < ((j : ℕ) : ℝ) := by exact_mod_cast hij
      have h := mul_lt_mul_of_pos_left this (show 0 < 8 / ((n : ℝ) - 1) by positivity)
      linarith)
    (fun k hk => by
      rw [hstep, hstep]
      push_cast
      have : 8 / ((n : ℝ) - 1) ≤ δ := by
        rw [div_le_iff₀ hd]
        have := (div_lt_iff₀ hδ).1 (show 8 / δ < (n : ℝ) - 1 by linarith)
        linarith
      linarith)
    (fun k => by
      rw [hstep]
      have h1 : 8 / ((n : ℝ) - 1) * k ≤ 8 := by
        rw [div_mul_eq_mul_div, div_le_iff₀ hd]
        linarith [hk k]
      have h2 : 0 ≤ 8 / ((n : ℝ) - 1) * k := by positivity
      exact ⟨by linarith, by linarith⟩)
    (by rw [hstep]; norm_num)
    (by
      rw [hstep]
      have : (((n - 1 : ℕ) : ℕ) : ℝ) = n - 1 := by
        rw [Nat.cast_sub (by omega)]
        simp
      simp only [this]
      rw [div_mul_cancel₀ _ hd.ne']
      norm_num) 1
  refine ⟨p, hp, fun t ht => ?_⟩
  obtain ⟨z, e, hz⟩ := hz t
  rw [min_eq_left ht.2, max_eq_right ht.1] at hz
  exact ⟨z, e, hz⟩

end Lasy
