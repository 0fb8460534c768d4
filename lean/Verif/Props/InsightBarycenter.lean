import Verif.Props.Insight
import Verif.Props.PulseDuration

/-!
# Property C145: the barycenter frequency of an INSIGHT measurement
-/

namespace Lasy
open Spec Phys Complex MeasureTheory

variable [Phys]

/-- the rate of change of samples `q` with the spacing `h`: central differences, one-sided ones at the ends -/
noncomputable def localRate {n : ℕ} (hn : 2 ≤ n) (q : Fin n → ℝ) (h : ℝ) (k : Fin n) : ℝ :=
  if k0 : (k : ℕ) = 0 then (q ⟨1, by omega⟩ - q ⟨0, by omega⟩) / h
  else if kn : (k : ℕ) + 1 = n then (q ⟨n - 1, by omega⟩ - q ⟨n - 2, by omega⟩) / h
  else (q ⟨k + 1, by omega⟩ - q ⟨k - 1, by omega⟩) / (2 * h)

omit [Phys] in
theorem gradient1_uniform {n : ℕ} (hn : 2 ≤ n) (q : Fin n → ℝ) {t0 h : ℝ} (hh : h ≠ 0) {t : Fin n → ℝ}
    (ht : ∀ k : Fin n, t k = t0 + (k : ℕ) * h) : gradient1 q ⟨n, t⟩ = .ok (localRate hn q h) := by
  unfold gradient1
  rw [dif_pos ⟨rfl, hn⟩]
  refine congrArg Except.ok (funext fun k => ?_)
  unfold localRate
  simp only [Fin.cast_eq_self, ht]
  split_ifs with k0 kn
  · congr 1
    push_cast
    ring
  · congr 1
    rw [Nat.cast_sub (by omega), Nat.cast_sub (by omega)]
    push_cast
    ring
  · rw [show t0 + ((k : ℕ) : ℝ) * h - (t0 + (((k : ℕ) - 1 : ℕ) : ℝ) * h) = h by
        rw [Nat.cast_sub (by omega)]; push_cast; ring,
      show t0 + (((k : ℕ) + 1 : ℕ) : ℝ) * h - (t0 + ((k : ℕ) : ℝ) * h) = h by push_cast; ring]
    field_simp
    ring

omit [Phys] in
theorem localRate_neg_add {n : ℕ} (hn : 2 ≤ n) (q : Fin n → ℝ) (c h : ℝ) (k : Fin n) :
    localRate hn (fun k => -q k + c) h k = -localRate hn q h k := by
  unfold localRate
  by_cases k0 : (k : ℕ) = 0
  · rw [dif_pos k0, dif_pos k0]
    ring
  · rw [dif_neg k0, dif_neg k0]
    by_cases kn : (k : ℕ) + 1 = n
    · rw [dif_pos kn, dif_pos kn]
      ring
    · rw [dif_neg kn, dif_neg kn]
      ring

/-- **C145.** What "barycenter" is: the local frequency of the field on the axis, averaged over its power. If the field on the
axis is `A_k exp(-i q_k)`, `A_k > 0`, on a uniform time axis, and the phase `q` moves by less than `π` between samples, then the
frequency of the profile is `|∑ w_k A_k² / ∑ A_k²|`, with `w` the rate of change of `q`. -/
theorem C145_barycenter {a b n : ℕ} {t : Fin n → ℝ} {x : Fin a → ℝ} {y : Fin b → ℝ}
    (ha : 2 ≤ a) (hb : 2 ≤ b) (hn : 2 ≤ n) (hx : Ascending x) (hy : Ascending y) (p q : ℂ) {t0 dt : ℝ} (hdt : 0 < dt)
    (ht : ∀ k : Fin n, t k = t0 + (k : ℕ) * dt) {data : Fin a → Fin b → Fin n → ℂ} {A ph : Fin n → ℝ} (hA : ∀ k, 0 < A k)
    (hdata : ∀ k, data ⟨a / 2, by omega⟩ ⟨b / 2, by omega⟩ k = A k * exp (-I * ph k))
    (hs : ∀ (k : ℕ) (hk : k + 1 < n), |ph ⟨k + 1, hk⟩ - ph ⟨k, by omega⟩| < Real.pi) {w : ℝ}
    (hw : w = (∑ k, localRate hn ph (dt * 1e-15) k * A k ^ 2) / ∑ k, A k ^ 2) (hne : w ≠ 0) :
    ∃ P, fromInsight data ⟨n, t⟩ ⟨a, x⟩ ⟨b, y⟩ [p, q] .barycenter = .ok P ∧ P.omega0 = |w| := by
  have htasc : Ascending t := by
    intro i j hij
    rw [ht, ht]
    have : ((i : ℕ) : ℝ) < (j : ℕ) := by exact_mod_cast hij
    nlinarith
  have hnorm : ∀ k, ‖data ⟨a / 2, by omega⟩ ⟨b / 2, by omega⟩ k‖ = A k := by
    intro k
    rw [hdata, norm_mul, norm_real, Real.norm_of_nonneg (hA k).le, show -I * (ph k : ℂ) = ((-ph k : ℝ) : ℂ) * I by push_cast; ring,
      Complex.norm_exp_ofReal_mul_I, mul_one]
  have hu : (unwrap fun k => angle (data ⟨a / 2, by omega⟩ ⟨b / 2, by omega⟩ k)) = fun k => -ph k +
      (angle (data ⟨a / 2, by omega⟩ ⟨b / 2, by omega⟩ ⟨0, by omega⟩) - -ph ⟨0, by omega⟩) := by
    funext k
    rw [unwrap_unique _ (fun k => -ph k) (fun k => angle_polar (hA k) (by rw [hdata]; congr 2; push_cast; ring)) (fun k hk => by
      have := hs k hk
      rwa [show -ph ⟨k + 1, hk⟩ - -ph ⟨k, by omega⟩ = -(ph ⟨k + 1, hk⟩ - ph ⟨k, by omega⟩) by ring, abs_neg]) (by omega) k]
  have hpos : 0 < ∑ k, A k ^ 2 := Finset.sum_pos (fun k _ => pow_pos (hA k) 2) ⟨⟨0, by omega⟩, Finset.mem_univ _⟩
  have hin : insightOmega (data ⟨a / 2, by omega⟩ ⟨b / 2, by omega⟩) ⟨n, fun k => t k * 1e-15⟩ .barycenter = .ok w := by
    unfold insightOmega
    rw [hu, gradient1_uniform hn _ (t0 := t0 * 1e-15) (h := dt * 1e-15) (by positivity) (fun k => by rw [ht]; ring)]
    simp only [bind, Except.bind, hnorm]
    unfold average
    rw [if_neg hpos.ne', hw]
    congr 2
    refine Finset.sum_congr rfl fun k _ => ?_
    beta_reduce
    rw [localRate_neg_add, neg_neg]
  obtain ⟨P, f, e, h1, -⟩ := fromInsight_ok data ha hb hn hx hy htasc p q hin hne
  exact ⟨P, e, h1⟩

omit [Phys] in
/-- the difference quotients of the samples of a function are close to its derivative -/
theorem localRate_close {a b : ℝ} (hab : a < b) {n : ℕ} (hn : 2 ≤ n) {q q' : ℝ → ℝ} (hq : ∀ t, HasDerivAt q (q' t) t) {η : ℝ}
    (hu : ∀ s ∈ Set.Icc a b, ∀ t ∈ Set.Icc a b, |s - t| ≤ (b - a) / ((n : ℝ) - 1) → |q' s - q' t| ≤ η) (k : Fin n) :
    |localRate hn (fun k => q (linspace a b n k)) ((b - a) / ((n : ℝ) - 1)) k - q' (linspace a b n k)| ≤ η := by
  have hn1 : (0 : ℝ) < (n : ℝ) - 1 := by
    have : (2 : ℝ) ≤ n := by exact_mod_cast hn
    linarith
  set h := (b - a) / ((n : ℝ) - 1) with hh
  have hpos : 0 < h := div_pos (by linarith) hn1
  have hend : ((n : ℝ) - 1) * h = b - a := by rw [hh]; field_simp
  have hin : ∀ u : ℝ, 0 ≤ u → u ≤ (n : ℝ) - 1 → a + u * h ∈ Set.Icc a b := by
    intro u h0 h1
    constructor
    · nlinarith
    · nlinarith
  have slope : ∀ u v : ℝ, 0 ≤ u → u < v → v ≤ (n : ℝ) - 1 → ∃ x, u < x ∧ x < v ∧ q' (a + x * h) = (q (a + v * h) - q (a + u * h)) / ((v - u) * h) := by
    intro u v h0 huv hv
    obtain ⟨x, ⟨hx1, hx2⟩, e⟩ := exists_hasDerivAt_eq_slope q q' (a := a + u * h) (b := a + v * h) (by nlinarith)
      (fun t _ => (hq t).continuousAt.continuousWithinAt) (fun t _ => hq t)
    refine ⟨(x - a) / h, by rw [lt_div_iff₀ hpos]; linarith, by rw [div_lt_iff₀ hpos]; linarith, ?_⟩
    rw [show a + (x - a) / h * h = x by field_simp; ring, e]
    congr 1
    ring
  have close : ∀ x y : ℝ, 0 ≤ x → x ≤ (n : ℝ) - 1 → 0 ≤ y → y ≤ (n : ℝ) - 1 → |x - y| ≤ 1 → |q' (a + x * h) - q' (a + y * h)| ≤ η := by
    intro x y hx0 hx1 hy0 hy1 hxy
    refine hu _ (hin x hx0 hx1) _ (hin y hy0 hy1) ?_
    rw [show a + x * h - (a + y * h) = (x - y) * h by ring, abs_mul, abs_of_pos hpos]
    nlinarith
  have hk0 : (0 : ℝ) ≤ (k : ℕ) := Nat.cast_nonneg _
  have hk1 : ((k : ℕ) : ℝ) ≤ (n : ℝ) - 1 := by
    have : ((k : ℕ) : ℝ) + 1 ≤ n := by exact_mod_cast k.2
    linarith
  unfold localRate linspace
  rw [← hh]
  by_cases k0 : (k : ℕ) = 0
  · rw [dif_pos k0]
    have h1n : (1 : ℝ) ≤ (n : ℝ) - 1 := by
      have : (2 : ℝ) ≤ n := by exact_mod_cast hn
      linarith
    obtain ⟨x, hx1, hx2, e⟩ := slope 0 1 le_rfl one_pos h1n
    have := close x (k : ℕ) hx1.le (by linarith) hk0 hk1 (by rw [k0]; push_cast; rw [abs_le]; constructor <;> linarith)
    rw [e] at this
    convert this using 3
    simp
  · rw [dif_neg k0]
    by_cases kn : (k : ℕ) + 1 = n
    · rw [dif_pos kn]
      have hkn : ((k : ℕ) : ℝ) = (n : ℝ) - 1 := by
        have : ((k : ℕ) : ℝ) + 1 = n := by exact_mod_cast kn
        linarith
      have e1 : ((n - 1 : ℕ) : ℝ) = (n : ℝ) - 1 := by rw [Nat.cast_sub (by omega)]; simp
      have e2 : ((n - 2 : ℕ) : ℝ) = (n : ℝ) - 2 := by rw [Nat.cast_sub (by omega)]; simp
      have hn2 : (0 : ℝ) ≤ (n : ℝ) - 2 := by
        have : (2 : ℝ) ≤ n := by exact_mod_cast hn
        linarith
      obtain ⟨x, hx1, hx2, e⟩ := slope ((n : ℝ) - 2) ((n : ℝ) - 1) hn2 (by linarith) le_rfl
      have := close x (k : ℕ) (by linarith) hx2.le hk0 hk1 (by rw [hkn, abs_le]; constructor <;> linarith)
      rw [e, show (n : ℝ) - 1 - ((n : ℝ) - 2) = 1 by ring, one_mul] at this
      simp only [e1, e2]
      exact this
    · rw [dif_neg kn]
      have e1 : (((k : ℕ) + 1 : ℕ) : ℝ) = ((k : ℕ) : ℝ) + 1 := by push_cast; ring
      have e2 : (((k : ℕ) - 1 : ℕ) : ℝ) = ((k : ℕ) : ℝ) - 1 := by rw [Nat.cast_sub (by omega)]; simp
      have hk' : (1 : ℝ) ≤ (k : ℕ) := by exact_mod_cast Nat.one_le_iff_ne_zero.2 k0
      have hkn' : ((k : ℕ) : ℝ) + 1 ≤ (n : ℝ) - 1 := by
        have : (k : ℕ) + 2 ≤ n := by omega
        have : ((k : ℕ) : ℝ) + 2 ≤ n := by exact_mod_cast this
        linarith
      obtain ⟨x, hx1, hx2, e⟩ := slope (((k : ℕ) : ℝ) - 1) (((k : ℕ) : ℝ) + 1) (by linarith) (by linarith) hkn'
      have := close x (k : ℕ) (by linarith) (by linarith) hk0 hk1 (by rw [abs_le]; constructor <;> linarith)
      rw [e, show ((k : ℕ) : ℝ) + 1 - (((k : ℕ) : ℝ) - 1) = 2 by ring] at this
      simp only [e1, e2]
      exact this

omit [Phys] in
theorem localRate_scale {n : ℕ} (hn : 2 ≤ n) (q : Fin n → ℝ) (h : ℝ) (k : Fin n) :
    localRate hn q (h * 1e-15) k = 1e15 * localRate hn q h k := by
  unfold localRate
  by_cases k0 : (k : ℕ) = 0
  · rw [dif_pos k0, dif_pos k0]
    ring
  · rw [dif_neg k0, dif_neg k0]
    by_cases kn : (k : ℕ) + 1 = n
    · rw [dif_pos kn, dif_pos kn]
      ring
    · rw [dif_neg kn, dif_neg kn]
      ring

/-- **C145** (fine time axes). If the field on the axis is `A(t) exp(-i q(t))`, `t` in femtoseconds, with `A` continuous and
positive and `q` continuously differentiable, then the "barycenter" frequency tends, for fine time axes, to the mean of the
instantaneous frequency `q'` over the power `A²`, in rad/s. No resolution of the phase is assumed: fine axes have it. -/
theorem C145_fine {t0 t1 : ℝ} (h01 : t0 < t1) {A q q' : ℝ → ℝ} (hA : Continuous A) (hA0 : ∀ t, 0 < A t)
    (hq : ∀ t, HasDerivAt q (q' t) t) (hq' : Continuous q')
    (hne : (∫ t in t0..t1, q' t * A t ^ 2) ≠ 0) {ε : ℝ} (hε : 0 < ε) :
    ∃ N, ∀ n, N ≤ n → ∀ (a b : ℕ) (ha : 2 ≤ a) (hb : 2 ≤ b) (x : Fin a → ℝ) (y : Fin b → ℝ), Ascending x → Ascending y →
      ∀ (p r : ℂ) (data : Fin a → Fin b → Fin n → ℂ),
      (∀ k, data ⟨a / 2, by omega⟩ ⟨b / 2, by omega⟩ k = A (linspace t0 t1 n k) * exp (-I * q (linspace t0 t1 n k))) →
      ∃ P, fromInsight data ⟨n, linspace t0 t1 n⟩ ⟨a, x⟩ ⟨b, y⟩ [p, r] .barycenter = .ok P ∧
        |P.omega0 - |(∫ t in t0..t1, q' t * A t ^ 2) / (∫ t in t0..t1, A t ^ 2)| * 1e15| < ε := by
  set Z := ∫ t in t0..t1, A t ^ 2 with hZ
  set M := ∫ t in t0..t1, q' t * A t ^ 2 with hM
  have hZ0 : 0 < Z := intervalIntegral.intervalIntegral_pos_of_pos (hA.pow 2 |>.intervalIntegrable _ _)
    (fun t => pow_pos (hA0 t) 2) h01
  have hr0 : M / Z ≠ 0 := div_ne_zero hne hZ0.ne'
  set η := min (ε / 1e15) |M / Z| / 3 with hη
  have hη0 : 0 < η := by
    have := abs_pos.2 hr0
    positivity
  -- the samples
  have hlim : Filter.Tendsto (fun n : ℕ => linSum t0 t1 n (fun t => q' t * A t ^ 2) / linSum t0 t1 n (fun t => A t ^ 2)) Filter.atTop
      (nhds (M / Z)) :=
    (linSum_tendsto h01.le (hq'.mul (hA.pow 2)).continuousOn).div (linSum_tendsto h01.le (hA.pow 2).continuousOn) hZ0.ne'
  obtain ⟨N1, hN1⟩ := Metric.tendsto_atTop.1 hlim η hη0
  -- uniform continuity
  obtain ⟨δ, hδ, hun⟩ := Metric.uniformContinuousOn_iff.1
    (isCompact_Icc.uniformContinuousOn_of_continuous (hq'.continuousOn (s := Set.Icc t0 t1))) η hη0
  obtain ⟨K, hK⟩ := isCompact_Icc.exists_bound_of_continuousOn (hq'.continuousOn (s := Set.Icc t0 t1))
  have hK0 : 0 ≤ K := (norm_nonneg _).trans (hK t0 ⟨le_rfl, h01.le⟩)
  obtain ⟨N2, hN2⟩ := exists_nat_gt ((t1 - t0) / min δ (1 / (K + 1)))
  refine ⟨max N1 (N2 + 2), fun n hn a b ha hb x y hx hy p r data hdata => ?_⟩
  have hn1 : N1 ≤ n := (le_max_left _ _).trans hn
  have hn2 : N2 + 2 ≤ n := (le_max_right _ _).trans hn
  have h2 : 2 ≤ n := by omega
  have hm0 : 0 < min δ (1 / (K + 1)) := by positivity
  have hnR : (N2 : ℝ) + 2 ≤ n := by exact_mod_cast hn2
  have hstep : (t1 - t0) / ((n : ℝ) - 1) < min δ (1 / (K + 1)) := by
    have hp : (0 : ℝ) < (n : ℝ) - 1 := by
      have : (0 : ℝ) ≤ N2 := Nat.cast_nonneg _
      linarith
    rw [div_lt_iff₀ hp]
    rw [div_lt_iff₀ hm0] at hN2
    nlinarith
  set h := (t1 - t0) / ((n : ℝ) - 1) with hh
  have hp : (0 : ℝ) < (n : ℝ) - 1 := by
    have : (0 : ℝ) ≤ N2 := Nat.cast_nonneg _
    linarith
  have hpos : 0 < h := div_pos (by linarith) hp
  have hclose : ∀ k, |localRate h2 (fun k => q (linspace t0 t1 n k)) h k - q' (linspace t0 t1 n k)| ≤ η := fun k =>
    localRate_close h01 h2 hq (fun s hs t ht hst => by
      have := hun s hs t ht (by rw [Real.dist_eq]; exact lt_of_le_of_lt hst (hstep.trans_le (min_le_left _ _)))
      rw [Real.dist_eq] at this
      exact this.le) k
  -- the sums
  set ρ := (∑ k, localRate h2 (fun k => q (linspace t0 t1 n k)) h k * A (linspace t0 t1 n k) ^ 2) / ∑ k, A (linspace t0 t1 n k) ^ 2
    with hρ
  have hS0 : 0 < ∑ k, A (linspace t0 t1 n k) ^ 2 := Finset.sum_pos (fun k _ => pow_pos (hA0 _) 2) ⟨⟨0, by omega⟩, Finset.mem_univ _⟩
  have hρ1 : |ρ - linSum t0 t1 n (fun t => q' t * A t ^ 2) / linSum t0 t1 n (fun t => A t ^ 2)| ≤ η := by
    unfold linSum
    rw [← hh, mul_div_mul_left _ _ hpos.ne', hρ, ← sub_div, ← Finset.sum_sub_distrib, abs_div, abs_of_pos hS0, div_le_iff₀ hS0,
      Finset.mul_sum]
    refine (Finset.abs_sum_le_sum_abs _ _).trans (Finset.sum_le_sum fun k _ => ?_)
    rw [← sub_mul, abs_mul, abs_of_pos (pow_pos (hA0 _) 2)]
    exact mul_le_mul_of_nonneg_right (hclose k) (by positivity)
  have hρ2 := hN1 n hn1
  rw [Real.dist_eq] at hρ2
  have hρ3 : |ρ - M / Z| < 2 * η := by
    rw [abs_lt] at *
    rw [abs_le] at hρ1
    constructor <;> linarith
  have hη1 : 3 * η ≤ ε / 1e15 := by rw [hη]; linarith [min_le_left (ε / 1e15) |M / Z|]
  have hη2 : 3 * η ≤ |M / Z| := by rw [hη]; linarith [min_le_right (ε / 1e15) |M / Z|]
  have hρ0 : ρ ≠ 0 := by
    rintro h0
    rw [h0, zero_sub, abs_neg] at hρ3
    linarith
  -- the phase is resolved
  have hph : ∀ (k : ℕ) (hk : k + 1 < n), |q (linspace t0 t1 n ⟨k + 1, hk⟩) - q (linspace t0 t1 n ⟨k, by omega⟩)| < Real.pi := by
    intro k hk
    have mem : ∀ j : Fin n, linspace t0 t1 n j ∈ Set.Icc t0 t1 := by
      intro j
      have hj : ((j : ℕ) : ℝ) ≤ (n : ℝ) - 1 := by
        have : ((j : ℕ) : ℝ) + 1 ≤ n := by exact_mod_cast j.2
        linarith
      have hend : ((n : ℝ) - 1) * h = t1 - t0 := by rw [hh]; field_simp
      unfold linspace
      rw [← hh]
      have : (0 : ℝ) ≤ (j : ℕ) := Nat.cast_nonneg _
      constructor
      · nlinarith
      · nlinarith
    have := (convex_Icc t0 t1).norm_image_sub_le_of_norm_hasDerivWithin_le (f := q) (f' := q') (C := K)
      (fun t _ => (hq t).hasDerivWithinAt) hK (mem ⟨k, by omega⟩) (mem ⟨k + 1, hk⟩)
    rw [Real.norm_eq_abs, Real.norm_eq_abs] at this
    have e : linspace t0 t1 n ⟨k + 1, hk⟩ - linspace t0 t1 n ⟨k, by omega⟩ = h := by
      unfold linspace
      rw [← hh]
      push_cast
      ring
    rw [e, abs_of_pos hpos] at this
    have hb1 : h < 1 / (K + 1) := hstep.trans_le (min_le_right _ _)
    rw [lt_div_iff₀ (by linarith)] at hb1
    have := Real.pi_gt_three
    nlinarith
  obtain ⟨P, e, hP⟩ := C145_barycenter (t := linspace t0 t1 n) ha hb h2 hx hy p r (t0 := t0) (dt := h) hpos
    (fun k => by unfold linspace; rw [hh]) (data := data) (A := fun k => A (linspace t0 t1 n k)) (ph := fun k => q (linspace t0 t1 n k))
    (fun k => hA0 _) hdata hph (w := 1e15 * ρ) (by
      rw [hρ, ← mul_div_assoc, Finset.mul_sum]
      congr 1
      refine Finset.sum_congr rfl fun k _ => ?_
      rw [localRate_scale]
      ring) (mul_ne_zero (by norm_num) hρ0)
  refine ⟨P, e, ?_⟩
  rw [hP, abs_mul, abs_of_pos (by norm_num : (0 : ℝ) < 1e15), mul_comm |M / Z|, ← mul_sub, abs_mul, abs_of_pos (by norm_num : (0 : ℝ) < 1e15)]
  have := (abs_abs_sub_abs_le ρ (M / Z)).trans_lt hρ3
  rw [le_div_iff₀ (by norm_num)] at hη1
  nlinarith

/-- C145_fine speaks about something: a chirped pulse with a Gaussian amplitude, whose frequency runs from 1 to 3 rad/fs; by
symmetry its barycenter is 2 rad/fs. -/
example {ε : ℝ} (hε : 0 < ε) : ∃ N, ∀ n, N ≤ n → ∀ (data : Fin 2 → Fin 2 → Fin n → ℂ),
    (∀ k, data 1 1 k = (Real.exp (-linspace (-1) 1 n k ^ 2) : ℝ) * exp (-I * ((2 * linspace (-1) 1 n k + linspace (-1) 1 n k ^ 2 / 2 : ℝ) : ℂ))) →
    ∃ P, fromInsight data ⟨n, linspace (-1) 1 n⟩ ⟨2, fun k => (k : ℕ)⟩ ⟨2, fun k => (k : ℕ)⟩ [1, 0] .barycenter = .ok P ∧
      |P.omega0 - 2e15| < ε := by
  have hodd : ∫ t in (-1 : ℝ)..1, t * Real.exp (-t ^ 2) ^ 2 = 0 := by
    have h := intervalIntegral.integral_comp_neg (a := -1) (b := 1) (fun t : ℝ => t * Real.exp (-t ^ 2) ^ 2)
    simp only [neg_sq, neg_mul, intervalIntegral.integral_neg, neg_neg] at h
    linarith
  have hi1 : IntervalIntegrable (fun t : ℝ => 2 * Real.exp (-t ^ 2) ^ 2) volume (-1) 1 := by
    apply Continuous.intervalIntegrable; fun_prop
  have hi2 : IntervalIntegrable (fun t : ℝ => t * Real.exp (-t ^ 2) ^ 2) volume (-1) 1 := by
    apply Continuous.intervalIntegrable; fun_prop
  have hint : ∫ t in (-1 : ℝ)..1, (2 + t) * Real.exp (-t ^ 2) ^ 2 = 2 * ∫ t in (-1 : ℝ)..1, Real.exp (-t ^ 2) ^ 2 := by
    simp only [add_mul]
    rw [intervalIntegral.integral_add hi1 hi2, hodd, add_zero, intervalIntegral.integral_const_mul]
  have hpos : 0 < ∫ t in (-1 : ℝ)..1, Real.exp (-t ^ 2) ^ 2 :=
    intervalIntegral.intervalIntegral_pos_of_pos (by apply Continuous.intervalIntegrable; fun_prop)
      (fun t => by positivity) (by norm_num)
  have hasc : Ascending (fun k : Fin 2 => ((k : ℕ) : ℝ)) := fun i j hij => Nat.cast_lt.2 hij
  obtain ⟨N, hN⟩ := C145_fine (t0 := -1) (t1 := 1) (by norm_num) (A := fun t => Real.exp (-t ^ 2)) (q := fun t => 2 * t + t ^ 2 / 2)
    (q' := fun t => 2 + t) (by fun_prop) (fun t => Real.exp_pos _) (fun t => by
      have h1 := ((hasDerivAt_id t).const_mul 2).add (((hasDerivAt_id t).pow 2).div_const 2)
      refine h1.congr_deriv ?_
      simp) (by fun_prop) (by rw [hint]; positivity) hε
  refine ⟨N, fun n hn data hd => ?_⟩
  obtain ⟨P, e, hP⟩ := hN n hn 2 2 le_rfl le_rfl _ _ hasc hasc 1 0 data hd
  refine ⟨P, e, ?_⟩
  rw [hint, mul_div_assoc, div_self hpos.ne', mul_one] at hP
  norm_num at hP ⊢
  exact hP

end Lasy
