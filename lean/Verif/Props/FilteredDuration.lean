import Verif.Props.SpectralFilter

/-!
# Property C143: the duration of a filtered pulse, and of a chirped Gaussian pulse
-/

namespace Lasy
open Spec Phys Complex MeasureTheory

variable [Phys] {s : Shape}

/-! ## Moments of a sampled pulse with a small error -/

omit [Phys] in
theorem norm_sq_diff (o e : ℂ) {W : ℝ} (hW : 0 < W) : |‖o‖ ^ 2 - ‖e‖ ^ 2| ≤ (1 + W) * ‖o - e‖ ^ 2 + 1 / W * ‖e‖ ^ 2 := by
  have h1 : |‖o‖ - ‖e‖| ≤ ‖o - e‖ := abs_norm_sub_norm_le o e
  have h0 := norm_nonneg (o - e)
  have he := norm_nonneg e
  have h2 : 2 * ‖e‖ * ‖o - e‖ ≤ W * ‖o - e‖ ^ 2 + 1 / W * ‖e‖ ^ 2 := by
    have := sq_nonneg (W * ‖o - e‖ - ‖e‖)
    have h3 : W * ‖o - e‖ ^ 2 + 1 / W * ‖e‖ ^ 2 - 2 * ‖e‖ * ‖o - e‖ = 1 / W * (W * ‖o - e‖ - ‖e‖) ^ 2 := by
      field_simp
      ring
    have h4 : 0 ≤ 1 / W * (W * ‖o - e‖ - ‖e‖) ^ 2 := by positivity
    linarith
  have h5 : |‖o‖ ^ 2 - ‖e‖ ^ 2| ≤ ‖o - e‖ ^ 2 + 2 * ‖e‖ * ‖o - e‖ := by
    rw [show ‖o‖ ^ 2 - ‖e‖ ^ 2 = (‖o‖ - ‖e‖) ^ 2 + 2 * ‖e‖ * (‖o‖ - ‖e‖) by ring]
    refine (abs_add_le _ _).trans (add_le_add ?_ ?_)
    · rw [abs_pow]
      exact pow_le_pow_left₀ (abs_nonneg _) h1 2
    · rw [abs_mul, abs_of_nonneg (by positivity : (0 : ℝ) ≤ 2 * ‖e‖)]
      exact mul_le_mul_of_nonneg_left h1 (by positivity)
  nlinarith

omit [Phys] in
/-- a pulse with a localised spectrum is continuous -/
theorem continuous_pulse {S : ℝ → ℂ} (hc : Continuous S) {w0 C : ℝ} (hS : Localised S w0 C 2) : Continuous (pulse S) := by
  have hC := hS.nonneg
  unfold pulse
  refine continuous_const.mul ?_
  refine continuous_of_dominated (bound := fun w => C * (1 + (w - w0) ^ 2)⁻¹) (fun t => ?_) (fun t => ?_) ?_ ?_
  · exact (by fun_prop : Continuous fun w : ℝ => S w * exp (-I * w * t)).aestronglyMeasurable
  · refine Filter.Eventually.of_forall fun w => ?_
    rw [norm_mul, show -I * (w : ℂ) * (t : ℂ) = ((-(w * t) : ℝ) : ℂ) * I by push_cast; ring, norm_exp_ofReal_mul_I, mul_one]
    refine (hS w).trans ?_
    rw [div_eq_mul_inv]
    refine mul_le_mul_of_nonneg_left ?_ hC
    refine inv_anti₀ (by positivity) ?_
    rw [← sq_abs (w - w0)]
    nlinarith [abs_nonneg (w - w0)]
  · exact (integrable_inv_one_add_sq.comp_sub_right w0).const_mul C
  · exact Filter.Eventually.of_forall fun w => by fun_prop

omit [Phys] in
/-- moments of a localised pulse exist -/
theorem Spec.Localised.integrable_moment {E : ℝ → ℂ} (hc : Continuous E) {t0 C : ℝ} (h : Localised E t0 C 3) {w : ℝ → ℝ}
    (hw : Continuous w) {B : ℝ} (hB : ∀ t, |w t| ≤ B * (1 + (t - t0) ^ 2)) : Integrable fun t => w t * ‖E t‖ ^ 2 := by
  have hC := h.nonneg
  have hB0 : 0 ≤ B := by
    have := (abs_nonneg _).trans (hB t0)
    simpa using this
  refine ((integrable_inv_one_add_sq.comp_sub_right t0).const_mul (B * C ^ 2)).mono' (by fun_prop)
    (Filter.Eventually.of_forall fun t => ?_)
  rw [Real.norm_eq_abs, abs_mul, abs_of_nonneg (by positivity : (0 : ℝ) ≤ ‖E t‖ ^ 2)]
  set u := |t - t0| with hu
  have hu0 : 0 ≤ u := abs_nonneg _
  have e : (t - t0) ^ 2 = u ^ 2 := (sq_abs _).symm
  have h1 : ‖E t‖ ^ 2 ≤ C ^ 2 / (1 + u ^ 2) ^ 2 := by
    have h2 : C / (1 + u) ^ 3 ≤ C / (1 + u ^ 2) := by
      refine div_le_div_of_nonneg_left hC (by positivity) ?_
      nlinarith [pow_nonneg hu0 3]
    have := pow_le_pow_left₀ (norm_nonneg _) ((h t).trans h2) 2
    rwa [div_pow] at this
  calc |w t| * ‖E t‖ ^ 2 ≤ (B * (1 + u ^ 2)) * (C ^ 2 / (1 + u ^ 2) ^ 2) :=
        mul_le_mul (by rw [← e]; exact hB t) h1 (by positivity) (by positivity)
    _ = B * C ^ 2 * (1 + (t - t0) ^ 2)⁻¹ := by
        rw [e]
        field_simp

omit [Phys] in
/-- a moment of samples that differ little from those of a localised pulse -/
theorem moment_close {E : ℝ → ℂ} (hc : Continuous E) {t0 C : ℝ} (h : Localised E t0 C 3) {w : ℝ → ℝ} (hw : Continuous w)
    {B : ℝ} (hB : ∀ t, |w t| ≤ B * (1 + (t - t0) ^ 2)) {K1 K2 : ℝ} (hK2 : 0 ≤ K2) {δ : ℝ} (hδ : 0 < δ) :
    ∃ W0 : ℝ, 1 ≤ W0 ∧ ∀ W ≥ W0, ∃ n : ℕ, ∀ N ≥ n, ∀ o : Fin N → ℂ,
      2 * W / ((N : ℝ) - 1) * ∑ k, ‖o k - E (linspace (t0 - W) (t0 + W) N k)‖ ^ 2 ≤
        K2 / W ^ 5 + K1 * (2 * W / ((N : ℝ) - 1)) ^ 5 →
      |2 * W / ((N : ℝ) - 1) * ∑ k, w (linspace (t0 - W) (t0 + W) N k) * ‖o k‖ ^ 2 - ∫ t, w t * ‖E t‖ ^ 2| ≤ δ := by
  have hB0 : 0 ≤ B := by
    have := (abs_nonneg _).trans (hB t0)
    simpa using this
  have hI := h.integrable_moment hc hw hB
  have hJ := h.integrable_moment hc (w := fun t => 1 + (t - t0) ^ 2) (by fun_prop) (B := 1) (fun t => by
    rw [one_mul, abs_of_nonneg (by positivity)])
  set J := ∫ t, (1 + (t - t0) ^ 2) * ‖E t‖ ^ 2 with hJd
  have hJ0 : 0 ≤ J := integral_nonneg fun t => by positivity
  -- the windows
  have w1 : ∀ᶠ W : ℝ in Filter.atTop, |(∫ t in (t0 - W)..(t0 + W), w t * ‖E t‖ ^ 2) - ∫ t, w t * ‖E t‖ ^ 2| < δ / 4 := by
    have := intervalIntegral_tendsto_integral hI (a := fun W : ℝ => t0 - W) (b := fun W : ℝ => t0 + W) (l := Filter.atTop)
      (Filter.tendsto_atBot_add_const_left _ _ Filter.tendsto_neg_atTop_atBot)
      (Filter.tendsto_atTop_add_const_left _ _ Filter.tendsto_id)
    have := this.eventually (Metric.ball_mem_nhds _ (by positivity : 0 < δ / 4))
    simpa [Real.dist_eq] using this
  obtain ⟨Wa, hWa⟩ := Filter.eventually_atTop.1 w1
  set W0 : ℝ := max (max 1 Wa) (max (16 * B * K2 / δ) (8 * B * (J + 1) / δ)) with hW0
  refine ⟨W0, (le_max_left _ _).trans (le_max_left _ _), fun W hW => ?_⟩
  have hW1 : 1 ≤ W := ((le_max_left _ _).trans (le_max_left _ _)).trans hW
  have hWA : Wa ≤ W := ((le_max_right _ _).trans (le_max_left _ _)).trans hW
  have hWB : 16 * B * K2 / δ ≤ W := ((le_max_left _ _).trans (le_max_right _ _)).trans hW
  have hWJ : 8 * B * (J + 1) / δ ≤ W := ((le_max_right _ _).trans (le_max_right _ _)).trans hW
  have hWp : 0 < W := by linarith
  have hwin := hWa W hWA
  have hab : t0 - W ≤ t0 + W := by linarith
  have n1 := (linSum_tendsto hab (G := fun t => w t * ‖E t‖ ^ 2) (by fun_prop)).eventually
    (Metric.ball_mem_nhds _ (by positivity : 0 < δ / 4))
  have n2 := (linSum_tendsto hab (G := fun t => (1 + (t - t0) ^ 2) * ‖E t‖ ^ 2) (by fun_prop)).eventually
    (Metric.ball_mem_nhds _ one_pos)
  have n3 := (step_tendsto W (B * ((1 + W ^ 2) * (1 + W)) * K1) 5 (by norm_num)).eventually
    (gt_mem_nhds (by positivity : 0 < δ / 8))
  obtain ⟨n, hn⟩ := Filter.eventually_atTop.1 (n1.and (n2.and n3))
  refine ⟨max n 2, fun N hN o ho => ?_⟩
  obtain ⟨m1, m2, m3⟩ := hn N ((le_max_left _ _).trans hN)
  have hN2 : (2 : ℝ) ≤ N := by exact_mod_cast (le_max_right _ _).trans hN
  set dt := 2 * W / ((N : ℝ) - 1) with hdt
  have hdt0 : 0 < dt := div_pos (by linarith) (by linarith)
  have hlin : ∀ G : ℝ → ℝ, linSum (t0 - W) (t0 + W) N G = dt * ∑ k, G (linspace (t0 - W) (t0 + W) N k) := by
    intro G
    rw [linSum, hdt]
    congr 2
    ring
  set t : Fin N → ℝ := linspace (t0 - W) (t0 + W) N with ht
  have hu : ∀ k, |t k - t0| ≤ W := by
    intro k
    have hk : ((k : ℕ) : ℝ) ≤ N - 1 := by
      have : (k : ℕ) + 1 ≤ N := k.2
      have : ((k : ℕ) : ℝ) + 1 ≤ N := by exact_mod_cast this
      linarith
    have hk0 : (0 : ℝ) ≤ (k : ℕ) := Nat.cast_nonneg _
    have e1 : t k = t0 - W + (k : ℕ) * dt := by
      rw [ht, hdt]
      show t0 - W + (k : ℕ) * ((t0 + W - (t0 - W)) / ((N : ℝ) - 1)) = _
      congr 3
      ring
    have e2 : dt * ((N : ℝ) - 1) = 2 * W := by rw [hdt, div_mul_cancel₀ _ (by linarith)]
    rw [e1, abs_le]
    constructor <;> nlinarith
  simp only [hlin, Real.dist_eq] at m1 m2 m3
  have hJW : (∫ x in (t0 - W)..(t0 + W), (1 + (x - t0) ^ 2) * ‖E x‖ ^ 2) ≤ J := by
    rw [intervalIntegral.integral_of_le hab]
    exact setIntegral_le_integral hJ (Filter.Eventually.of_forall fun x => by positivity)
  have hJ1 : dt * ∑ k, (1 + (t k - t0) ^ 2) * ‖E (t k)‖ ^ 2 ≤ J + 1 := by
    have := (abs_lt.1 m2).2
    linarith
  -- the difference of the two sums
  have hdiff : |dt * ∑ k, w (t k) * ‖o k‖ ^ 2 - dt * ∑ k, w (t k) * ‖E (t k)‖ ^ 2| ≤
      B * ((1 + W ^ 2) * (1 + W)) * (dt * ∑ k, ‖o k - E (t k)‖ ^ 2) +
        B / W * (dt * ∑ k, (1 + (t k - t0) ^ 2) * ‖E (t k)‖ ^ 2) := by
    rw [← mul_sub, ← Finset.sum_sub_distrib, abs_mul, abs_of_pos hdt0]
    rw [show B * ((1 + W ^ 2) * (1 + W)) * (dt * ∑ k, ‖o k - E (t k)‖ ^ 2) +
        B / W * (dt * ∑ k, (1 + (t k - t0) ^ 2) * ‖E (t k)‖ ^ 2) = dt * ∑ k, (B * ((1 + W ^ 2) * (1 + W)) * ‖o k - E (t k)‖ ^ 2 +
          B / W * ((1 + (t k - t0) ^ 2) * ‖E (t k)‖ ^ 2)) by
      rw [Finset.sum_add_distrib, ← Finset.mul_sum, ← Finset.mul_sum]; ring]
    refine mul_le_mul_of_nonneg_left ?_ hdt0.le
    refine (Finset.abs_sum_le_sum_abs _ _).trans (Finset.sum_le_sum fun k _ => ?_)
    rw [← mul_sub, abs_mul]
    have h1 := norm_sq_diff (o k) (E (t k)) hWp
    have h2 : (t k - t0) ^ 2 ≤ W ^ 2 := by
      rw [← sq_abs]
      exact pow_le_pow_left₀ (abs_nonneg _) (hu k) 2
    calc |w (t k)| * |‖o k‖ ^ 2 - ‖E (t k)‖ ^ 2|
        ≤ B * (1 + (t k - t0) ^ 2) * ((1 + W) * ‖o k - E (t k)‖ ^ 2 + 1 / W * ‖E (t k)‖ ^ 2) :=
          mul_le_mul (hB _) h1 (abs_nonneg _) (by positivity)
      _ = B * (1 + (t k - t0) ^ 2) * ((1 + W) * ‖o k - E (t k)‖ ^ 2) + B / W * ((1 + (t k - t0) ^ 2) * ‖E (t k)‖ ^ 2) := by
          ring
      _ ≤ _ := by
          refine add_le_add ?_ le_rfl
          rw [show B * ((1 + W ^ 2) * (1 + W)) * ‖o k - E (t k)‖ ^ 2 = B * (1 + W ^ 2) * ((1 + W) * ‖o k - E (t k)‖ ^ 2) by ring]
          refine mul_le_mul_of_nonneg_right ?_ (by positivity)
          exact mul_le_mul_of_nonneg_left (by linarith) hB0
  have hb1 : B * ((1 + W ^ 2) * (1 + W)) * (dt * ∑ k, ‖o k - E (t k)‖ ^ 2) ≤ δ / 4 + δ / 8 := by
    have hq : 0 ≤ B * ((1 + W ^ 2) * (1 + W)) := by positivity
    refine (mul_le_mul_of_nonneg_left ho hq).trans ?_
    rw [mul_add]
    refine add_le_add ?_ (by rw [← mul_assoc]; exact m3.le)
    rw [div_le_iff₀ hδ] at hWB
    have h1 : (1 + W ^ 2) * (1 + W) ≤ 4 * W ^ 3 := by nlinarith [sq_nonneg W, pow_pos hWp 3, mul_pos hWp hWp]
    have h2 : W ^ 3 / W ^ 5 ≤ 1 / W := by
      rw [div_le_div_iff₀ (by positivity) hWp]
      have : W ^ 4 ≤ W ^ 5 := pow_le_pow_right₀ hW1 (by norm_num)
      nlinarith
    calc B * ((1 + W ^ 2) * (1 + W)) * (K2 / W ^ 5) ≤ B * (4 * W ^ 3) * (K2 / W ^ 5) := by
          refine mul_le_mul_of_nonneg_right (mul_le_mul_of_nonneg_left h1 hB0) (by positivity)
      _ = 4 * B * K2 * (W ^ 3 / W ^ 5) := by ring
      _ ≤ 4 * B * K2 * (1 / W) := mul_le_mul_of_nonneg_left h2 (by positivity)
      _ ≤ δ / 4 := by
          rw [mul_one_div, div_le_iff₀ hWp]
          linarith
  have hb2 : B / W * (dt * ∑ k, (1 + (t k - t0) ^ 2) * ‖E (t k)‖ ^ 2) ≤ δ / 8 := by
    refine (mul_le_mul_of_nonneg_left hJ1 (by positivity)).trans ?_
    rw [div_le_iff₀ hδ] at hWJ
    rw [div_mul_eq_mul_div, div_le_iff₀ hWp]
    linarith
  have h3 := abs_sub_le (dt * ∑ k, w (t k) * ‖o k‖ ^ 2) (dt * ∑ k, w (t k) * ‖E (t k)‖ ^ 2) (∫ t, w t * ‖E t‖ ^ 2)
  have h4 := abs_sub_le (dt * ∑ k, w (t k) * ‖E (t k)‖ ^ 2) (∫ x in (t0 - W)..(t0 + W), w x * ‖E x‖ ^ 2) (∫ t, w t * ‖E t‖ ^ 2)
  linarith

/-! ## The duration of a filtered pulse -/

/-- the duration of a field that is a product of a transverse and a longitudinal part -/
theorem duration_product {l : Laser s} {A : Fin s.n0 → Fin s.n1 → ℂ} {o : Fin s.nt → ℂ}
    (hA : l.Has fun i j k => A i j * o k) (hW : ∑ i, ∑ j, ‖A i j‖ ^ 2 * l.grid.cellVolume j ≠ 0) (ho : ∑ k, ‖o k‖ ^ 2 ≠ 0)
    (m : ℝ) :
    (getDuration l.grid).1 = .ok (Real.sqrt ((∑ k, (l.grid.t.pts k - m) ^ 2 * ‖o k‖ ^ 2) / (∑ k, ‖o k‖ ^ 2) -
      ((∑ k, l.grid.t.pts k * ‖o k‖ ^ 2) / (∑ k, ‖o k‖ ^ 2) - m) ^ 2)) := by
  set W := ∑ i, ∑ j, ‖A i j‖ ^ 2 * l.grid.cellVolume j with hWd
  have hP : ∀ k, ∑ i, ∑ j, ‖A i j * o k‖ ^ 2 * l.grid.cellVolume j = W * ‖o k‖ ^ 2 := by
    intro k
    rw [hWd, Finset.sum_mul]
    refine Finset.sum_congr rfl fun i _ => ?_
    rw [Finset.sum_mul]
    refine Finset.sum_congr rfl fun j _ => ?_
    rw [norm_mul]
    ring
  obtain ⟨mean', hm', hD⟩ := C56_duration_is_rms hA (fun k => W * ‖o k‖ ^ 2) (fun k => (hP k).symm)
    (by rw [← Finset.mul_sum]; exact mul_ne_zero hW ho)
  have pull : ∀ w : Fin s.nt → ℝ, ∑ k, w k * (W * ‖o k‖ ^ 2) = W * ∑ k, w k * ‖o k‖ ^ 2 := by
    intro w
    rw [Finset.mul_sum]
    exact Finset.sum_congr rfl fun k _ => by ring
  rw [pull, ← Finset.mul_sum, mul_div_mul_left _ _ hW] at hm'
  rw [hD, pull, ← Finset.mul_sum, mul_div_mul_left _ _ hW, hm', variance_about _ _ m ho]

set_option maxHeartbeats 1000000 in
/-- a pulse with the longitudinal spectrum `S` behind an element that multiplies the spectrum by `T` at every position: the field is
the same transverse profile times samples `o` with a small error -/
theorem filtered_samples {S T : ℝ → ℂ} (hc : Continuous S) (hc' : Continuous fun w => T w * S w) {t0 M C1 C2 C3 : ℝ}
    (hM : ∀ w, ‖T w‖ ≤ M) {q : ℕ} (hq : 2 ≤ q) (hS : Localised S 0 C1 q) (hE : Localised (pulse S) t0 C2 q)
    (hE' : Localised (pulse fun w => T w * S w) t0 C3 q) {W : ℝ} (hWp : 0 < W)
    {dim : String} {lo hi : List ℝ} {np : List ℕ} {p : ProfileObj} {m N : Option ℕ} {l : Laser s}
    {trans : ℝ → ℝ → ℂ} (el : OpticalElement) (h : Laser.init dim lo hi np p m N = .ok ⟨s, l⟩)
    (ha : lo.getLast? = some (t0 - W)) (hb : hi.getLast? = some (t0 + W))
    (hF : p.Pointwise fun x y t => trans x y * pulse S t) (hel : ∀ x y w, el.mult x y (p.omega0 + w) p.omega0 = T w) :
    ∃ (At : Fin s.n0 → Fin s.n1 → ℂ) (o : Fin s.nt → ℂ) (l' : Laser s), (l.Has fun i j k => At i j * pulse S (l.grid.t.pts k)) ∧
      Laser.applyOptics el l = (.ok (), l') ∧ (l'.Has fun i j k => At i j * o k) ∧ l'.grid.geom = l.grid.geom ∧
      l'.grid.t = l.grid.t ∧ 0 < l.grid.t.dx ∧ l.grid.t.dx = 2 * W / ((s.nt : ℝ) - 1) ∧
      l.grid.t.dx * ∑ k, ‖o k - pulse (fun w => T w * S w) (l.grid.t.pts k)‖ ^ 2 ≤
        2 * (3 * zeta2 ^ 2 * (M ^ 2 * C2 ^ 2 + C3 ^ 2)) / W ^ (2 * q - 1) +
          3 * zeta2 ^ 2 * (4 * M ^ 2 * C1 ^ 2) * l.grid.t.dx ^ (2 * q - 1) := by
  obtain ⟨h2, hd, hpts⟩ := init_time_step h ha hb
  obtain ⟨-, -, -, -, -, -, hprof, -, -, hom⟩ := Laser.init_facts h
  obtain ⟨At, hAt⟩ := init_separable h trans (pulse S) hF
  obtain ⟨l', e, h', hgeom, htax, -⟩ := C19_apply_optics l _ hAt el
  have hn : (2 : ℝ) ≤ s.nt := by exact_mod_cast h2
  have hd' : l.grid.t.dx = 2 * W / ((s.nt : ℝ) - 1) := by rw [hd]; ring
  have hdx : l.grid.t.dx * ((s.nt : ℝ) - 1) = 2 * W := by rw [hd', div_mul_cancel₀ _ (by linarith)]
  have hpos : 0 < l.grid.t.dx := by
    rw [hd']
    exact div_pos (by linarith) (by linarith)
  have hT : ∀ i j k, Tat l el i j k = T (2 * Real.pi * fftfreq s.nt l.grid.t.dx k) := by
    intro i j k
    simp only [Tat, hom, hprof]
    cases l.grid.geom <;> simp only [add_comm _ p.omega0, hel]
  set o : Fin s.nt → ℂ := fft fun k => ifft (fun k : Fin s.nt => pulse S (l.grid.t.pts k)) k *
    T (2 * Real.pi * fftfreq s.nt l.grid.t.dx k) with ho
  have hfield : (dft fun i j k => idft (fun i j k => At i j * pulse S (l.grid.t.pts k)) i j k * Tat l el i j k) =
      fun i j k => At i j * o k := by
    rw [dft_eq, idft_eq]
    funext i j k
    simp only [hT, ifft_smul, mul_assoc, fft_smul, ho]
  rw [hfield] at h'
  refine ⟨At, o, l', hAt, e, h', hgeom, htax, hpos, hd', ?_⟩
  have key := filter_error hc hc' hM hq hS hE hE' hpos (N := s.nt) (by omega) (t0 - W) (fun k => by
    have hk : ((k : ℕ) : ℝ) ≤ s.nt - 1 := by
      have : (k : ℕ) + 1 ≤ s.nt := k.2
      have : ((k : ℕ) : ℝ) + 1 ≤ s.nt := by exact_mod_cast this
      linarith
    have hk0 : (0 : ℝ) ≤ (k : ℕ) := Nat.cast_nonneg _
    rw [abs_le]
    constructor <;> nlinarith)
  have hP : 2 * W ≤ s.nt * l.grid.t.dx := by nlinarith
  have hfin := filter_bound (A := 3 * zeta2 ^ 2 * (M ^ 2 * C2 ^ 2 + C3 ^ 2)) (B := 3 * zeta2 ^ 2 * (4 * M ^ 2 * C1 ^ 2))
    (by positivity) (by positivity) hWp hP hpos (q := q) (by omega)
  refine le_trans (le_of_eq ?_) (key.trans (le_trans (le_of_eq ?_) hfin))
  · congr 1
    refine Finset.sum_congr rfl fun k _ => ?_
    simp only [ho, hpts]
  · ring

/-- **C142** (separable pulses). A pulse with the longitudinal spectrum `S` and any transverse profile goes through an element
that multiplies the spectrum by `T` at every position: in all windows around `t0` that are large enough and with enough points in
time, the field afterwards is the same transverse profile times samples whose mean square distance from those of the pulse with
the spectrum `T S` is at most `ε`. -/
theorem C142_separable (S T : ℝ → ℂ) (hc : Continuous S) (hc' : Continuous fun w => T w * S w) (t0 M C1 C2 C3 : ℝ)
    (hM : ∀ w, ‖T w‖ ≤ M) (hS : Localised S 0 C1 2) (hE : Localised (pulse S) t0 C2 2)
    (hE' : Localised (pulse fun w => T w * S w) t0 C3 2) {ε : ℝ} (hε : 0 < ε) :
    ∃ W0 : ℝ, 0 < W0 ∧ ∀ W ≥ W0, ∃ n : ℕ,
    ∀ {s : Shape} {dim : String} {lo hi : List ℝ} {np : List ℕ} {p : ProfileObj} {m N : Option ℕ} {l : Laser s}
      {trans : ℝ → ℝ → ℂ} (el : OpticalElement), Laser.init dim lo hi np p m N = .ok ⟨s, l⟩ →
      lo.getLast? = some (t0 - W) → hi.getLast? = some (t0 + W) → n ≤ s.nt →
      p.Pointwise (fun x y t => trans x y * pulse S t) →
      (∀ x y w, el.mult x y (p.omega0 + w) p.omega0 = T w) →
      ∃ (At : Fin s.n0 → Fin s.n1 → ℂ) (o : Fin s.nt → ℂ) (l' : Laser s),
        (l.Has fun i j k => At i j * pulse S (l.grid.t.pts k)) ∧
        Laser.applyOptics el l = (.ok (), l') ∧ (l'.Has fun i j k => At i j * o k) ∧
        l.grid.t.dx * ∑ k, ‖o k - pulse (fun w => T w * S w) (l.grid.t.pts k)‖ ^ 2 ≤ ε := by
  set A : ℝ := 3 * zeta2 ^ 2 * (M ^ 2 * C2 ^ 2 + C3 ^ 2) with hA
  set B : ℝ := 3 * zeta2 ^ 2 * (4 * M ^ 2 * C1 ^ 2) with hB
  have hA0 : 0 ≤ A := by positivity
  refine ⟨max 1 (4 * A / ε), by positivity, fun W hW => ?_⟩
  have hW1 : 1 ≤ W := (le_max_left _ _).trans hW
  have hW2 : 4 * A / ε ≤ W := (le_max_right _ _).trans hW
  have hW0 : 0 < W := by linarith
  obtain ⟨n, hn⟩ := Filter.eventually_atTop.1 ((step_tendsto W B 3 (by norm_num)).eventually (gt_mem_nhds (half_pos hε)))
  refine ⟨n, fun {s dim lo hi np p m N l trans} el h ha hb hs hF hel => ?_⟩
  obtain ⟨At, o, l', hAt, e, h', -, -, hpos, hd', herr⟩ := filtered_samples hc hc' hM le_rfl hS hE hE' hW0 el h ha hb hF hel
  refine ⟨At, o, l', hAt, e, h', herr.trans ?_⟩
  have hstep := hn s.nt hs
  rw [← hd'] at hstep
  have h1 : 2 * A / W ^ (2 * 2 - 1) ≤ ε / 2 := by
    rw [div_le_iff₀ (by positivity)]
    rw [div_le_iff₀ hε] at hW2
    have : W ≤ W ^ 3 := by nlinarith [sq_nonneg (W - 1), sq_nonneg W]
    norm_num
    nlinarith
  norm_num at h1 ⊢
  linarith

set_option maxHeartbeats 1000000 in
/-- **C143** (any filter). A pulse with the longitudinal spectrum `S` passes an element that multiplies the spectrum by `T` at
every position. In every window around `t0` that is large enough and with enough points in time, `get_duration` then returns, up
to any given error, the root mean square duration of the pulse with the spectrum `T S`, whatever the transverse profile, the
transverse grid, the geometry, the modes and the energy are. -/
theorem C143_filtered (S T : ℝ → ℂ) (hc : Continuous S) (hc' : Continuous fun w => T w * S w) (t0 M C1 C2 C3 : ℝ)
    (hM : ∀ w, ‖T w‖ ≤ M) (hS : Localised S 0 C1 3) (hE : Localised (pulse S) t0 C2 3)
    (hE' : Localised (pulse fun w => T w * S w) t0 C3 3) (total mean : ℝ)
    (htotal : total = ∫ t, ‖pulse (fun w => T w * S w) t‖ ^ 2) (hnz : total ≠ 0)
    (hmean : mean = (∫ t, t * ‖pulse (fun w => T w * S w) t‖ ^ 2) / total) {ε : ℝ} (hε : 0 < ε) :
    ∃ W0 : ℝ, 0 < W0 ∧ ∀ W ≥ W0, ∃ n : ℕ,
    ∀ {s : Shape} {dim : String} {lo hi : List ℝ} {np : List ℕ} {p : ProfileObj} {m N : Option ℕ} {l : Laser s}
      {trans : ℝ → ℝ → ℂ} {E : ℝ} (el : OpticalElement), Laser.init dim lo hi np p m N = .ok ⟨s, l⟩ →
      lo.getLast? = some (t0 - W) → hi.getLast? = some (t0 + W) → n ≤ s.nt →
      p.Pointwise (fun x y t => trans x y * pulse S t) → l.energy = .ok E → E ≠ 0 →
      (∀ x y w, el.mult x y (p.omega0 + w) p.omega0 = T w) →
      ∃ (l' : Laser s) (D : ℝ), Laser.applyOptics el l = (.ok (), l') ∧ (getDuration l'.grid).1 = .ok D ∧
        |D - Real.sqrt ((∫ t, (t - mean) ^ 2 * ‖pulse (fun w => T w * S w) t‖ ^ 2) / total)| ≤ ε := by
  set Lo := pulse fun w => T w * S w with hLo
  have hM0 : 0 ≤ M := (norm_nonneg _).trans (hM 0)
  have hC1 := hS.nonneg
  have hLc : Continuous Lo := by
    refine continuous_pulse hc' (w0 := 0) (C := M * C1) fun w => ?_
    rw [norm_mul, mul_div_assoc]
    exact mul_le_mul (hM w) ((hS.mono (by norm_num : 2 ≤ 3)) w) (norm_nonneg _) hM0
  set A : ℝ := 3 * zeta2 ^ 2 * (M ^ 2 * C2 ^ 2 + C3 ^ 2) with hA
  set B : ℝ := 3 * zeta2 ^ 2 * (4 * M ^ 2 * C1 ^ 2) with hB
  have hA0 : 0 ≤ A := by positivity
  have hB0 : 0 ≤ B := by positivity
  -- how close the moments must be
  have hcont := (rms_tendsto (L := nhds (total, (∫ t, t * ‖Lo t‖ ^ 2), (∫ t, (t - mean) ^ 2 * ‖Lo t‖ ^ 2)))
    (A0 := fun q : ℝ × ℝ × ℝ => q.1) (A1 := fun q => q.2.1) (A2 := fun q => q.2.2) hnz
    (continuous_fst.tendsto _) ((continuous_fst.comp continuous_snd).tendsto _)
    ((continuous_snd.comp continuous_snd).tendsto _)).eventually (Metric.closedBall_mem_nhds _ hε)
  have hne : ∀ᶠ q : ℝ × ℝ × ℝ in nhds (total, (∫ t, t * ‖Lo t‖ ^ 2), (∫ t, (t - mean) ^ 2 * ‖Lo t‖ ^ 2)), q.1 ≠ 0 :=
    (continuous_fst.tendsto _).eventually_ne hnz
  obtain ⟨δ, hδ, hball⟩ := Metric.eventually_nhds_iff.1 (hcont.and hne)
  have hδ2 := half_pos hδ
  obtain ⟨Wa, hWa, ka⟩ := moment_close hLc hE' (w := fun _ => 1) continuous_const (B := 1) (fun t => by
    rw [abs_one]; nlinarith [sq_nonneg (t - t0)]) (K1 := B) (K2 := 2 * A) (by positivity) hδ2
  obtain ⟨Wb, hWb, kb⟩ := moment_close hLc hE' (w := fun t => t) continuous_id (B := |t0| + 1) (fun t => by
    have h1 : |t| ≤ |t0| + |t - t0| := by
      have := abs_add_le t0 (t - t0)
      rwa [add_sub_cancel] at this
    rw [← sq_abs (t - t0)]
    nlinarith [abs_nonneg t0, abs_nonneg (t - t0), sq_nonneg (|t - t0| - 1), mul_nonneg (abs_nonneg t0) (sq_nonneg |t - t0|)])
    (K1 := B) (K2 := 2 * A) (by positivity) hδ2
  obtain ⟨Wc, hWc, kc⟩ := moment_close hLc hE' (w := fun t => (t - mean) ^ 2) (by fun_prop) (B := 2 * (t0 - mean) ^ 2 + 2) (fun t => by
    rw [abs_of_nonneg (by positivity)]
    nlinarith [sq_nonneg (t - t0 - (t0 - mean)), mul_nonneg (sq_nonneg (t0 - mean)) (sq_nonneg (t - t0))])
    (K1 := B) (K2 := 2 * A) (by positivity) hδ2
  refine ⟨max Wa (max Wb Wc), by positivity, fun W hW => ?_⟩
  have hWp : 0 < W := by linarith [(le_max_left Wa _).trans hW]
  obtain ⟨na, ka⟩ := ka W ((le_max_left _ _).trans hW)
  obtain ⟨nb, kb⟩ := kb W (((le_max_left _ _).trans (le_max_right _ _)).trans hW)
  obtain ⟨nc, kc⟩ := kc W (((le_max_right _ _).trans (le_max_right _ _)).trans hW)
  refine ⟨max na (max nb nc), fun {s dim lo hi np p m N l trans E} el h ha hb hs hF hEn hE0 hel => ?_⟩
  have hax := init_time_axis h ha hb
  obtain ⟨At, o, l', hAt, e, h', hgeom, htax, hpos, hd', herr⟩ :=
    filtered_samples hc hc' hM (by norm_num : 2 ≤ 3) hS hE hE' hWp el h ha hb hF hel
  norm_num at herr
  rw [← hA, ← hB, hax, hd'] at herr
  have ra := ka s.nt ((le_max_left _ _).trans hs) o herr
  have rb := kb s.nt (((le_max_left _ _).trans (le_max_right _ _)).trans hs) o herr
  have rc := kc s.nt (((le_max_right _ _).trans (le_max_right _ _)).trans hs) o herr
  simp only [one_mul] at ra
  rw [← hax, ← hd'] at rb rc
  rw [← hd'] at ra
  have hfin := hball (y := (l.grid.t.dx * ∑ k, ‖o k‖ ^ 2, l.grid.t.dx * ∑ k, l.grid.t.pts k * ‖o k‖ ^ 2,
      l.grid.t.dx * ∑ k, (l.grid.t.pts k - mean) ^ 2 * ‖o k‖ ^ 2)) (by
    rw [Prod.dist_eq, Prod.dist_eq]
    simp only [Real.dist_eq, max_lt_iff]
    rw [htotal]
    exact ⟨ra.trans_lt (by linarith), rb.trans_lt (by linarith), rc.trans_lt (by linarith)⟩)
  simp only [mul_div_mul_left _ _ hpos.ne', Real.dist_eq, Function.comp_apply, ← hmean] at hfin
  have ho0 : ∑ k, ‖o k‖ ^ 2 ≠ 0 := right_ne_zero_of_mul hfin.2
  have hcv : l'.grid.cellVolume = l.grid.cellVolume := by
    unfold Grid.cellVolume
    rw [hgeom, htax]
  have hWS : ∑ i, ∑ j, ‖At i j‖ ^ 2 * l'.grid.cellVolume j ≠ 0 := by
    intro h0
    rw [hcv] at h0
    have e := hAt.energy
    rw [hEn] at e
    apply hE0
    rw [Except.ok.inj e]
    have : ∑ i, ∑ j, ∑ k, l.grid.cellVolume j * ‖At i j * pulse S (l.grid.t.pts k)‖ ^ 2 = 0 := by
      have : ∑ i, ∑ j, ∑ k, l.grid.cellVolume j * ‖At i j * pulse S (l.grid.t.pts k)‖ ^ 2 =
          (∑ i, ∑ j, ‖At i j‖ ^ 2 * l.grid.cellVolume j) * ∑ k, ‖pulse S (l.grid.t.pts k)‖ ^ 2 := by
        rw [Finset.sum_mul]
        refine Finset.sum_congr rfl fun i _ => ?_
        rw [Finset.sum_mul]
        refine Finset.sum_congr rfl fun j _ => ?_
        rw [Finset.mul_sum]
        exact Finset.sum_congr rfl fun k _ => by rw [norm_mul]; ring
      rw [this, h0, zero_mul]
    rw [this, mul_zero]
  refine ⟨l', _, e, duration_product h' hWS ho0 mean, ?_⟩
  rw [htax]
  exact hfin.1

/-! ## The chirped Gaussian pulse -/

omit [Phys] in
theorem Spec.Localised.recenter {f : ℝ → ℂ} {t1 C : ℝ} {p : ℕ} (h : Localised f t1 C p) (t0 : ℝ) :
    Localised f t0 (C * (1 + |t1 - t0|) ^ p) p := by
  intro t
  have hC := h.nonneg
  have h1 : 1 + |t - t0| ≤ (1 + |t - t1|) * (1 + |t1 - t0|) := by
    have := abs_sub_le t t1 t0
    nlinarith [mul_nonneg (abs_nonneg (t - t1)) (abs_nonneg (t1 - t0))]
  have h2 := pow_le_pow_left₀ (by positivity) h1 p
  refine (h t).trans ?_
  rw [div_le_div_iff₀ (by positivity) (by positivity)]
  rw [mul_pow] at h2
  calc C * (1 + |t - t0|) ^ p ≤ C * ((1 + |t - t1|) ^ p * (1 + |t1 - t0|) ^ p) := mul_le_mul_of_nonneg_left h2 hC
    _ = _ := by ring

omit [Phys] in
theorem gaussian_localised {b K t1 : ℝ} (hb : 0 < b) (hK : 0 ≤ K) {f : ℝ → ℂ} (hf : ∀ t, ‖f t‖ ≤ K * Real.exp (-(b * (t - t1) ^ 2))) :
    Localised f t1 (K * (8 * (1 + 2 / b ^ 2))) 3 := by
  intro t
  refine (hf t).trans ?_
  rw [mul_div_assoc]
  refine mul_le_mul_of_nonneg_left ?_ hK
  set u := |t - t1| with hu
  have hu0 : 0 ≤ u := abs_nonneg _
  have e : (t - t1) ^ 2 = u ^ 2 := (sq_abs _).symm
  rw [e, Real.exp_neg, inv_eq_one_div, div_le_div_iff₀ (Real.exp_pos _) (by positivity), one_mul]
  have h1 := Real.quadratic_le_exp_of_nonneg (by positivity : 0 ≤ b * u ^ 2)
  have h2 : (1 + u) ^ 3 ≤ 8 * (1 + u ^ 4) := by
    nlinarith [sq_nonneg (u - 1), sq_nonneg (u ^ 2 - 1), sq_nonneg (u ^ 2 - u), mul_nonneg hu0 (sq_nonneg (u - 1))]
  have h3 : 8 * (1 + u ^ 4) ≤ 8 * (1 + 2 / b ^ 2) * (1 + b ^ 2 * u ^ 4 / 2) := by
    have : 8 * (1 + 2 / b ^ 2) * (1 + b ^ 2 * u ^ 4 / 2) = 8 * (1 + u ^ 4) + 8 * (2 / b ^ 2) + 8 * (b ^ 2 * u ^ 4 / 2) := by
      field_simp
      ring
    rw [this]
    have h4 : 0 ≤ 8 * (2 / b ^ 2) := by positivity
    have h5 : 0 ≤ 8 * (b ^ 2 * u ^ 4 / 2) := by positivity
    linarith
  refine h2.trans (h3.trans (mul_le_mul_of_nonneg_left ?_ (by positivity)))
  have h6 : (b * u ^ 2) ^ 2 / 2 = b ^ 2 * u ^ 4 / 2 := by ring
  have h7 : 0 ≤ b * u ^ 2 := by positivity
  linarith

/-- the Gaussian pulse, its spectrum and the chirped pulse are localised -/
theorem gaussian_facts (wavelength tau tPeak cep gdd t0 : ℝ) (htau : 0 < tau) :
    ∃ (S T : ℝ → ℂ) (C1 C2 C3 : ℝ) (A : ℂ), gaussianLong wavelength tau tPeak cep = pulse S ∧
      (∀ x y w, (polynomialSpectralPhase gdd 0 0).mult x y (2 * Real.pi * c / wavelength + w) (2 * Real.pi * c / wavelength) = T w) ∧
      Continuous S ∧ (Continuous fun w => T w * S w) ∧ (∀ w, ‖T w‖ ≤ 1) ∧ Localised S 0 C1 3 ∧ Localised (pulse S) t0 C2 3 ∧
      Localised (pulse fun w => T w * S w) t0 C3 3 ∧ ‖A‖ ^ 2 = tau / (tau * Real.sqrt (1 + (2 * gdd / tau ^ 2) ^ 2)) ∧
      ∀ t, pulse (fun w => T w * S w) t =
        A * (Real.exp (-((t - tPeak) ^ 2 / (tau * Real.sqrt (1 + (2 * gdd / tau ^ 2) ^ 2)) ^ 2)) : ℝ) *
        exp (-I * ((2 * gdd / (tau ^ 4 + 4 * gdd ^ 2) * (t - tPeak) ^ 2 : ℝ) : ℂ)) := by
  have hpi := Real.pi_pos
  set om : ℝ := 2 * Real.pi * c / wavelength with hom
  set S : ℝ → ℂ := fun w => exp (I * (cep + om * tPeak : ℝ)) *
    ((tau * Real.sqrt Real.pi : ℝ) * exp (-((tau ^ 2 * w ^ 2 / 4 : ℝ) : ℂ)) * exp (I * w * tPeak)) with hSd
  set T : ℝ → ℂ := fun w => (polynomialSpectralPhase gdd 0 0).mult 0 0 (om + w) om with hTd
  have hTe : ∀ w, T w = exp (((gdd / 2 * w ^ 2 : ℝ) : ℂ) * I) := by
    intro w
    simp only [hTd, polynomialSpectralPhase]
    rw [mul_comm]
    congr 3
    ring
  have hTn : ∀ w, ‖T w‖ ≤ 1 := by
    intro w
    rw [hTe, norm_exp_ofReal_mul_I]
  have hc : Continuous S := by
    rw [hSd]
    fun_prop
  have hc' : Continuous fun w => T w * S w := by
    refine Continuous.mul ?_ hc
    rw [show T = _ from funext hTe]
    fun_prop
  have hSn : ∀ w, ‖S w‖ = tau * Real.sqrt Real.pi * Real.exp (-(tau ^ 2 / 4 * (w - 0) ^ 2)) := by
    intro w
    simp only [hSd]
    rw [norm_mul, norm_mul, norm_mul, mul_comm I, norm_exp_ofReal_mul_I, one_mul, Complex.norm_real, Real.norm_eq_abs,
      abs_of_nonneg (by positivity), ← Complex.ofReal_neg, Complex.norm_exp_ofReal,
      show I * (w : ℂ) * (tPeak : ℂ) = ((w * tPeak : ℝ) : ℂ) * I by push_cast; ring, norm_exp_ofReal_mul_I, mul_one]
    congr 2
    ring
  have hS := gaussian_localised (by positivity : 0 < tau ^ 2 / 4) (by positivity : 0 ≤ tau * Real.sqrt Real.pi) fun w => (hSn w).le
  have hpulse : gaussianLong wavelength tau tPeak cep = pulse S :=
    funext fun t => C118_gaussian_spectrum wavelength tau tPeak cep htau t
  have hE : Localised (pulse S) tPeak (1 * (8 * (1 + 2 / (1 / tau ^ 2) ^ 2))) 3 := by
    refine gaussian_localised (by positivity) zero_le_one fun t => ?_
    rw [← hpulse, norm_gaussianLong, one_mul]
    refine le_of_eq ?_
    congr 2
    ring
  set tau' : ℝ := tau * Real.sqrt (1 + (2 * gdd / tau ^ 2) ^ 2) with htau'
  have htp : 0 < tau' := mul_pos htau (Real.sqrt_pos.2 (by positivity))
  obtain ⟨A, hA, hout⟩ := C118_chirped_gaussian wavelength tau tPeak cep gdd htau 0 0
  have hAn : 0 < ‖A‖ ^ 2 := by
    rw [hA]
    exact div_pos htau htp
  set Lo := pulse fun w => T w * S w with hLo
  have hLn : ∀ t, ‖Lo t‖ = ‖A‖ * Real.exp (-((t - tPeak) ^ 2 / tau' ^ 2)) := by
    intro t
    rw [show Lo t = _ from hout t, norm_mul, norm_mul, Complex.norm_real, Real.norm_eq_abs, abs_of_pos (Real.exp_pos _),
      show ∀ x : ℝ, -I * (x : ℂ) = ((-x : ℝ) : ℂ) * I from fun x => by push_cast; ring, norm_exp_ofReal_mul_I, mul_one]
  have hE' : Localised Lo tPeak (‖A‖ * (8 * (1 + 2 / (1 / tau' ^ 2) ^ 2))) 3 := by
    refine gaussian_localised (by positivity) (norm_nonneg _) fun t => ?_
    rw [hLn]
    refine le_of_eq ?_
    congr 3
    ring
  exact ⟨S, T, _, _, _, A, hpulse, fun _ _ _ => rfl, hc, hc', hTn, hS, hE.recenter t0, hE'.recenter t0, hA, hout⟩

/-- **C142** (chirped Gaussian pulse). Behind `PolynomialSpectralPhase(gdd=gdd)` the field of a combined profile with a Gaussian
longitudinal profile of duration `tau` is its transverse profile times samples which are, in the mean square and up to any given
error, those of the textbook chirped pulse: a Gaussian of duration `tau √(1 + (2 gdd / tau²)²)` around the same peak, lower so
that its fluence is the same, with the linear chirp `2 gdd / (tau⁴ + 4 gdd²)`. -/
theorem C142_chirped_gaussian (wavelength tau tPeak cep gdd t0 : ℝ) (htau : 0 < tau) :
    ∃ A : ℂ, ‖A‖ ^ 2 = tau / (tau * Real.sqrt (1 + (2 * gdd / tau ^ 2) ^ 2)) ∧ ∀ ε > 0,
    ∃ W0 : ℝ, 0 < W0 ∧ ∀ W ≥ W0, ∃ n : ℕ,
    ∀ {s : Shape} {dim : String} {lo hi : List ℝ} {np : List ℕ} {p : ProfileObj} {m N : Option ℕ} {l : Laser s}
      {pol : List ℂ} {energy : Option ℝ} {trans : ℝ → ℝ → ℂ} {dl dt : DType},
      combinedProfile wavelength pol energy (gaussianLong wavelength tau tPeak cep) dl trans dt = .ok p →
      Laser.init dim lo hi np p m N = .ok ⟨s, l⟩ → lo.getLast? = some (t0 - W) → hi.getLast? = some (t0 + W) → n ≤ s.nt →
      ∃ (At : Fin s.n0 → Fin s.n1 → ℂ) (o : Fin s.nt → ℂ) (l' : Laser s),
        (l.Has fun i j k => At i j * gaussianLong wavelength tau tPeak cep (l.grid.t.pts k)) ∧
        Laser.applyOptics (polynomialSpectralPhase gdd 0 0) l = (.ok (), l') ∧ (l'.Has fun i j k => At i j * o k) ∧
        l.grid.t.dx * ∑ k, ‖o k -
          A * (Real.exp (-((l.grid.t.pts k - tPeak) ^ 2 / (tau * Real.sqrt (1 + (2 * gdd / tau ^ 2) ^ 2)) ^ 2)) : ℝ) *
            exp (-I * ((2 * gdd / (tau ^ 4 + 4 * gdd ^ 2) * (l.grid.t.pts k - tPeak) ^ 2 : ℝ) : ℂ))‖ ^ 2 ≤ ε := by
  obtain ⟨S, T, C1, C2, C3, A, hpulse, hel, hc, hc', hTn, hS, hE, hE', hA, hout⟩ :=
    gaussian_facts wavelength tau tPeak cep gdd t0 htau
  refine ⟨A, hA, fun ε hε => ?_⟩
  obtain ⟨W0, hW0, key⟩ := C142_separable S T hc hc' t0 1 C1 C2 C3 hTn (hS.mono (by norm_num)) (hE.mono (by norm_num))
    (hE'.mono (by norm_num)) hε
  refine ⟨W0, hW0, fun W hW => ?_⟩
  obtain ⟨n, hn⟩ := key W hW
  refine ⟨n, fun {s dim lo hi np p m N l pol energy trans dl dt} hp hl hlo hhi hs => ?_⟩
  have hpo : p.omega0 = 2 * Real.pi * c / wavelength := by
    unfold combinedProfile profileInit at hp
    split at hp
    · cases hp
      rfl
    · cases hp
  have hpw := combined_pointwise hp
  rw [hpulse] at hpw
  obtain ⟨At, o, l', h1, e, h2, h3⟩ := hn (polynomialSpectralPhase gdd 0 0) hl hlo hhi hs hpw (fun x y w => by
    rw [hpo]
    exact hel x y w)
  refine ⟨At, o, l', by rw [hpulse]; exact h1, e, h2, ?_⟩
  simpa only [hout] using h3

/-- **C143** (chirped Gaussian pulse). A combined profile with a Gaussian longitudinal profile of duration `tau` goes through
`PolynomialSpectralPhase(gdd=gdd)`. In every window around any `t0` that is large enough and with enough points in time,
`get_duration` then returns, up to any given error, half of `tau √(1 + (2 gdd / tau²)²)`, the textbook duration of the
stretched pulse, for either sign of `gdd` and whatever the rest of the laser is. -/
theorem C143_chirped_gaussian (wavelength tau tPeak cep gdd t0 : ℝ) (htau : 0 < tau) {ε : ℝ} (hε : 0 < ε) :
    ∃ W0 : ℝ, 0 < W0 ∧ ∀ W ≥ W0, ∃ n : ℕ,
    ∀ {s : Shape} {dim : String} {lo hi : List ℝ} {np : List ℕ} {p : ProfileObj} {m N : Option ℕ} {l : Laser s}
      {pol : List ℂ} {energy : Option ℝ} {trans : ℝ → ℝ → ℂ} {dl dt : DType} {E : ℝ},
      combinedProfile wavelength pol energy (gaussianLong wavelength tau tPeak cep) dl trans dt = .ok p →
      Laser.init dim lo hi np p m N = .ok ⟨s, l⟩ → lo.getLast? = some (t0 - W) → hi.getLast? = some (t0 + W) → n ≤ s.nt →
      l.energy = .ok E → E ≠ 0 →
      ∃ (l' : Laser s) (D : ℝ), Laser.applyOptics (polynomialSpectralPhase gdd 0 0) l = (.ok (), l') ∧
        (getDuration l'.grid).1 = .ok D ∧ |D - tau * Real.sqrt (1 + (2 * gdd / tau ^ 2) ^ 2) / 2| ≤ ε := by
  obtain ⟨S, T, C1, C2, C3, A, hpulse, hel, hc, hc', hTn, hS, hE, hE', hA, hout⟩ :=
    gaussian_facts wavelength tau tPeak cep gdd t0 htau
  set tau' : ℝ := tau * Real.sqrt (1 + (2 * gdd / tau ^ 2) ^ 2) with htau'
  have htp : 0 < tau' := mul_pos htau (Real.sqrt_pos.2 (by positivity))
  have hAn : 0 < ‖A‖ ^ 2 := by
    rw [hA]
    exact div_pos htau htp
  set Lo := pulse fun w => T w * S w with hLo
  have hLn : ∀ t, ‖Lo t‖ = ‖A‖ * Real.exp (-((t - tPeak) ^ 2 / tau' ^ 2)) := by
    intro t
    rw [show Lo t = _ from hout t, norm_mul, norm_mul, Complex.norm_real, Real.norm_eq_abs, abs_of_pos (Real.exp_pos _),
      show ∀ x : ℝ, -I * (x : ℂ) = ((-x : ℝ) : ℂ) * I from fun x => by push_cast; ring, norm_exp_ofReal_mul_I, mul_one]
  -- the moments
  have hb : (0 : ℝ) < 2 / tau' ^ 2 := by positivity
  obtain ⟨-, -, hpos, hmean, hvar⟩ := bell_rms hb two_pos tPeak (L := fun t => ((Real.exp (-((t - tPeak) ^ 2 / tau' ^ 2)) : ℝ) : ℂ)) fun t => by
    rw [Complex.norm_real, Real.norm_eq_abs, abs_of_pos (Real.exp_pos _), ← Real.exp_nat_mul,
      show (2 : ℝ) = ((2 : ℕ) : ℝ) by norm_num, Real.rpow_natCast, sq_abs]
    congr 1
    push_cast
    field_simp
  have hval : Real.sqrt ((2 / tau' ^ 2) ^ (-2 / (2 : ℝ)) * (Real.Gamma (3 / 2) / Real.Gamma (1 / 2))) = tau' / 2 := by
    have hg : Real.Gamma (3 / 2) = 1 / 2 * Real.Gamma (1 / 2) := by
      rw [← Real.Gamma_add_one (by norm_num)]
      norm_num
    have g1 := Real.Gamma_pos_of_pos (by norm_num : (0 : ℝ) < 1 / 2)
    rw [hg, mul_div_assoc, div_self g1.ne', show (-2 / 2 : ℝ) = -1 by norm_num, Real.rpow_neg_one, Real.sqrt_eq_iff_mul_self_eq]
    · field_simp
    · positivity
    · positivity
  have hsc : ∀ w : ℝ → ℝ, (∫ t, w t * ‖Lo t‖ ^ 2) =
      ‖A‖ ^ 2 * ∫ t, w t * ‖((Real.exp (-((t - tPeak) ^ 2 / tau' ^ 2)) : ℝ) : ℂ)‖ ^ 2 := by
    intro w
    rw [← integral_const_mul]
    refine integral_congr_ae (Filter.Eventually.of_forall fun t => ?_)
    simp only
    rw [hLn, Complex.norm_real, Real.norm_eq_abs, abs_of_pos (Real.exp_pos _)]
    ring
  have hs1 := hsc fun _ => 1
  simp only [one_mul] at hs1
  obtain ⟨W0, hW0, key⟩ := C143_filtered S T hc hc' t0 1 _ _ _ hTn hS hE hE' _ tPeak rfl
    (by rw [hs1]; exact (mul_pos hAn hpos).ne') (by rw [hsc fun t => t, hs1, mul_div_mul_left _ _ hAn.ne', hmean]) hε
  refine ⟨W0, hW0, fun W hW => ?_⟩
  obtain ⟨n, hn⟩ := key W hW
  refine ⟨n, fun {s dim lo hi np p m N l pol energy trans dl dt E} hp hl hlo hhi hs hEn hE0 => ?_⟩
  have hpo : p.omega0 = 2 * Real.pi * c / wavelength := by
    unfold combinedProfile profileInit at hp
    split at hp
    · cases hp
      rfl
    · cases hp
  have hpw := combined_pointwise hp
  rw [hpulse] at hpw
  obtain ⟨l', D, e1, e2, e3⟩ := hn (polynomialSpectralPhase gdd 0 0) hl hlo hhi hs hpw hEn hE0 (fun x y w => by
    rw [hpo]
    exact hel x y w)
  refine ⟨l', D, e1, e2, ?_⟩
  rwa [hsc fun t => (t - tPeak) ^ 2, hs1, mul_div_mul_left _ _ hAn.ne', hvar, hval] at e3

/-- the premises of C142 and C143 are met: there are lasers with a Gaussian pulse of `tau = 2` and 1 J whose duration behind
`PolynomialSpectralPhase(gdd=2)` is `√2` to a percent (it was 1) -/
example : ∃ (s : Shape) (l l' : Laser s) (p : ProfileObj) (D : ℝ), gaussianProfile 1 [1, 0] (some 1) 1 2 0 = .ok p ∧
    (∃ (lo hi : List ℝ) (np : List ℕ), Laser.init "xyt" lo hi np p none none = .ok ⟨s, l⟩) ∧ l.energy = .ok 1 ∧
    Laser.applyOptics (polynomialSpectralPhase 2 0 0) l = (.ok (), l') ∧
    (getDuration l'.grid).1 = .ok D ∧ |D - Real.sqrt 2| ≤ 1 / 100 := by
  have hpi := Real.pi_pos
  have hc := c_pos
  have he := eps0_pos
  obtain ⟨p, hp, -⟩ := C40_formula 1 one_ne_zero 1 0 (some 1) 1 2 0 0 0
  have hp' : ∃ ζ, combinedProfile 1 [1, 0] (some 1) (gaussianLong 1 2 0 0) .c128 (gaussianTrans 1 ζ) .c128 = .ok p := by
    unfold gaussianProfile at hp
    rcases hz : zFocOverZr 1 (some 0) 1 with e | ζ
    · rw [hz] at hp
      cases hp
    · rw [hz] at hp
      exact ⟨ζ, hp⟩
  obtain ⟨ζ, hp'⟩ := hp'
  set K := eps0 * c / 2 * (Real.pi * 1 ^ 2 / 2) * (2 * Real.sqrt (Real.pi / 2)) with hK
  have hKp : 0 < K := by
    have : 0 < Real.sqrt (Real.pi / 2) := Real.sqrt_pos.2 (by positivity)
    positivity
  obtain ⟨L, hL, h⟩ := C133_gaussian_xyt 1 one_ne_zero 1 0 1 zero_le_one 1 2 one_pos two_pos 0 0 0 hp (Real.sqrt (1 / K)) _
    (Real.sqrt_nonneg _) (by
      rw [Real.sq_sqrt (by positivity)]
      rw [show eps0 * c / 2 * (1 / K) * (Real.pi * 1 ^ 2 / 2) * (2 * Real.sqrt (Real.pi / 2)) = K / K by rw [hK]; ring]
      exact div_self hKp.ne') rfl none none one_pos
  obtain ⟨W, hW, h'⟩ := C143_chirped_gaussian 1 2 0 0 2 0 two_pos (by norm_num : (0 : ℝ) < 1 / 100)
  obtain ⟨N, hN⟩ := h (-max L W) (-max L W) (-max L W) (max L W) (max L W) (max L W) (by simp) (by simp) (by simp) (by simp)
    (by simp) (by simp)
  obtain ⟨n, hn⟩ := h' (max L W) (by simp)
  obtain ⟨l, f, hl, -, hE, -⟩ := hN N le_rfl N le_rfl (max N n) (le_max_left _ _)
  obtain ⟨l', D, hl', hD, hd⟩ := hn hp' hl (by simp) (by simp) (le_max_right _ _) hE one_ne_zero
  refine ⟨_, l, l', p, D, hp, ⟨_, _, _, hl⟩, hE, hl', hD, ?_⟩
  norm_num at hd
  exact hd

end Lasy
