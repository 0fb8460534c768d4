import Verif.Props.ModeDecomp
import Verif.Props.FromData

/-!
# Properties C93–C96: waist and weights of the Hermite-Gauss decomposition
-/

namespace Lasy
open Complex Finset

/-! ## The modes in focus are real -/

theorem hermiteH_parity (n : ℕ) : (hermiteH n).comp (-Polynomial.X) = Polynomial.C ((-1) ^ n) * hermiteH n := by
  induction n with
  | zero => simp [hermiteH]
  | succ n ih =>
    have hd := congrArg Polynomial.derivative ih
    rw [Polynomial.derivative_comp] at hd
    simp only [Polynomial.derivative_neg, Polynomial.derivative_X, Polynomial.derivative_mul, Polynomial.derivative_C,
      zero_mul, zero_add] at hd
    rw [hermiteH_succ, Polynomial.sub_comp, Polynomial.mul_comp, Polynomial.mul_comp, Polynomial.C_comp,
      Polynomial.X_comp, ih]
    have hd' : (Polynomial.derivative (hermiteH n)).comp (-Polynomial.X) =
        -(Polynomial.C ((-1) ^ n) * Polynomial.derivative (hermiteH n)) := by
      rw [← hd]; ring
    rw [hd', pow_succ]
    simp only [map_mul, map_neg, map_one]
    ring

theorem hermiteH_neg (n : ℕ) (x : ℝ) : (hermiteH n).eval (-x) = (-1) ^ n * (hermiteH n).eval x := by
  have := congrArg (Polynomial.eval x) (hermiteH_parity n)
  simpa [Polynomial.eval_comp] using this

/-- the Hermite-Gauss mode of waist `w` in its focus -/
noncomputable def Spec.hgMode (w : ℝ) (i j : ℕ) (x y : ℝ) : ℝ :=
  Real.sqrt (2 / Real.pi) * Real.sqrt (1 / (2 ^ i * i.factorial * w)) * Real.sqrt (1 / (2 ^ j * j.factorial * w))
    * (hermiteH i).eval (Real.sqrt 2 * x / w) * (hermiteH j).eval (Real.sqrt 2 * y / w) * Real.exp (-(x ^ 2 + y ^ 2) / w ^ 2)

theorem hgTrans_focus (w : ℝ) (i j : ℕ) (x y : ℝ) :
    hermiteGaussianTrans w i j 0 x y = (Spec.hgMode w i j x y : ℂ) := by
  simp only [hermiteGaussianTrans, diffractFactor, Spec.hgMode]
  push_cast
  simp

/-- the overlap is that of the real part of the field with the mode -/
theorem hgOverlap_eq {Ny Nx : ℕ} (x : Fin Nx → ℝ) (y : Fin Ny → ℝ) (f : Fin Ny → Fin Nx → ℂ) (w : ℝ) (i j : ℕ) :
    hgOverlap x y f w i j = ∑ q, ∑ r, (f q r).re * Spec.hgMode w i j (x r) (y q) := by
  unfold hgOverlap
  rw [Complex.re_sum]
  refine sum_congr rfl fun q _ => ?_
  rw [Complex.re_sum]
  refine sum_congr rfl fun r _ => ?_
  rw [hgTrans_focus, Complex.re_mul_ofReal]

/-! ## What a successful call has done -/

/-- everything a successful decomposition has computed -/
structure Spec.Decomposed (p : TransSource) (nx ny : ℕ) (res : ℝ) (R : HGResult) (lo hi : ℝ × ℝ) (g : HGGrid) : Prop where
  bounds : p.bounds = .ok (lo, hi)
  winx : Spec.GoodWindow lo.1 hi.1 res g.x
  winy : Spec.GoodWindow lo.2 hi.2 res g.y
  xval : ∀ r, g.x r = (lo.1 + hi.1) / 2 + ((r : ℕ) - ((g.Nx : ℝ) - 1) / 2) * res
  yval : ∀ q, g.y q = (lo.2 + hi.2) / 2 + ((q : ℕ) - ((g.Ny : ℝ) - 1) / 2) * res
  field : ∀ q r, g.field q r = p.eval (g.x r + p.xOff) (g.y q + p.yOff)
  waist : estimateWaist g.x g.y g.field = .ok R.waist
  weights : ∀ i j, R.weights i j = if i < nx ∧ j < ny then some (hgCoef g.x g.y res res g.field R.waist i j) else none

theorem hgCount_two {lo hi res : ℝ} (hres : 0 < res) (h : 2 ≤ (hgCount lo hi res).toNat) : lo ≤ hi := by
  by_contra hlt
  push Not at hlt
  have h1 : (hi - lo) / (2 * res) < 0 := div_neg_of_neg_of_pos (by linarith) (by linarith)
  have h2 : ⌊(hi - lo) / (2 * res)⌋ < 0 := by
    rw [Int.floor_lt]; exact_mod_cast h1
  unfold hgCount at h
  obtain ⟨z, hz⟩ : ∃ z, z = ⌊(hi - lo) / (2 * res)⌋ := ⟨_, rfl⟩
  rw [← hz] at h h2
  have h3 : ((z : ℝ) * 2) = ((z * 2 : ℤ) : ℝ) := by push_cast; ring
  rw [h3] at h
  have h4 : ¬ (0 : ℝ) ≤ ((z * 2 : ℤ) : ℝ) := by
    have : (z * 2 : ℤ) < 0 := by omega
    rw [not_le]
    exact_mod_cast this
  unfold pyInt at h
  rw [if_neg h4, Int.ceil_intCast] at h
  omega

theorem hg_inv {p : TransSource} {nx ny : ℕ} {res : ℝ} (hres : 0 < res) {R : HGResult}
    (h : hgDecomposition p nx ny res = .ok R) : ∃ lo hi g, Spec.Decomposed p nx ny res R lo hi g := by
  obtain ⟨g, h1, hg, hw, hc⟩ := hgDecomposition_inv h
  have hg' := hg
  unfold hgSample at hg'
  obtain ⟨⟨lo, hi⟩, hb, hg2⟩ := bind_ok_inv hg'
  simp only [if_neg hres.ne'] at hg2
  by_cases hn : hgCount lo.1 hi.1 res < 0 ∨ hgCount lo.2 hi.2 res < 0
  · rw [if_pos hn] at hg2
    cases hg2
  · rw [if_neg hn] at hg2
    cases hg2
    simp only at h1 hw hc
    have l1 : lo.1 ≤ hi.1 := hgCount_two hres h1.1
    have l2 : lo.2 ≤ hi.2 := hgCount_two hres h1.2
    have w1 := (hgAxis_good hres l1).2
    have w2 := (hgAxis_good hres l2).2
    have e1 := w1.spacing 0 h1.1
    have e2 := w2.spacing 0 h1.2
    rw [e1, e2] at hc
    exact ⟨lo, hi, ⟨_, _, hgAxis lo.1 hi.1 res (hgCount lo.1 hi.1 res).toNat,
      hgAxis lo.2 hi.2 res (hgCount lo.2 hi.2 res).toNat,
      fun q r => p.evaluate (hgAxis lo.1 hi.1 res (hgCount lo.1 hi.1 res).toNat r)
        (hgAxis lo.2 hi.2 res (hgCount lo.2 hi.2 res).toNat q)⟩,
      ⟨hb, w1, w2, fun r => hgAxis_eq lo.1 hi.1 res h1.1 r, fun q => hgAxis_eq lo.2 hi.2 res h1.2 q,
        fun q r => rfl, hw, hc⟩⟩

/-- **C65 (no failure).** With finite bounds and a positive resolution the decomposition always returns a result. -/
theorem C65_succeeds_partial (p : TransSource) {lo hi : ℝ × ℝ} (hb : p.bounds = .ok (lo, hi)) {res : ℝ} (hres : 0 < res)
    (h1 : lo.1 ≤ hi.1) (h2 : lo.2 ≤ hi.2) (nx ny : ℕ) : ∃ R, hgDecomposition p nx ny res = .ok R := by
  obtain ⟨g, hg, w1, w2, -⟩ := C65_window_partial p hb hres h1 h2
  have hN : 1 < g.Nx ∧ 1 < g.Ny := ⟨w1.two, w2.two⟩
  have hest : ∃ o, estimateWaist g.x g.y g.field = .ok o := by
    unfold estimateWaist
    rw [dif_pos hN]
    have e1 := w1.spacing 0 hN.1
    have e2 := w2.spacing 0 hN.2
    have hc : ¬ ¬ isClose10 (g.x ⟨1, hN.1⟩ - g.x ⟨0, by omega⟩) (g.y ⟨1, hN.2⟩ - g.y ⟨0, by omega⟩) := by
      rw [not_not]
      simp only [zero_add] at e1 e2
      unfold isClose10
      rw [e1, e2, sub_self, abs_zero]
      positivity
    simp only [if_neg hc]
    split_ifs
    · exact ⟨_, rfl⟩
    · exact ⟨_, rfl⟩
    · obtain ⟨k, hk, -⟩ := argmin_ok (n := 30) (by norm_num) fun k =>
        -hgOverlap g.x g.y g.field (waistTest (waistEstimate (g.x ⟨1, hN.1⟩ - g.x ⟨0, by omega⟩) g.field) k) 0 0
      rw [hk]
      exact ⟨_, rfl⟩
  obtain ⟨o, ho⟩ := hest
  simp only [hgDecomposition, hg, bind, Except.bind, hgWeights, dif_pos hN, ho, pure, Except.pure]
  exact ⟨_, rfl⟩

/-! ## C93: the waist -/

/-- C121, what the code does: `estimate_best_HG_waist` raises an `AssertionError` exactly when the two spacings
differ by more than 1e-8 (metres) plus 1e-10 of the second spacing; otherwise it returns. -/
theorem C121_refused_partial {Ny Nx : ℕ} (x : Fin Nx → ℝ) (y : Fin Ny → ℝ) (f : Fin Ny → Fin Nx → ℂ) (hx : 1 < Nx)
    (hy : 1 < Ny) :
    let dx := x ⟨1, hx⟩ - x ⟨0, by omega⟩
    let dy := y ⟨1, hy⟩ - y ⟨0, by omega⟩
    (1 / 10 ^ 8 + 1 / 10 ^ 10 * |dy| < |dx - dy| → estimateWaist x y f = .error .assertion) ∧
      (|dx - dy| ≤ 1 / 10 ^ 8 + 1 / 10 ^ 10 * |dy| → ∃ o, estimateWaist x y f = .ok o) := by
  intro dx dy
  have hiff : isClose10 dx dy ↔ |dx - dy| ≤ 1 / 10 ^ 8 + 1 / 10 ^ 10 * |dy| := by
    unfold isClose10
    norm_num
  constructor
  · intro h
    unfold estimateWaist
    rw [dif_pos ⟨hx, hy⟩]
    exact if_pos (fun hc => absurd (hiff.1 hc) (not_le.2 h))
  · intro h
    have hc : ¬ ¬ isClose10 dx dy := not_not.2 (hiff.2 h)
    unfold estimateWaist
    rw [dif_pos ⟨hx, hy⟩]
    simp only [dx, dy] at hc
    simp only [if_neg hc]
    split_ifs
    · exact ⟨_, rfl⟩
    · exact ⟨_, rfl⟩
    · obtain ⟨k, hk, -⟩ := argmin_ok (n := 30) (by norm_num) fun k =>
        -hgOverlap x y f (waistTest (waistEstimate (x ⟨1, hx⟩ - x ⟨0, by omega⟩) f) k) 0 0
      rw [hk]
      exact ⟨_, rfl⟩

/-- **C121 is false**: axes with spacings of 10 nm and 20 nm are accepted, for every field. -/
theorem C121_refuted : ∃ (x y : Fin 3 → ℝ), (∀ i : Fin 3, x i = (i : ℕ) * (1 / 10 ^ 8)) ∧
    (∀ i : Fin 3, y i = (i : ℕ) * (2 / 10 ^ 8)) ∧ ∀ f : Fin 3 → Fin 3 → ℂ, ∃ o, estimateWaist x y f = .ok o := by
  refine ⟨fun i => (i : ℕ) * (1 / 10 ^ 8), fun i => (i : ℕ) * (2 / 10 ^ 8), fun i => rfl, fun i => rfl, fun f => ?_⟩
  refine (C121_refused_partial _ _ f (by norm_num) (by norm_num)).2 ?_
  norm_num [abs_of_pos, abs_of_neg]

/-- both cases occur: pixels of 10 µm by 20 µm are refused -/
example (f : Fin 3 → Fin 3 → ℂ) :
    estimateWaist (fun i => (i : ℕ) * (1 / 10 ^ 5)) (fun i => (i : ℕ) * (2 / 10 ^ 5)) f = .error .assertion := by
  refine (C121_refused_partial _ _ f (by norm_num) (by norm_num)).1 ?_
  norm_num [abs_of_pos, abs_of_neg]

/-- mean of `v` over the pixels, weighted with the intensity -/
noncomputable def Spec.wMean {Ny Nx : ℕ} (f : Fin Ny → Fin Nx → ℂ) (v : Fin Ny → Fin Nx → ℝ) : ℝ :=
  (∑ q, ∑ r, ‖f q r‖ ^ 2 * v q r) / ∑ q, ∑ r, ‖f q r‖ ^ 2

/-- standard deviation of `v` over the pixels, weighted with the intensity -/
noncomputable def Spec.wStd {Ny Nx : ℕ} (f : Fin Ny → Fin Nx → ℂ) (v : Fin Ny → Fin Nx → ℝ) : ℝ :=
  Real.sqrt (Spec.wMean f fun q r => (v q r - Spec.wMean f v) ^ 2)

theorem wMean_affine {Ny Nx : ℕ} (f : Fin Ny → Fin Nx → ℂ) (h0 : (∑ q, ∑ r, ‖f q r‖ ^ 2) ≠ 0)
    (v : Fin Ny → Fin Nx → ℝ) (a b : ℝ) : Spec.wMean f (fun q r => a + v q r * b) = a + Spec.wMean f v * b := by
  unfold Spec.wMean
  rw [div_mul_eq_mul_div, add_div' _ _ _ h0]
  congr 1
  simp only [mul_add, sum_add_distrib, mul_sum, sum_mul]
  congr 1
  · refine sum_congr rfl fun q _ => sum_congr rfl fun r _ => by ring
  · refine sum_congr rfl fun q _ => sum_congr rfl fun r _ => by ring

theorem wStd_affine {Ny Nx : ℕ} (f : Fin Ny → Fin Nx → ℂ) (h0 : (∑ q, ∑ r, ‖f q r‖ ^ 2) ≠ 0)
    (v : Fin Ny → Fin Nx → ℝ) (a : ℝ) {b : ℝ} (hb : 0 ≤ b) : Spec.wStd f (fun q r => a + v q r * b) = Spec.wStd f v * b := by
  unfold Spec.wStd
  rw [wMean_affine f h0]
  have : (fun q r => (a + v q r * b - (a + Spec.wMean f v * b)) ^ 2) =
      fun q r => 0 + (v q r - Spec.wMean f v) ^ 2 * b ^ 2 := by
    funext q r; ring
  rw [this, wMean_affine f h0 (fun q r => (v q r - Spec.wMean f v) ^ 2) 0 (b ^ 2), zero_add, Real.sqrt_mul' _ (sq_nonneg b),
    Real.sqrt_sq hb]

/-- the first estimate of the waist is the sum of the standard deviations of the intensity in `x` and `y`, for a Gaussian
`w0 / 2 + w0 / 2` -/
theorem waistEstimate_eq {Ny Nx : ℕ} (f : Fin Ny → Fin Nx → ℂ) (h0 : (∑ q, ∑ r, ‖f q r‖ ^ 2) ≠ 0) (x : Fin Nx → ℝ)
    (y : Fin Ny → ℝ) {x0 y0 dx : ℝ} (hdx : 0 ≤ dx) (hx : ∀ r, x r = x0 + (r : ℕ) * dx) (hy : ∀ q, y q = y0 + (q : ℕ) * dx) :
    waistEstimate dx f = Spec.wStd f (fun _ r => x r) + Spec.wStd f (fun q _ => y q) := by
  have e1 : (fun (_ : Fin Ny) r => x r) = fun (_ : Fin Ny) (r : Fin Nx) => x0 + ((r : ℕ) : ℝ) * dx := by
    funext q r; rw [hx]
  have e2 : (fun q (_ : Fin Nx) => y q) = fun (q : Fin Ny) (_ : Fin Nx) => y0 + ((q : ℕ) : ℝ) * dx := by
    funext q r; rw [hy]
  rw [e1, e2, wStd_affine f h0 (fun _ r => ((r : ℕ) : ℝ)) x0 hdx, wStd_affine f h0 (fun q _ => ((q : ℕ) : ℝ)) y0 hdx]
  unfold waistEstimate
  simp only [d4_eq, com_fst, com_snd, imgSum, Spec.wStd, Spec.wMean]
  ring

/-- what `estimate_best_HG_waist` returns for a field that is not zero -/
theorem estimateWaist_ok {Ny Nx : ℕ} {x : Fin Nx → ℝ} {y : Fin Ny → ℝ} {f : Fin Ny → Fin Nx → ℂ} {o : Option ℝ}
    {x0 y0 dx : ℝ} (hdx : 0 ≤ dx) (hx : ∀ r, x r = x0 + (r : ℕ) * dx) (hy : ∀ q, y q = y0 + (q : ℕ) * dx)
    (h0 : (∑ q, ∑ r, ‖f q r‖ ^ 2) ≠ 0) (h : estimateWaist x y f = .ok o) :
    ∃ (k : Fin 30) (w0 : ℝ), w0 = Spec.wStd f (fun _ r => x r) + Spec.wStd f (fun q _ => y q) ∧
      o = some (waistTest w0 k) ∧ (w0 ≠ 0 → ∀ l, hgOverlap x y f (waistTest w0 l) 0 0 ≤ hgOverlap x y f (waistTest w0 k) 0 0) := by
  unfold estimateWaist at h
  by_cases hN : 1 < Nx ∧ 1 < Ny
  · rw [dif_pos hN] at h
    simp only at h
    split_ifs at h with h2 h3
    · have hd : x ⟨1, hN.1⟩ - x ⟨0, by omega⟩ = dx := by rw [hx, hx]; simp
      rw [hd, waistEstimate_eq f h0 x y hdx hx hy] at h3
      cases h
      refine ⟨0, _, rfl, ?_, fun h => absurd h3 h⟩
      rw [h3]
      simp [waistTest, linspace]
    · have hd : x ⟨1, hN.1⟩ - x ⟨0, by omega⟩ = dx := by rw [hx, hx]; simp
      rw [hd, waistEstimate_eq f h0 x y hdx hx hy] at h
      obtain ⟨k, hk, h4⟩ := bind_ok_inv h
      obtain ⟨k', hk', hmax, -⟩ := argmin_ok (by norm_num)
        fun k => -hgOverlap x y f (waistTest (Spec.wStd f (fun _ r => x r) + Spec.wStd f (fun q _ => y q)) k) 0 0
      rw [hk'] at hk
      cases hk
      cases h4
      exact ⟨k, _, rfl, rfl, fun _ l => by have := hmax l; linarith⟩
  · rw [dif_neg hN] at h
    cases h

theorem waistTest_eq (w : ℝ) (k : Fin 30) : waistTest w k = w * (1 / 2 + (k : ℕ) / 29) := by
  unfold waistTest linspace
  norm_num
  ring

/-- **C93.** For every profile and resolution, if the sampled field is not zero: with `w0` the sum of the standard
deviations of the sampled intensity in `x` and in `y`, the waist of the decomposition is one of the 30 numbers
`w0 (1/2 + k/29)`, and among these it is one for which the overlap of the real part of the field with the fundamental mode
is largest; the weight of order 0 is this overlap integral. -/
theorem C93_waist {p : TransSource} {nx ny : ℕ} {res : ℝ} (hres : 0 < res) {R : HGResult}
    (h : hgDecomposition p nx ny res = .ok R) :
    ∃ lo hi g, Spec.Decomposed p nx ny res R lo hi g ∧ ((∑ q, ∑ r, ‖g.field q r‖ ^ 2) ≠ 0 →
      ∃ (w0 w : ℝ) (k : Fin 30), w0 = Spec.wStd g.field (fun _ r => g.x r) + Spec.wStd g.field (fun q _ => g.y q) ∧
        R.waist = some w ∧ w = w0 * (1 / 2 + (k : ℕ) / 29) ∧ (0 < w0 →
        (∀ l : Fin 30, ∑ q, ∑ r, (g.field q r).re * Spec.hgMode (w0 * (1 / 2 + (l : ℕ) / 29)) 0 0 (g.x r) (g.y q) ≤
          ∑ q, ∑ r, (g.field q r).re * Spec.hgMode w 0 0 (g.x r) (g.y q)) ∧
        ∀ i j, i < nx → j < ny → R.weights i j =
          some ((∑ q, ∑ r, (g.field q r).re * Spec.hgMode w i j (g.x r) (g.y q)) * res * res))) := by
  obtain ⟨lo, hi, g, d⟩ := hg_inv hres h
  refine ⟨lo, hi, g, d, fun h0 => ?_⟩
  obtain ⟨k, w0, hw0, hw, hmax⟩ := estimateWaist_ok (x0 := (lo.1 + hi.1) / 2 - ((g.Nx : ℝ) - 1) / 2 * res)
    (y0 := (lo.2 + hi.2) / 2 - ((g.Ny : ℝ) - 1) / 2 * res) hres.le (fun r => by rw [d.xval]; ring)
    (fun q => by rw [d.yval]; ring) h0 d.waist
  refine ⟨w0, _, k, hw0, hw, waistTest_eq _ _, fun hp => ⟨fun l => ?_, fun i j hi' hj => ?_⟩⟩
  · have := hmax hp.ne' l
    rwa [hgOverlap_eq, hgOverlap_eq, waistTest_eq w0 l] at this
  · rw [d.weights, if_pos ⟨hi', hj⟩, hw]
    have : waistTest w0 k ≠ 0 := by rw [waistTest_eq]; positivity
    simp only [hgCoef, if_neg this, hgOverlap_eq]

/-- **C93 (refuted, exactness).** The first estimate of the waist is exact for a Gaussian, but it is not among the 30 that
are tried: the waist that is returned always differs from it by at least a factor `1/58`. -/
theorem C93_estimate_refuted {p : TransSource} {nx ny : ℕ} {res : ℝ} (hres : 0 < res) {R : HGResult}
    (h : hgDecomposition p nx ny res = .ok R) :
    ∃ lo hi g, Spec.Decomposed p nx ny res R lo hi g ∧ ((∑ q, ∑ r, ‖g.field q r‖ ^ 2) ≠ 0 →
      ∃ w, R.waist = some w ∧ 1 / 58 * (Spec.wStd g.field (fun _ r => g.x r) + Spec.wStd g.field (fun q _ => g.y q)) ≤
        |w - (Spec.wStd g.field (fun _ r => g.x r) + Spec.wStd g.field (fun q _ => g.y q))|) := by
  obtain ⟨lo, hi, g, d, h1⟩ := C93_waist hres h
  refine ⟨lo, hi, g, d, fun h0 => ?_⟩
  obtain ⟨w0, w, k, hw0, hw, hk, -⟩ := h1 h0
  refine ⟨w, hw, ?_⟩
  rw [← hw0]
  have hpos : 0 ≤ w0 := by rw [hw0]; exact add_nonneg (Real.sqrt_nonneg _) (Real.sqrt_nonneg _)
  have e : w - w0 = w0 * ((k : ℕ) / 29 - 1 / 2) := by rw [hk]; ring
  rw [e, abs_mul, abs_of_nonneg hpos, mul_comm]
  refine mul_le_mul_of_nonneg_left ?_ hpos
  rcases Nat.lt_or_ge k 15 with h15 | h15
  · have : ((k : ℕ) : ℝ) ≤ 14 := by exact_mod_cast (show (k : ℕ) ≤ 14 by omega)
    rw [abs_of_nonpos (by linarith)]
    linarith
  · have : (15 : ℝ) ≤ ((k : ℕ) : ℝ) := by exact_mod_cast h15
    rw [abs_of_nonneg (by linarith)]
    linarith

/-! ## C94: the phase is lost -/

theorem estimateWaist_congr {Ny Nx : ℕ} (x : Fin Nx → ℝ) (y : Fin Ny → ℝ) {f f' : Fin Ny → Fin Nx → ℂ}
    (h1 : ∀ q r, ‖f' q r‖ = ‖f q r‖) (h2 : ∀ q r, (f' q r).re = (f q r).re) :
    estimateWaist x y f' = estimateWaist x y f := by
  unfold estimateWaist waistEstimate
  simp only [hgOverlap_eq, h1, h2]

/-- **C94 (refuted).** The weights do not describe the profile: they depend only on the modulus and the real part of the
field. So the complex conjugate of a profile, such as a Gaussian beam at the same distance on the other side of the focus,
has the same decomposition. -/
theorem C94_conj_refuted (p : TransSource) (nx ny : ℕ) (res : ℝ) :
    hgDecomposition { p with eval := fun x y => starRingEnd ℂ (p.eval x y) } nx ny res = hgDecomposition p nx ny res := by
  have key : ∀ {Nx Ny : ℕ} (x : Fin Nx → ℝ) (y : Fin Ny → ℝ) (f : Fin Ny → Fin Nx → ℂ),
      hgWeights ⟨Nx, Ny, x, y, fun q r => starRingEnd ℂ (f q r)⟩ nx ny = hgWeights ⟨Nx, Ny, x, y, f⟩ nx ny := by
    intro Nx Ny x y f
    have hc : ∀ dx dy w i j, hgCoef x y dx dy (fun q r => starRingEnd ℂ (f q r)) w i j = hgCoef x y dx dy f w i j := by
      intro dx dy w i j
      rcases w with _ | w
      · rfl
      · simp only [hgCoef, hgOverlap_eq, Complex.conj_re]
    unfold hgWeights
    simp only [hc, estimateWaist_congr x y (f := f) (f' := fun q r => starRingEnd ℂ (f q r))
      (fun q r => Complex.norm_conj _) (fun q r => Complex.conj_re _)]
  have hb : TransSource.bounds { p with eval := fun x y => starRingEnd ℂ (p.eval x y) } = p.bounds := rfl
  unfold hgDecomposition hgSample
  rw [hb]
  rcases p.bounds with e | ⟨lo, hi⟩
  · rfl
  · simp only [bind, Except.bind]
    split_ifs
    · rfl
    · rfl
    · exact key _ _ _

/-- **C94 (refuted).** A Gaussian beam at a distance of its focus and the beam at the opposite distance. -/
theorem C94_focus_refuted (w0 ζ : ℝ) (nx ny : ℕ) (res : ℝ) :
    hgDecomposition ⟨.waist w0, 0, 0, gaussianTrans w0 (-ζ)⟩ nx ny res =
      hgDecomposition ⟨.waist w0, 0, 0, gaussianTrans w0 ζ⟩ nx ny res := by
  rw [← C94_conj_refuted ⟨.waist w0, 0, 0, gaussianTrans w0 ζ⟩]
  congr 2
  funext x y
  simp only [gaussianTrans, diffractFactor, map_div₀, ← Complex.exp_conj, map_mul, map_neg, map_sub, map_one, conj_I,
    conj_ofReal]
  push_cast
  ring_nf

/-- **C94 (refuted).** For a field that is purely imaginary all the weights are zero. -/
theorem C94_imaginary_refuted {p : TransSource} (him : ∀ x y, (p.eval x y).re = 0) {nx ny : ℕ} {res : ℝ} {R : HGResult}
    (h : hgDecomposition p nx ny res = .ok R) (i j : ℕ) (hi : i < nx) (hj : j < ny) : R.weights i j = some 0 := by
  obtain ⟨g, h1, hg, -, hw⟩ := hgDecomposition_inv h
  have hf : ∀ q r, (g.field q r).re = 0 := by
    unfold hgSample at hg
    obtain ⟨⟨lo, hi⟩, hb, hg2⟩ := bind_ok_inv hg
    simp only at hg2
    split_ifs at hg2
    cases hg2
    intro q r
    exact him _ _
  rw [hw, if_pos ⟨hi, hj⟩]
  rcases R.waist with _ | w
  · rfl
  · simp only [hgCoef, hgOverlap_eq, hf, zero_mul, sum_const_zero, ite_self]

/-! ## C95: parity -/

theorem hgMode_negx (w : ℝ) (i j : ℕ) (x y : ℝ) : Spec.hgMode w i j (-x) y = (-1) ^ i * Spec.hgMode w i j x y := by
  unfold Spec.hgMode
  rw [show Real.sqrt 2 * -x / w = -(Real.sqrt 2 * x / w) by ring, hermiteH_neg, neg_sq]
  ring

theorem hgMode_negy (w : ℝ) (i j : ℕ) (x y : ℝ) : Spec.hgMode w i j x (-y) = (-1) ^ j * Spec.hgMode w i j x y := by
  unfold Spec.hgMode
  rw [show Real.sqrt 2 * -y / w = -(Real.sqrt 2 * y / w) by ring, hermiteH_neg, neg_sq]
  ring

/-- a sum over a symmetric axis of a function that changes its sign is zero -/
theorem sum_rev_zero {n : ℕ} (F : Fin n → ℝ) (h : ∀ r, F r.rev = -F r) : ∑ r, F r = 0 := by
  have h1 : ∑ r, F (Fin.revPerm r) = ∑ r, F r := Equiv.sum_comp Fin.revPerm F
  simp only [Fin.revPerm_apply, h, sum_neg_distrib] at h1
  linarith

theorem axis_rev {n : ℕ} {x : Fin n → ℝ} {res : ℝ} (hx : ∀ r, x r = 0 + ((r : ℕ) - ((n : ℝ) - 1) / 2) * res) (r : Fin n) :
    x r.rev = -x r := by
  rw [hx, hx, Fin.val_rev]
  have : (((n - ((r : ℕ) + 1) : ℕ)) : ℝ) = n - (r + 1) := by
    rw [Nat.cast_sub (by have := r.2; omega)]; push_cast; ring
  rw [this]
  ring

/-- **C95.** If the bounds are symmetric in `x` (for analytic profiles: no offset) and the profile is even in `x`, all
weights of odd order in `x` are exactly zero, for every resolution; if it is odd in `x`, all weights of even order in
`x` are zero. -/
theorem C95_parity_x {p : TransSource} {nx ny : ℕ} {res : ℝ} (hres : 0 < res) {R : HGResult}
    (h : hgDecomposition p nx ny res = .ok R) {lo hi : ℝ × ℝ} (hb : p.bounds = .ok (lo, hi)) (hsym : lo.1 = -hi.1)
    {i j : ℕ} (hi' : i < nx) (hj : j < ny)
    (hp : (Odd i ∧ ∀ x y, p.evaluate (-x) y = p.evaluate x y) ∨ (Even i ∧ ∀ x y, p.evaluate (-x) y = -p.evaluate x y)) :
    R.weights i j = some 0 := by
  obtain ⟨lo', hi2, g, d⟩ := hg_inv hres h
  have hb' := d.bounds
  rw [hb] at hb'
  cases hb'
  have hx := d.xval
  rw [hsym, neg_add_cancel, zero_div] at hx
  rw [d.weights, if_pos ⟨hi', hj⟩]
  rcases R.waist with _ | w
  · rfl
  · simp only [hgCoef]
    split_ifs
    · rfl
    · rw [hgOverlap_eq]
      have : ∑ q, ∑ r, (g.field q r).re * Spec.hgMode w i j (g.x r) (g.y q) = 0 := by
        refine sum_eq_zero fun q _ => sum_rev_zero _ fun r => ?_
        rw [d.field, d.field, axis_rev hx, hgMode_negx]
        simp only [TransSource.evaluate] at hp
        rcases hp with ⟨o, e⟩ | ⟨o, e⟩
        · rw [o.neg_one_pow, e]; ring
        · rw [o.neg_one_pow, e, Complex.neg_re]; ring
      rw [this]
      simp

/-- **C95.** The same in `y`. -/
theorem C95_parity_y {p : TransSource} {nx ny : ℕ} {res : ℝ} (hres : 0 < res) {R : HGResult}
    (h : hgDecomposition p nx ny res = .ok R) {lo hi : ℝ × ℝ} (hb : p.bounds = .ok (lo, hi)) (hsym : lo.2 = -hi.2)
    {i j : ℕ} (hi' : i < nx) (hj : j < ny)
    (hp : (Odd j ∧ ∀ x y, p.evaluate x (-y) = p.evaluate x y) ∨ (Even j ∧ ∀ x y, p.evaluate x (-y) = -p.evaluate x y)) :
    R.weights i j = some 0 := by
  obtain ⟨lo', hi2, g, d⟩ := hg_inv hres h
  have hb' := d.bounds
  rw [hb] at hb'
  cases hb'
  have hy := d.yval
  rw [hsym, neg_add_cancel, zero_div] at hy
  rw [d.weights, if_pos ⟨hi', hj⟩]
  rcases R.waist with _ | w
  · rfl
  · simp only [hgCoef]
    split_ifs
    · rfl
    · rw [hgOverlap_eq, sum_comm]
      have : ∑ r, ∑ q, (g.field q r).re * Spec.hgMode w i j (g.x r) (g.y q) = 0 := by
        refine sum_eq_zero fun r _ => sum_rev_zero _ fun q => ?_
        rw [d.field, d.field, axis_rev hy, hgMode_negy]
        simp only [TransSource.evaluate] at hp
        rcases hp with ⟨o, e⟩ | ⟨o, e⟩
        · rw [o.neg_one_pow, e]; ring
        · rw [o.neg_one_pow, e, Complex.neg_re]; ring
      rw [this]
      simp

/-! ## C96: scale -/

theorem argmin_scale {n : ℕ} (x : Fin n → ℝ) {a : ℝ} (ha : 0 < a) : argmin (fun k => a * x k) = argmin x := by
  rcases Nat.eq_zero_or_pos n with h | h
  · rw [argmin_error h, argmin_error h]
  · obtain ⟨k, hk, h1, h2⟩ := argmin_ok h x
    rw [hk]
    exact argmin_eq (fun j => mul_le_mul_of_nonneg_left (h1 j) ha.le) fun j hj => mul_lt_mul_of_pos_left (h2 j hj) ha

theorem hgOverlap_scale {Ny Nx : ℕ} (x : Fin Nx → ℝ) (y : Fin Ny → ℝ) (f : Fin Ny → Fin Nx → ℂ) (w a : ℝ) (i j : ℕ) :
    hgOverlap x y (fun q r => (a : ℂ) * f q r) w i j = a * hgOverlap x y f w i j := by
  simp only [hgOverlap_eq, mul_sum, Complex.re_ofReal_mul, mul_assoc]

theorem estimateWaist_scale {Ny Nx : ℕ} (x : Fin Nx → ℝ) (y : Fin Ny → ℝ) (f : Fin Ny → Fin Nx → ℂ) {a : ℝ} (ha : 0 < a) :
    estimateWaist x y (fun q r => (a : ℂ) * f q r) = estimateWaist x y f := by
  have hn : ∀ q r, ‖(a : ℂ) * f q r‖ ^ 2 = a ^ 2 * ‖f q r‖ ^ 2 := by
    intro q r
    rw [norm_mul, Complex.norm_real, Real.norm_of_nonneg ha.le, mul_pow]
  have hw : ∀ dx, waistEstimate dx (fun q r => (a : ℂ) * f q r) = waistEstimate dx f := by
    intro dx
    unfold waistEstimate
    simp only [hn]
    rw [(C50_scale (fun q r => ‖f q r‖ ^ 2) (pow_pos ha 2).ne').2]
  have hs : (∑ q, ∑ r, ‖(a : ℂ) * f q r‖ ^ 2) = 0 ↔ (∑ q, ∑ r, ‖f q r‖ ^ 2) = 0 := by
    simp only [hn, ← mul_sum]
    simp [ha.ne']
  have hm : ∀ w, (argmin fun k => -hgOverlap x y (fun q r => (a : ℂ) * f q r) (waistTest w k) 0 0) =
      argmin fun k => -hgOverlap x y f (waistTest w k) 0 0 := by
    intro w
    rw [← argmin_scale (fun k => -hgOverlap x y f (waistTest w k) 0 0) ha]
    simp only [hgOverlap_scale, mul_neg]
  unfold estimateWaist
  simp only [hw, hm, if_congr hs rfl rfl]

/-- **C96.** If a profile is multiplied by a positive number, the decomposition has the same waist and every weight is
multiplied by this number. -/
theorem C96_scale {p : TransSource} {nx ny : ℕ} {res : ℝ} {R : HGResult} (h : hgDecomposition p nx ny res = .ok R)
    {a : ℝ} (ha : 0 < a) :
    hgDecomposition { p with eval := fun x y => (a : ℂ) * p.eval x y } nx ny res =
      .ok ⟨fun i j => (R.weights i j).map fun w => a * w, R.waist⟩ := by
  have key : ∀ (g : HGGrid), hgWeights g nx ny = .ok R →
      hgWeights ⟨g.Nx, g.Ny, g.x, g.y, fun q r => (a : ℂ) * g.field q r⟩ nx ny =
        .ok ⟨fun i j => (R.weights i j).map fun w => a * w, R.waist⟩ := by
    intro g hg
    unfold hgWeights at hg ⊢
    by_cases h1 : 1 < g.Nx ∧ 1 < g.Ny
    · rw [dif_pos h1] at hg
      rw [dif_pos h1]
      obtain ⟨w, hw, h3⟩ := bind_ok_inv hg
      cases h3
      simp only [estimateWaist_scale _ _ _ ha, hw, bind, Except.bind, pure, Except.pure]
      congr 2
      funext i j
      split_ifs
      · rw [Option.map_some]
        congr 1
        rcases w with _ | w
        · simp [hgCoef]
        · simp only [hgCoef, hgOverlap_scale]
          split_ifs
          · simp
          · ring
      · rfl
    · rw [dif_neg h1] at hg
      cases hg
  unfold hgDecomposition at h ⊢
  obtain ⟨g, hg, h2⟩ := bind_ok_inv h
  have hb : TransSource.bounds { p with eval := fun x y => (a : ℂ) * p.eval x y } = p.bounds := rfl
  unfold hgSample at hg ⊢
  obtain ⟨⟨lo, hi⟩, hb', hg2⟩ := bind_ok_inv hg
  rw [hb, hb']
  simp only [bind, Except.bind]
  simp only at hg2
  split_ifs at hg2 ⊢
  cases hg2
  exact key _ h2

/-- **C96 (refuted, sign).** A change of the sign of the field, which is a change of the phase of the laser, changes the
result: the waist is then one for which the overlap with the original field is smallest, not largest. -/
theorem C96_sign_refuted {p : TransSource} {nx ny : ℕ} {res : ℝ} (hres : 0 < res) {R : HGResult}
    (h : hgDecomposition { p with eval := fun x y => -p.eval x y } nx ny res = .ok R) :
    ∃ lo hi g, Spec.Decomposed { p with eval := fun x y => -p.eval x y } nx ny res R lo hi g ∧
      ((∑ q, ∑ r, ‖p.evaluate (g.x r) (g.y q)‖ ^ 2) ≠ 0 → ∃ w0 w,
        w0 = Spec.wStd (fun q r => p.evaluate (g.x r) (g.y q)) (fun _ r => g.x r) +
          Spec.wStd (fun q r => p.evaluate (g.x r) (g.y q)) (fun q _ => g.y q) ∧ R.waist = some w ∧ (0 < w0 → ∀ l : Fin 30,
        ∑ q, ∑ r, (p.evaluate (g.x r) (g.y q)).re * Spec.hgMode w 0 0 (g.x r) (g.y q) ≤
        ∑ q, ∑ r, (p.evaluate (g.x r) (g.y q)).re * Spec.hgMode (w0 * (1 / 2 + (l : ℕ) / 29)) 0 0 (g.x r) (g.y q))) := by
  obtain ⟨lo, hi, g, d, h1⟩ := C93_waist hres h
  refine ⟨lo, hi, g, d, fun h0 => ?_⟩
  have hf : ∀ q r, g.field q r = -p.evaluate (g.x r) (g.y q) := fun q r => d.field q r
  obtain ⟨w0, w, k, hw0, hw, -, h2⟩ := h1 (by simpa only [hf, norm_neg] using h0)
  refine ⟨w0, w, ?_, hw, fun hp l => ?_⟩
  · rw [hw0]
    simp only [Spec.wStd, Spec.wMean, hf, norm_neg]
  have := (h2 hp).1 l
  simp only [hf, Complex.neg_re, neg_mul, sum_neg_distrib] at this
  linarith

/-- Gaussian of waist `1`, resolution `1`: the call succeeds, the sampled field is not zero, and the weight of the mode
`(1, 0)` is zero -/
example : ∃ R lo hi g, hgDecomposition ⟨.waist 1, 0, 0, gaussianTrans 1 0⟩ 3 3 1 = .ok R ∧
    Spec.Decomposed ⟨.waist 1, 0, 0, gaussianTrans 1 0⟩ 3 3 1 R lo hi g ∧ (∑ q, ∑ r, ‖g.field q r‖ ^ 2) ≠ 0 ∧
    R.weights 1 0 = some 0 := by
  have hb : TransSource.bounds ⟨.waist 1, 0, 0, gaussianTrans 1 0⟩ = .ok ((-(5 * 1), -(5 * 1)), (5 * 1, 5 * 1)) :=
    C65_bounds_partial ⟨.waist 1, 0, 0, gaussianTrans 1 0⟩ ⟨rfl, rfl⟩ 1 rfl
  obtain ⟨R, hR⟩ := C65_succeeds_partial ⟨.waist 1, 0, 0, gaussianTrans 1 0⟩ hb one_pos (by norm_num) (by norm_num) 3 3
  obtain ⟨lo, hi, g, d⟩ := hg_inv one_pos hR
  refine ⟨R, lo, hi, g, hR, d, ?_, ?_⟩
  · have hpos : ∀ q r, 0 < ‖g.field q r‖ ^ 2 := by
      intro q r
      rw [d.field]
      simp [gaussianTrans, diffractFactor, Complex.exp_ne_zero]
    have hx := d.winx.two
    have hy := d.winy.two
    have : Nonempty (Fin g.Nx) := ⟨⟨0, by omega⟩⟩
    have : Nonempty (Fin g.Ny) := ⟨⟨0, by omega⟩⟩
    exact (sum_pos (fun q _ => sum_pos (fun r _ => hpos q r) univ_nonempty) univ_nonempty).ne'
  · refine C95_parity_x one_pos hR hb rfl (by norm_num) (by norm_num) (Or.inl ⟨odd_one, fun x y => ?_⟩)
    simp [TransSource.evaluate, gaussianTrans]

/-- a profile with an offset of 4 waists: no sample is nearer than half the resolution to its centre -/
example : ∃ g, hgSample ⟨.waist 1, 4, 0, gaussianTrans 1 0⟩ 1 = .ok g ∧ ∀ r, 1 / 2 < g.x r - -4 :=
  (C65_offset_refuted ⟨.waist 1, 4, 0, gaussianTrans 1 0⟩ 1 one_pos rfl one_pos (by norm_num)).imp
    fun _ h => ⟨h.1, fun r => (h.2 r).1⟩

/-- an image that is 20 long in `x` and 2 in `y`: no sample has `|x| > 3/2` -/
example : ∃ q g, transFromData (onePixel 3 3 1 1) (-10, -1) (10, 1) true = .ok q ∧
    hgSample ⟨.data q, 0, 0, fun _ _ => 1⟩ 1 = .ok g ∧ ∀ r, |g.x r| ≤ 3 / 2 := by
  have heq := transFromData_eq (by norm_num) (by norm_num) (onePixel 3 3 1 1) (lo := (-10, -1)) (hi := (10, 1))
    (by norm_num) (by norm_num) true
  obtain ⟨g, hg, -, h⟩ := C65_data_refuted (by norm_num) (by norm_num) (onePixel 3 3 1 1) (-10, -1) (10, 1) heq
    ⟨.data _, 0, 0, fun _ _ => 1⟩ rfl ⟨rfl, rfl⟩ one_pos
  refine ⟨_, g, heq, hg, fun r => (h r).trans ?_⟩
  norm_num

end Lasy
