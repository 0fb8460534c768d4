import Verif.Model.ModeDecomp
import Verif.Lemmas.Hermite
import Verif.Lemmas.NpInterp
import Verif.Props.OpenPMDFull

/-!
# Property C65: decomposition into Hermite-Gauss modes
-/

namespace Lasy
open Complex

/-! ## The window -/

theorem hgCount_eq {lo hi res : ℝ} (hres : 0 < res) (h : lo ≤ hi) :
    ∃ m : ℕ, hgCount lo hi res = 2 * m + 2 ∧ (m : ℝ) ≤ (hi - lo) / (2 * res) ∧ (hi - lo) / (2 * res) < m + 1 := by
  have h0 : 0 ≤ (hi - lo) / (2 * res) := div_nonneg (by linarith) (by linarith)
  obtain ⟨m, hm⟩ := Int.eq_ofNat_of_zero_le (Int.floor_nonneg.2 h0)
  refine ⟨m, ?_, ?_, ?_⟩
  · unfold hgCount
    rw [hm]
    have : (((m : ℤ) : ℝ) * 2) = ((2 * (m : ℤ) : ℤ) : ℝ) := by push_cast; ring
    rw [this]
    have hp : (0 : ℝ) ≤ ((2 * (m : ℤ) : ℤ) : ℝ) := by positivity
    unfold pyInt
    rw [if_pos hp, Int.floor_intCast]
  · have := Int.floor_le ((hi - lo) / (2 * res))
    rw [hm] at this
    exact_mod_cast this
  · have := Int.lt_floor_add_one ((hi - lo) / (2 * res))
    rw [hm] at this
    exact_mod_cast this

/-- the points are `mid + (i - (N - 1) / 2) res` -/
theorem hgAxis_eq (lo hi res : ℝ) {N : ℕ} (hN : 2 ≤ N) (i : Fin N) :
    hgAxis lo hi res N i = (lo + hi) / 2 + ((i : ℕ) - ((N : ℝ) - 1) / 2) * res := by
  have h1 : (N : ℝ) - 1 ≠ 0 := by
    have : (2 : ℝ) ≤ N := by exact_mod_cast hN
    linarith
  unfold hgAxis linspace
  field_simp
  ring

/-- a window of points `x 0, x 1, ..` that covers the interval from `a` to `b` -/
structure Spec.GoodWindow (a b res : ℝ) {N : ℕ} (x : Fin N → ℝ) : Prop where
  even : Even N
  two : 2 ≤ N
  spacing : ∀ (i : ℕ) (h : i + 1 < N), x ⟨i + 1, h⟩ - x ⟨i, by omega⟩ = res
  first : |x ⟨0, by omega⟩ - a| ≤ res / 2
  last : |x ⟨N - 1, by omega⟩ - b| ≤ res / 2

theorem hgAxis_good {lo hi res : ℝ} (hres : 0 < res) (h : lo ≤ hi) :
    0 ≤ hgCount lo hi res ∧ Spec.GoodWindow lo hi res (hgAxis lo hi res (hgCount lo hi res).toNat) := by
  obtain ⟨m, hm, h1, h2⟩ := hgCount_eq hres h
  have hN : (hgCount lo hi res).toNat = 2 * m + 2 := by omega
  rw [hN]
  rw [le_div_iff₀ (by linarith)] at h1
  rw [div_lt_iff₀ (by linarith)] at h2
  refine ⟨by omega, ⟨⟨m + 1, by ring⟩, by omega, ?_, ?_, ?_⟩⟩
  · intro i hi
    rw [hgAxis_eq _ _ _ (by omega), hgAxis_eq _ _ _ (by omega)]
    push_cast
    ring
  · rw [hgAxis_eq _ _ _ (by omega)]
    push_cast
    rw [abs_le]
    constructor <;> nlinarith
  · rw [hgAxis_eq _ _ _ (by omega)]
    simp only [show 2 * m + 2 - 1 = 2 * m + 1 by omega]
    push_cast
    rw [abs_le]
    constructor <;> nlinarith

/-- **C65 (window).** For every profile whose bounds are `lo`, `hi` and every positive resolution: the profile is sampled
on a grid with spacing exactly `res` in both directions and an even number of points, which begins and ends within
`res / 2` of the bounds. -/
theorem C65_window_partial (p : TransSource) {lo hi : ℝ × ℝ} (hb : p.bounds = .ok (lo, hi)) {res : ℝ} (hres : 0 < res)
    (h1 : lo.1 ≤ hi.1) (h2 : lo.2 ≤ hi.2) :
    ∃ g, hgSample p res = .ok g ∧ Spec.GoodWindow lo.1 hi.1 res g.x ∧ Spec.GoodWindow lo.2 hi.2 res g.y ∧
      ∀ q r, g.field q r = p.eval (g.x r + p.xOff) (g.y q + p.yOff) := by
  obtain ⟨n1, w1⟩ := hgAxis_good hres h1
  obtain ⟨n2, w2⟩ := hgAxis_good hres h2
  refine ⟨⟨_, _, hgAxis lo.1 hi.1 res (hgCount lo.1 hi.1 res).toNat, hgAxis lo.2 hi.2 res (hgCount lo.2 hi.2 res).toNat,
    fun q r => p.evaluate (hgAxis lo.1 hi.1 res (hgCount lo.1 hi.1 res).toNat r)
      (hgAxis lo.2 hi.2 res (hgCount lo.2 hi.2 res).toNat q)⟩, ?_, w1, w2, fun q r => rfl⟩
  unfold hgSample
  rw [hb]
  simp only [bind, Except.bind, if_neg hres.ne', if_neg (show ¬ (hgCount lo.1 hi.1 res < 0 ∨ hgCount lo.2 hi.2 res < 0) by omega)]

/-- **C65 (bounds, no offset).** Without offsets, the bounds of an analytic profile of waist `w0` are `± 5 w0` in both
directions. -/
theorem C65_bounds_partial (p : TransSource) (hoff : p.xOff = 0 ∧ p.yOff = 0) (w0 : ℝ) (hk : p.kind = .waist w0) :
    p.bounds = .ok ((-(5 * w0), -(5 * w0)), (5 * w0, 5 * w0)) := by
  simp only [TransSource.bounds, hk, hoff.1, add_zero]
  congr 2 <;> congr 1 <;> ring

theorem npMin_linspace {a b : ℝ} (h : a ≤ b) {n : ℕ} (hn : 2 ≤ n) : npMin (show 0 < n by omega) (linspace a b n) = a := by
  have hn' : (0 : ℝ) < (n : ℝ) - 1 := by
    have : (2 : ℝ) ≤ n := by exact_mod_cast hn
    linarith
  unfold npMin
  refine le_antisymm ?_ ?_
  · refine (Finset.inf'_le _ (Finset.mem_univ (⟨0, by omega⟩ : Fin n))).trans ?_
    simp [linspace]
  · refine Finset.le_inf' _ _ fun k _ => ?_
    unfold linspace
    have : 0 ≤ (k : ℕ) * ((b - a) / ((n : ℝ) - 1)) := 
      mul_nonneg (by positivity) (div_nonneg (by linarith) hn'.le)
    linarith

theorem npMax_linspace {a b : ℝ} (h : a ≤ b) {n : ℕ} (hn : 2 ≤ n) : npMax (show 0 < n by omega) (linspace a b n) = b := by
  have hn' : (0 : ℝ) < (n : ℝ) - 1 := by
    have : (2 : ℝ) ≤ n := by exact_mod_cast hn
    linarith
  unfold npMax
  refine le_antisymm ?_ ?_
  · refine Finset.sup'_le _ _ fun k _ => ?_
    unfold linspace
    have hk : ((k : ℕ) : ℝ) ≤ (n : ℝ) - 1 := by
      have : ((k : ℕ) : ℝ) + 1 ≤ n := by exact_mod_cast k.2
      linarith
    have h2 : (k : ℕ) * ((b - a) / ((n : ℝ) - 1)) ≤ ((n : ℝ) - 1) * ((b - a) / ((n : ℝ) - 1)) :=
      mul_le_mul_of_nonneg_right hk (div_nonneg (by linarith) hn'.le)
    rw [mul_div_cancel₀ _ hn'.ne'] at h2
    linarith
  · refine le_trans (le_of_eq ?_) (Finset.le_sup' _ (Finset.mem_univ (⟨n - 1, by omega⟩ : Fin n)))
    simp only [linspace, Nat.cast_sub (show 1 ≤ n by omega), Nat.cast_one]
    field_simp
    ring

/-- the bounds for centred data: the range in `y` is used for `x` and conversely -/
theorem bounds_data {ny nx : ℕ} (hny : 2 ≤ ny) (hnx : 2 ≤ nx) (data : Img ny nx) (lo hi : ℝ × ℝ) {q : TransFromData}
    (hq : transFromData data lo hi true = .ok q) (p : TransSource) (hk : p.kind = .data q)
    (hoff : p.xOff = 0 ∧ p.yOff = 0) :
    p.bounds = .ok ((-|hi.2 - lo.2| / 2, -|hi.1 - lo.1| / 2), (|hi.2 - lo.2| / 2, |hi.1 - lo.1| / 2)) := by
  unfold transFromData at hq
  simp only [↓reduceIte] at hq
  by_cases hA : Ascending (linspace (-|hi.1 - lo.1| / 2) (|hi.1 - lo.1| / 2) nx) ∧
      Ascending (linspace (-|hi.2 - lo.2| / 2) (|hi.2 - lo.2| / 2) ny)
  · rw [if_pos (by simpa using hA)] at hq
    cases hq
    have a1 : -|hi.1 - lo.1| / 2 ≤ |hi.1 - lo.1| / 2 := by have := abs_nonneg (hi.1 - lo.1); linarith
    have a2 : -|hi.2 - lo.2| / 2 ≤ |hi.2 - lo.2| / 2 := by have := abs_nonneg (hi.2 - lo.2); linarith
    simp only [TransSource.bounds, hk, hoff.1, hoff.2, add_zero]
    rw [dif_pos ⟨by omega, by omega⟩, npMin_linspace a1 hnx, npMin_linspace a2 hny, npMax_linspace a1 hnx,
      npMax_linspace a2 hny]
  · rw [if_neg (by simpa using hA)] at hq
    cases hq

/-- **C65 (refuted, offset).** With an offset the window is moved in the wrong direction: the profile of `evaluate` is
centred at `- offset`, the window at `+ x_offset` in both directions; so if twice the offset exceeds `5 w0 + res`, no
sample is nearer than `res / 2` to the centre of the profile: all samples are values of the profile to the right of
`res / 2`. -/
theorem C65_offset_refuted (p : TransSource) (w0 : ℝ) (hw : 0 < w0) (hk : p.kind = .waist w0) {res : ℝ} (hres : 0 < res)
    (hoff : 5 * w0 + res < 2 * p.xOff) :
    ∃ g, hgSample p res = .ok g ∧ ∀ r, res / 2 < g.x r - -p.xOff ∧
      ∀ q, ∃ x y, res / 2 < x ∧ g.field q r = p.eval x y := by
  have hb : p.bounds = .ok ((-w0 * 5 + p.xOff, -w0 * 5 + p.xOff), (w0 * 5 + p.xOff, w0 * 5 + p.xOff)) := by
    simp only [TransSource.bounds, hk]
  obtain ⟨g, hg, gw, -, hv⟩ := C65_window_partial p hb hres (by simp; linarith) (by simp; linarith)
  refine ⟨g, hg, fun r => ?_⟩
  suffices hr : res / 2 < g.x r - -p.xOff from ⟨hr, fun q => ⟨_, _, by linarith, hv q r⟩⟩
  have h1 := (abs_le.1 gw.first).1
  have hmono : ∀ (k : ℕ) (h : k < g.Nx), g.x ⟨0, by omega⟩ ≤ g.x ⟨k, h⟩ := by
    intro k
    induction k with
    | zero => intro h; exact le_rfl
    | succ k ih =>
      intro h
      have a1 := ih (by omega)
      have a2 := gw.spacing k h
      linarith
  have h2 := hmono r r.2
  simp only at h1
  have : g.x r = g.x ⟨r, r.2⟩ := rfl
  linarith

/-- **C65 (refuted, data).** For measured data the ranges of `x` and `y` are confused: the samples in `x` cover, up to
`res / 2`, the range of the data in `y`. So if the image is wider than it is high, all the light at larger `x` is left out
of the decomposition. -/
theorem C65_data_refuted {ny nx : ℕ} (hny : 2 ≤ ny) (hnx : 2 ≤ nx) (data : Img ny nx) (lo hi : ℝ × ℝ) {q : TransFromData}
    (hq : transFromData data lo hi true = .ok q) (p : TransSource) (hk : p.kind = .data q)
    (hoff : p.xOff = 0 ∧ p.yOff = 0) {res : ℝ} (hres : 0 < res) :
    ∃ g, hgSample p res = .ok g ∧ Spec.GoodWindow (-|hi.2 - lo.2| / 2) (|hi.2 - lo.2| / 2) res g.x ∧
      ∀ r, |g.x r| ≤ |hi.2 - lo.2| / 2 + res / 2 := by
  have hb := bounds_data hny hnx data lo hi hq p hk hoff
  obtain ⟨g, hg, gw, -, -⟩ := C65_window_partial p hb hres (by have := abs_nonneg (hi.2 - lo.2); simp; linarith)
    (by have := abs_nonneg (hi.1 - lo.1); simp; linarith)
  refine ⟨g, hg, gw, fun r => ?_⟩
  have hval : ∀ (k : ℕ) (h : k < g.Nx), g.x ⟨k, h⟩ = g.x ⟨0, by omega⟩ + k * res := by
    intro k
    induction k with
    | zero => intro h; simp
    | succ k ih =>
      intro h
      have a1 := ih (by omega)
      have a2 := gw.spacing k h
      push_cast
      linarith
  have h1 := abs_le.1 gw.first
  have h2 := abs_le.1 gw.last
  have e1 := hval r r.2
  have e2 := hval (g.Nx - 1) (by have := gw.two; omega)
  have hr0 : (0 : ℝ) ≤ ((r : ℕ) : ℝ) := by positivity
  have hr1 : ((r : ℕ) : ℝ) ≤ ((g.Nx - 1 : ℕ) : ℝ) := by exact_mod_cast (show (r : ℕ) ≤ g.Nx - 1 by have := r.2; omega)
  have : g.x r = g.x ⟨r, r.2⟩ := rfl
  simp only at h1 h2
  rw [abs_le]
  constructor <;> nlinarith

/-- **C65 (refuted, sums).** For a profile without the attribute `w0` which is not made from data, such as a sum or a
multiple of profiles, there is an `AttributeError`. -/
theorem C65_sum_refuted (p : TransSource) (hk : p.kind = .noWaist) (nx ny : ℕ) (res : ℝ) :
    hgDecomposition p nx ny res = .error .attribute := by
  simp only [hgDecomposition, hgSample, TransSource.bounds, hk, bind, Except.bind]

/-! ## The weights -/

/-- what a decomposition has computed -/
theorem hgDecomposition_inv {p : TransSource} {nx ny : ℕ} {res : ℝ} {R : HGResult}
    (h : hgDecomposition p nx ny res = .ok R) :
    ∃ (g : HGGrid) (h1 : 1 < g.Nx ∧ 1 < g.Ny), hgSample p res = .ok g ∧ estimateWaist g.x g.y g.field = .ok R.waist ∧
      ∀ i j, R.weights i j = if i < nx ∧ j < ny then
        some (hgCoef g.x g.y (g.x ⟨1, h1.1⟩ - g.x ⟨0, by omega⟩) (g.y ⟨1, h1.2⟩ - g.y ⟨0, by omega⟩) g.field R.waist i j)
        else none := by
  unfold hgDecomposition at h
  obtain ⟨g, hg, h2⟩ := bind_ok_inv h
  unfold hgWeights at h2
  by_cases h1 : 1 < g.Nx ∧ 1 < g.Ny
  · rw [dif_pos h1] at h2
    obtain ⟨w, hw, h3⟩ := bind_ok_inv h2
    cases h3
    exact ⟨g, h1, hg, hw, fun i j => rfl⟩
  · rw [dif_neg h1] at h2
    cases h2

/-- **C65 (refuted, orders).** `n_x_max`, `n_y_max` are documented as the maximum orders of the expansion, but the modes
of these orders are never part of the result: it contains exactly the smaller orders. -/
theorem C65_orders_refuted {p : TransSource} {nx ny : ℕ} {res : ℝ} {R : HGResult}
    (h : hgDecomposition p nx ny res = .ok R) (i j : ℕ) : (R.weights i j).isSome ↔ i < nx ∧ j < ny := by
  obtain ⟨g, h1, -, -, hw⟩ := hgDecomposition_inv h
  rw [hw]
  split <;> simp_all

end Lasy
