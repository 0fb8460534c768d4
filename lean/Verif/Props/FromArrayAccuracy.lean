import Verif.Props.FromArray
import Verif.Props.Frequency
import Verif.Lemmas.NpInterp
import Verif.Numpy.Fourier
import Mathlib.Analysis.SpecialFunctions.Trigonometric.Bounds
import Mathlib.Topology.UniformSpace.HeineCantor
import Mathlib.Topology.Order.Compact
import Mathlib.Topology.MetricSpace.Bounded

/-!
# Property C146: profiles made from arrays, between the nodes
-/

namespace Lasy
open Complex

/-- neighbouring points of the axis are at most `δ` apart -/
def Gaps {n : ℕ} (g : Fin n → ℝ) (δ : ℝ) : Prop := ∀ (k : ℕ) (hk : k + 1 < n), g ⟨k + 1, hk⟩ - g ⟨k, by omega⟩ ≤ δ

/-- only the ends of the interval around `x` have a weight -/
theorem linWeight_near {n : ℕ} (hn : 2 ≤ n) {g : Fin n → ℝ} (hg : Ascending g) {x δ : ℝ} (hx : Inside g x) (hd : Gaps g δ)
    {i : Fin n} (hi : linWeight g x i ≠ 0) : |g i - x| ≤ δ := by
  have hint : interval g x + 1 < n := by unfold interval; omega
  obtain ⟨h1, h2⟩ := interval_bounds hn hg hx hint
  have h3 := hd _ hint
  unfold linWeight at hi
  rw [dif_pos hint] at hi
  dsimp only at hi
  by_cases e : (i : ℕ) = interval g x
  · have : i = ⟨interval g x, by omega⟩ := Fin.ext e
    rw [this, abs_le]
    constructor <;> linarith
  · rw [if_neg e] at hi
    by_cases e2 : (i : ℕ) = interval g x + 1
    · have : i = ⟨interval g x + 1, hint⟩ := Fin.ext e2
      rw [this, abs_le]
      constructor <;> linarith
    · rw [if_neg e2] at hi
      exact absurd rfl hi

/-- a weighted mean of numbers that are close to `c` where the weight is not zero -/
theorem mean_close {ι : Type} [Fintype ι] {w v : ι → ℝ} {c ε : ℝ} (hw : ∀ i, 0 ≤ w i) (h1 : ∑ i, w i = 1)
    (hv : ∀ i, w i ≠ 0 → |v i - c| ≤ ε) : |∑ i, w i * v i - c| ≤ ε := by
  have e : ∑ i, w i * v i - c = ∑ i, w i * (v i - c) := by
    simp only [mul_sub, Finset.sum_sub_distrib, ← Finset.sum_mul, h1, one_mul]
  rw [e]
  calc |∑ i, w i * (v i - c)| ≤ ∑ i, |w i * (v i - c)| := Finset.abs_sum_le_sum_abs _ _
    _ ≤ ∑ i, w i * ε := by
        refine Finset.sum_le_sum fun i _ => ?_
        rw [abs_mul, abs_of_nonneg (hw i)]
        by_cases h : w i = 0
        · rw [h, zero_mul, zero_mul]
        · exact mul_le_mul_of_nonneg_left (hv i h) (hw i)
    _ = ε := by rw [← Finset.sum_mul, h1, one_mul]

theorem interp2_close {a b : ℕ} {x : Fin a → ℝ} {y : Fin b → ℝ} (ha : 2 ≤ a) (hb : 2 ≤ b) (hx : Ascending x)
    (hy : Ascending y) {p q d1 d2 ε c : ℝ} (hp : Inside x p) (hq : Inside y q) (g1 : Gaps x d1) (g2 : Gaps y d2)
    {v : Fin a → Fin b → ℝ} (hv : ∀ i j, |x i - p| ≤ d1 → |y j - q| ≤ d2 → |v i j - c| ≤ ε) :
    |interp2 x y v p q - c| ≤ ε := by
  unfold interp2
  rw [if_pos ⟨hp, hq⟩]
  have hε : 0 ≤ ε := by
    obtain ⟨i, hi⟩ : ∃ i, linWeight x p i ≠ 0 := by
      by_contra hc
      push Not at hc
      have := linWeight_sum ha x p
      simp [hc] at this
    obtain ⟨j, hj⟩ : ∃ j, linWeight y q j ≠ 0 := by
      by_contra hc
      push Not at hc
      have := linWeight_sum hb y q
      simp [hc] at this
    exact (abs_nonneg _).trans (hv i j (linWeight_near ha hx hp g1 hi) (linWeight_near hb hy hq g2 hj))
  have e : ∑ i, ∑ j, linWeight x p i * linWeight y q j * v i j = ∑ i, linWeight x p i * ∑ j, linWeight y q j * v i j := by
    refine Finset.sum_congr rfl fun i _ => ?_
    rw [Finset.mul_sum]
    exact Finset.sum_congr rfl fun j _ => by ring
  rw [e]
  refine mean_close (linWeight_nonneg ha hx hp) (linWeight_sum ha x p) fun i hi => ?_
  refine mean_close (linWeight_nonneg hb hy hq) (linWeight_sum hb y q) fun j hj => ?_
  exact hv i j (linWeight_near ha hx hp g1 hi) (linWeight_near hb hy hq g2 hj)

theorem interp3_close {a b c : ℕ} {x : Fin a → ℝ} {y : Fin b → ℝ} {z : Fin c → ℝ} (ha : 2 ≤ a) (hb : 2 ≤ b) (hc : 2 ≤ c)
    (hx : Ascending x) (hy : Ascending y) (hz : Ascending z) {p q r d1 d2 d3 ε m : ℝ} (hp : Inside x p) (hq : Inside y q)
    (hr : Inside z r) (g1 : Gaps x d1) (g2 : Gaps y d2) (g3 : Gaps z d3) {v : Fin a → Fin b → Fin c → ℝ}
    (hv : ∀ i j k, |x i - p| ≤ d1 → |y j - q| ≤ d2 → |z k - r| ≤ d3 → |v i j k - m| ≤ ε) :
    |interp3 x y z v p q r - m| ≤ ε := by
  unfold interp3
  rw [if_pos ⟨hp, hq, hr⟩]
  have e : ∑ i, ∑ j, ∑ k, linWeight x p i * linWeight y q j * linWeight z r k * v i j k =
      ∑ i, linWeight x p i * ∑ j, linWeight y q j * ∑ k, linWeight z r k * v i j k := by
    refine Finset.sum_congr rfl fun i _ => ?_
    rw [Finset.mul_sum]
    refine Finset.sum_congr rfl fun j _ => ?_
    rw [Finset.mul_sum, Finset.mul_sum]
    exact Finset.sum_congr rfl fun k _ => by ring
  rw [e]
  refine mean_close (linWeight_nonneg ha hx hp) (linWeight_sum ha x p) fun i hi => ?_
  refine mean_close (linWeight_nonneg hb hy hq) (linWeight_sum hb y q) fun j hj => ?_
  refine mean_close (linWeight_nonneg hc hz hr) (linWeight_sum hc z r) fun k hk => ?_
  exact hv i j k (linWeight_near ha hx hp g1 hi) (linWeight_near hb hy hq g2 hj) (linWeight_near hc hz hr g3 hk)

/-- close moduli and phases -/
theorem polar_close {a A α φ εA εφ : ℝ} (hA : 0 ≤ A) (h1 : |a - A| ≤ εA) (h2 : |α - φ| ≤ εφ) :
    ‖((|a| : ℝ) : ℂ) * exp (I * (α : ℝ)) - (A : ℂ) * exp (I * (φ : ℝ))‖ ≤ εA + A * εφ := by
  have e : ((|a| : ℝ) : ℂ) * exp (I * (α : ℝ)) - (A : ℂ) * exp (I * (φ : ℝ)) =
      ((|a| - A : ℝ) : ℂ) * exp (I * (α : ℝ)) + (A : ℂ) * exp (I * (φ : ℝ)) * (exp (I * ((α - φ : ℝ) : ℂ)) - 1) := by
    have : exp (I * ((φ : ℝ) : ℂ)) * exp (I * ((α - φ : ℝ) : ℂ)) = exp (I * (α : ℝ)) := by
      rw [← Complex.exp_add]; congr 1; push_cast; ring
    push_cast at this ⊢
    linear_combination (-(A : ℂ)) * this
  have n1 : ∀ t : ℝ, ‖exp (I * (t : ℂ))‖ = 1 := fun t => by rw [mul_comm, Complex.norm_exp_ofReal_mul_I]
  rw [e]
  refine (norm_add_le _ _).trans (add_le_add ?_ ?_)
  · rw [norm_mul, n1, mul_one, norm_real, Real.norm_eq_abs]
    have := abs_abs_sub_abs_le a A
    rw [abs_of_nonneg hA] at this
    exact this.trans h1
  · rw [norm_mul, norm_mul, n1, mul_one, norm_real, Real.norm_of_nonneg hA]
    refine mul_le_mul_of_nonneg_left ?_ hA
    exact Real.norm_exp_I_mul_ofReal_sub_one_le.trans h2

/-- the phase which the interpolator stores, for data whose phase is resolved in time -/
theorem stored_phase {n : ℕ} (hn : 2 ≤ n) {z : Fin n → ℂ} {A φ : Fin n → ℝ} (hA : ∀ k, 0 < A k)
    (hz : ∀ k, z k = A k * exp (I * (φ k : ℝ))) (hs : ∀ (k : ℕ) (hk : k + 1 < n), |φ ⟨k + 1, hk⟩ - φ ⟨k, by omega⟩| < Real.pi) :
    ∃ m : ℤ, (∀ k, unwrap (fun k => angle (z k)) k = φ k + 2 * Real.pi * m) ∧
      (-Real.pi < φ ⟨0, by omega⟩ → φ ⟨0, by omega⟩ ≤ Real.pi → m = 0) := by
  have hq : ∀ k, ∃ m : ℤ, angle (z k) = φ k + 2 * Real.pi * m := fun k => angle_polar (hA k) (hz k)
  obtain ⟨m, hm⟩ := hq ⟨0, by omega⟩
  refine ⟨m, fun k => ?_, fun h1 h2 => ?_⟩
  · rw [unwrap_unique _ φ hq hs (by omega) k, hm]
    ring
  · have a1 := Complex.neg_pi_lt_arg (z ⟨0, by omega⟩)
    have a2 := Complex.arg_le_pi (z ⟨0, by omega⟩)
    unfold angle at hm
    rw [hm] at a1 a2
    have hp := Real.pi_pos
    have b1 : (m : ℝ) < 1 := by nlinarith
    have b2 : (-1 : ℝ) < m := by nlinarith
    have c1 : m < 1 := by exact_mod_cast b1
    have c2 : -1 < m := by exact_mod_cast b2
    omega

/-- **C146 is false of the code.** `FromArrayProfile` does not approximate the field between the transverse nodes, however
fine the array is. The data are the plane wave `exp(i x)` on `2m+2` equidistant points of `[0, 2π]`, for any axes in `y` and
`t`: at `x = π`, where the wave is `-1`, the profile is `+1`, for every `m`. (The phase is unwrapped along `t` only, so the
interpolation averages phases near `π` and `-π` to `0`.) -/
theorem C146_transverse_phase_refuted (m : ℕ) {b c : ℕ} (y : Fin b → ℝ) (t : Fin c → ℝ) (hb : 2 ≤ b) (hc : 2 ≤ c)
    (hy : Ascending y) (ht : Ascending t) :
    ∃ p, FromArray.init "xyt" (nd3 fun (i : Fin (2 * m + 2)) (_ : Fin b) (_ : Fin c) => exp (I * (linspace 0 (2 * Real.pi) (2 * m + 2) i : ℝ)))
        { x := some ⟨2 * m + 2, linspace 0 (2 * Real.pi) (2 * m + 2)⟩, y := some ⟨b, y⟩, t := some ⟨c, t⟩ } = .ok p ∧
      ∀ q r, Inside y q → Inside t r → p.evaluate Real.pi q r = 1 ∧ exp (I * (Real.pi : ℝ)) = -1 := by
  have hpi := Real.pi_pos
  have hden : (0 : ℝ) < 2 * m + 1 := by positivity
  set x := linspace 0 (2 * Real.pi) (2 * m + 2) with hx
  have hxv : ∀ i, x i = 2 * Real.pi * (i : ℕ) / (2 * m + 1) := by
    intro i
    rw [hx]
    unfold linspace
    push_cast
    rw [show (2 * (m : ℝ) + 2 - 1) = 2 * m + 1 by ring]
    ring
  have hasc : Ascending x := by
    intro i j hij
    rw [hxv, hxv]
    have : ((i : ℕ) : ℝ) < (j : ℕ) := by exact_mod_cast hij
    gcongr
  refine ⟨_, fromArray_xyt x y t (by omega) hb hc hasc hy ht _, fun q r hq hr => ⟨?_, ?_⟩⟩
  swap
  · rw [mul_comm]; exact_mod_cast Complex.exp_pi_mul_I
  set k0 : Fin (2 * m + 2) := ⟨m, by omega⟩ with hk0
  set k1 : Fin (2 * m + 2) := ⟨m + 1, by omega⟩ with hk1
  have x0 : x k0 = 2 * Real.pi * m / (2 * m + 1) := hxv k0
  have x1 : x k1 = 2 * Real.pi * (m + 1) / (2 * m + 1) := by rw [hxv, hk1]; push_cast; ring
  have l0 : x k0 ≤ Real.pi := by rw [x0, div_le_iff₀ hden]; nlinarith
  have l1 : Real.pi ≤ x k1 := by rw [x1, le_div_iff₀ hden]; nlinarith
  have hin : Inside x Real.pi := ⟨⟨k0, l0⟩, ⟨k1, l1⟩⟩
  have half : (Real.pi - x k0) / (x k1 - x k0) = 1 / 2 := by
    rw [x0, x1]
    field_simp
    ring
  have two : ∀ v : Fin (2 * m + 2) → ℝ, ∑ i, linWeight x Real.pi i * v i = (v k0 + v k1) / 2 := by
    intro v
    have := linWeight_between hasc v (k := m) (by omega) (x := Real.pi) l0 l1
    rw [this]
    change v k0 + (Real.pi - x k0) / (x k1 - x k0) * (v k1 - v k0) = _
    rw [half]
    ring
  have collapse : ∀ v : Fin (2 * m + 2) → ℝ, interp3 x y t (fun i _ _ => v i) Real.pi q r = (v k0 + v k1) / 2 := by
    intro v
    unfold interp3
    rw [if_pos ⟨hin, hq, hr⟩, ← two]
    refine Finset.sum_congr rfl fun i _ => ?_
    have e1 : ∀ j, ∑ k, linWeight x Real.pi i * linWeight y q j * linWeight t r k * v i = linWeight y q j * (linWeight x Real.pi i * v i) := by
      intro j
      rw [← Finset.sum_mul, ← Finset.mul_sum, linWeight_sum hc]
      ring
    rw [Finset.sum_congr rfl fun j _ => e1 j, ← Finset.sum_mul, linWeight_sum hb, one_mul]
  have hun : (fun (i : Fin (2 * m + 2)) (_ : Fin b) => unwrap fun _ : Fin c => angle (exp (I * (x i : ℝ)))) =
      fun i _ _ => angle (exp (I * (x i : ℝ))) := by
    funext i j k
    unfold unwrap
    simp [unwrapCorr, Real.pi_pos]
  have n1 : ∀ s : ℝ, ‖exp (I * (s : ℂ))‖ = 1 := fun s => by rw [mul_comm, Complex.norm_exp_ofReal_mul_I]
  have a0 : angle (exp (I * (x k0 : ℝ))) = x k0 := by
    unfold angle
    rw [mul_comm, Complex.arg_exp_mul_I, toIocMod_eq_self]
    constructor
    · have : 0 ≤ x k0 := by rw [x0]; positivity
      linarith
    · linarith
  have a1 : angle (exp (I * (x k1 : ℝ))) = x k1 - 2 * Real.pi := by
    unfold angle
    have : exp (I * (x k1 : ℝ)) = exp (((x k1 - 2 * Real.pi : ℝ) : ℂ) * I) := by
      rw [show ((x k1 - 2 * Real.pi : ℝ) : ℂ) * I = I * (x k1 : ℝ) - 2 * Real.pi * I by push_cast; ring, Complex.exp_sub,
        Complex.exp_two_pi_mul_I, div_one]
    rw [this, Complex.arg_exp_mul_I, toIocMod_eq_self]
    have hlt : Real.pi < x k1 := by rw [x1, lt_div_iff₀ hden]; nlinarith
    have hle : x k1 ≤ 2 * Real.pi := by
      rw [x1, div_le_iff₀ hden]
      have : (0 : ℝ) ≤ m := Nat.cast_nonneg _
      nlinarith
    constructor <;> linarith
  simp only [FromArray.evaluate, hun, n1, collapse]
  rw [a0, a1, show (x k0 + (x k1 - 2 * Real.pi)) / 2 = 0 by
    rw [x0, x1]; field_simp; ring]
  norm_num

/-- **C146** (in time; `_partial`: for every point see the refutation). At a transverse node, between the time samples, the
profile approximates any field `A(t) exp(i φ(t))` whose samples were given: if the samples near the time `r` have moduli within
`εA` of `A(r)` and phases within `εφ` of `φ(r)`, the error is at most `εA + A(r) εφ`. It needs only that the phase of the data
moves by less than `π` from one time to the next. -/
theorem C146_time_partial {a b c : ℕ} (x : Fin a → ℝ) (y : Fin b → ℝ) (t : Fin c → ℝ) (ha : 2 ≤ a) (hb : 2 ≤ b)
    (hc : 2 ≤ c) (hx : Ascending x) (hy : Ascending y) (ht : Ascending t) {δ : ℝ} (hδ : Gaps t δ)
    (f : Fin a → Fin b → Fin c → ℂ) (i : Fin a) (j : Fin b) (A φ : ℝ → ℝ) (hA : ∀ k, 0 < A (t k))
    (hf : ∀ k, f i j k = A (t k) * exp (I * (φ (t k) : ℝ)))
    (hs : ∀ (k : ℕ) (hk : k + 1 < c), |φ (t ⟨k + 1, hk⟩) - φ (t ⟨k, by omega⟩)| < Real.pi)
    {r εA εφ : ℝ} (hr : Inside t r) (hAr : 0 ≤ A r) (h1 : ∀ k, |t k - r| ≤ δ → |A (t k) - A r| ≤ εA)
    (h2 : ∀ k, |t k - r| ≤ δ → |φ (t k) - φ r| ≤ εφ) :
    ∃ p, FromArray.init "xyt" (nd3 f) { x := some ⟨a, x⟩, y := some ⟨b, y⟩, t := some ⟨c, t⟩ } = .ok p ∧
      ‖p.evaluate (x i) (y j) r - A r * exp (I * (φ r : ℝ))‖ ≤ εA + A r * εφ := by
  refine ⟨_, fromArray_xyt x y t ha hb hc hx hy ht f, ?_⟩
  obtain ⟨m, hm, -⟩ := stored_phase hc (z := f i j) (A := fun k => A (t k)) (φ := fun k => φ (t k)) hA hf hs
  have hn : ∀ k, ‖f i j k‖ = A (t k) := fun k => by
    rw [hf, norm_mul, norm_real, Real.norm_of_nonneg (hA k).le, mul_comm I, Complex.norm_exp_ofReal_mul_I, mul_one]
  have collapse : ∀ v : Fin a → Fin b → Fin c → ℝ, interp3 x y t v (x i) (y j) r = ∑ k, linWeight t r k * v i j k := by
    intro v
    unfold interp3
    rw [if_pos ⟨inside_node x i, inside_node y j, hr⟩]
    simp only [linWeight_node ha hx, linWeight_node hb hy]
    simp [Finset.sum_ite_eq']
  have c1 : |interp3 x y t (fun i j k => ‖f i j k‖) (x i) (y j) r - A r| ≤ εA := by
    rw [collapse]
    refine mean_close (linWeight_nonneg hc ht hr) (linWeight_sum hc t r) fun k hk => ?_
    rw [hn]
    exact h1 k (linWeight_near hc ht hr hδ hk)
  have c2 : |interp3 x y t (fun i j => unwrap fun k => angle (f i j k)) (x i) (y j) r - (φ r + 2 * Real.pi * m)| ≤ εφ := by
    rw [collapse]
    refine mean_close (linWeight_nonneg hc ht hr) (linWeight_sum hc t r) fun k hk => ?_
    rw [hm, add_sub_add_right_eq_sub]
    exact h2 k (linWeight_near hc ht hr hδ hk)
  have := polar_close hAr c1 c2
  have e : exp (I * ((φ r + 2 * Real.pi * m : ℝ) : ℂ)) = exp (I * (φ r : ℝ)) := by
    rw [show I * ((φ r + 2 * Real.pi * m : ℝ) : ℂ) = I * (φ r : ℝ) + m * (2 * Real.pi * I) by push_cast; ring, Complex.exp_add,
      Complex.exp_int_mul_two_pi_mul_I, mul_one]
  rw [e] at this
  exact this

/-- **C146** (everywhere; `_partial`: the phases at the first time must not cross the cut of `np.angle`). If the data are samples
of `A exp(i φ)` with `-π < φ ≤ π` at the first time, and the phase moves by less than `π` from one time to the next, then the
error at any point inside the axes is at most `εA + A εφ`, where `εA`, `εφ` bound the change of modulus and phase over one cell. -/
theorem C146_everywhere_partial {a b c : ℕ} (x : Fin a → ℝ) (y : Fin b → ℝ) (t : Fin c → ℝ) (ha : 2 ≤ a) (hb : 2 ≤ b)
    (hc : 2 ≤ c) (hx : Ascending x) (hy : Ascending y) (ht : Ascending t) {d1 d2 d3 : ℝ} (g1 : Gaps x d1) (g2 : Gaps y d2)
    (g3 : Gaps t d3) (A φ : ℝ → ℝ → ℝ → ℝ) (hA : ∀ i j k, 0 < A (x i) (y j) (t k))
    (h0 : ∀ i j, -Real.pi < φ (x i) (y j) (t ⟨0, by omega⟩) ∧ φ (x i) (y j) (t ⟨0, by omega⟩) ≤ Real.pi)
    (hs : ∀ i j (k : ℕ) (hk : k + 1 < c), |φ (x i) (y j) (t ⟨k + 1, hk⟩) - φ (x i) (y j) (t ⟨k, by omega⟩)| < Real.pi) :
    ∃ prof, FromArray.init "xyt" (nd3 fun i j k => A (x i) (y j) (t k) * exp (I * (φ (x i) (y j) (t k) : ℝ)))
        { x := some ⟨a, x⟩, y := some ⟨b, y⟩, t := some ⟨c, t⟩ } = .ok prof ∧
      ∀ p q r εA εφ, Inside x p → Inside y q → Inside t r → 0 ≤ A p q r →
        (∀ i j k, |x i - p| ≤ d1 → |y j - q| ≤ d2 → |t k - r| ≤ d3 →
          |A (x i) (y j) (t k) - A p q r| ≤ εA ∧ |φ (x i) (y j) (t k) - φ p q r| ≤ εφ) →
        ‖prof.evaluate p q r - A p q r * exp (I * (φ p q r : ℝ))‖ ≤ εA + A p q r * εφ := by
  refine ⟨_, fromArray_xyt x y t ha hb hc hx hy ht _, fun p q r εA εφ hp hq hr hAp hcl => ?_⟩
  have hun : ∀ i j k, unwrap (fun k => angle (A (x i) (y j) (t k) * exp (I * (φ (x i) (y j) (t k) : ℝ)))) k = φ (x i) (y j) (t k) := by
    intro i j k
    obtain ⟨m, hm, hm0⟩ := stored_phase hc (z := fun k => A (x i) (y j) (t k) * exp (I * (φ (x i) (y j) (t k) : ℝ)))
      (A := fun k => A (x i) (y j) (t k)) (φ := fun k => φ (x i) (y j) (t k)) (hA i j) (fun _ => rfl) (hs i j)
    rw [hm, hm0 (h0 i j).1 (h0 i j).2]
    simp
  have hn : ∀ i j k, ‖(A (x i) (y j) (t k) : ℂ) * exp (I * (φ (x i) (y j) (t k) : ℝ))‖ = A (x i) (y j) (t k) := fun i j k => by
    rw [norm_mul, norm_real, Real.norm_of_nonneg (hA i j k).le, mul_comm I, Complex.norm_exp_ofReal_mul_I, mul_one]
  refine polar_close hAp (interp3_close ha hb hc hx hy ht hp hq hr g1 g2 g3 fun i j k e1 e2 e3 => ?_)
    (interp3_close ha hb hc hx hy ht hp hq hr g1 g2 g3 fun i j k e1 e2 e3 => ?_)
  · rw [hn]
    exact (hcl i j k e1 e2 e3).1
  · rw [hun]
    exact (hcl i j k e1 e2 e3).2

/-- **C146** (cylindrical; `_partial` as before). The same bound in `rt` geometry, for every point up to the last radius, the
region inside the first radius included, where the first row is used. -/
theorem C146_rt_partial {a b : ℕ} (r : Fin a → ℝ) (t : Fin b → ℝ) (ha : 2 ≤ a) (hb : 2 ≤ b) (hr : Ascending r) (ht : Ascending t)
    (hr0 : 0 ≤ r ⟨0, by omega⟩) {d1 d2 : ℝ} (g1 : Gaps r d1) (hd1 : 2 * r ⟨0, by omega⟩ ≤ d1) (g2 : Gaps t d2) (A φ : ℝ → ℝ → ℝ)
    (hA : ∀ i k, 0 < A (r i) (t k)) (h0 : ∀ i, -Real.pi < φ (r i) (t ⟨0, by omega⟩) ∧ φ (r i) (t ⟨0, by omega⟩) ≤ Real.pi)
    (hs : ∀ i (k : ℕ) (hk : k + 1 < b), |φ (r i) (t ⟨k + 1, hk⟩) - φ (r i) (t ⟨k, by omega⟩)| < Real.pi) :
    ∃ prof, FromArray.init "rt" (nd2 fun i k => A (r i) (t k) * exp (I * (φ (r i) (t k) : ℝ)))
        { r := some ⟨a, r⟩, t := some ⟨b, t⟩ } ["r", "t"] = .ok prof ∧
      ∀ x y ρ s εA εφ, ρ = Real.sqrt (x ^ 2 + y ^ 2) → ρ ≤ r ⟨a - 1, by omega⟩ → Inside t s → 0 ≤ A ρ s →
        (∀ i k, |r i - ρ| ≤ d1 → |t k - s| ≤ d2 → |A (r i) (t k) - A ρ s| ≤ εA ∧ |φ (r i) (t k) - φ ρ s| ≤ εφ) →
        ‖prof.evaluate x y s - A ρ s * exp (I * (φ ρ s : ℝ))‖ ≤ εA + A ρ s * εφ := by
  have hun : ∀ i k, unwrap (fun k => angle (A (r i) (t k) * exp (I * (φ (r i) (t k) : ℝ)))) k = φ (r i) (t k) := by
    intro i k
    obtain ⟨m, hm, hm0⟩ := stored_phase hb (z := fun k => A (r i) (t k) * exp (I * (φ (r i) (t k) : ℝ)))
      (A := fun k => A (r i) (t k)) (φ := fun k => φ (r i) (t k)) (hA i) (fun _ => rfl) (hs i)
    rw [hm, hm0 (h0 i).1 (h0 i).2]
    simp
  have hn : ∀ i k, ‖(A (r i) (t k) : ℂ) * exp (I * (φ (r i) (t k) : ℝ))‖ = A (r i) (t k) := fun i k => by
    rw [norm_mul, norm_real, Real.norm_of_nonneg (hA i k).le, mul_comm I, Complex.norm_exp_ofReal_mul_I, mul_one]
  rcases hr0.eq_or_lt with h | hpos
  · refine ⟨_, fromArray_rt_zero r t ha hb hr ht h.symm _, fun x y ρ s εA εφ hρ hmax hin hAp hcl => ?_⟩
    have hi : Inside r ρ := ⟨⟨⟨0, by omega⟩, by rw [← h, hρ]; exact Real.sqrt_nonneg _⟩, ⟨_, hmax⟩⟩
    simp only [FromArray.evaluate]
    rw [← hρ]
    refine polar_close hAp (interp2_close ha hb hr ht hi hin g1 g2 fun i k e1 e2 => ?_)
      (interp2_close ha hb hr ht hi hin g1 g2 fun i k e1 e2 => ?_)
    · rw [hn]
      exact (hcl i k e1 e2).1
    · rw [hun]
      exact (hcl i k e1 e2).2
  · refine ⟨_, fromArray_rt_mirror r t (by omega) hb hr ht hpos _, fun x y ρ s εA εφ hρ hmax hin hAp hcl => ?_⟩
    have hm := mirrorAxis_ascending hr (by omega : 0 < a) hpos
    have hρ0 : 0 ≤ ρ := by rw [hρ]; exact Real.sqrt_nonneg _
    have hlast : mirrorAxis r (by omega : 0 < a) (Fin.succ ⟨a - 1, by omega⟩) = r ⟨a - 1, by omega⟩ := by
      simp only [mirrorAxis, Fin.cons_succ]
    have hfirst : mirrorAxis r (by omega : 0 < a) 0 = -r ⟨0, by omega⟩ := by simp [mirrorAxis]
    have hi : Inside (mirrorAxis r (by omega : 0 < a)) ρ := ⟨⟨0, by rw [hfirst]; linarith⟩, ⟨_, by rw [hlast]; exact hmax⟩⟩
    have hg : Gaps (mirrorAxis r (by omega : 0 < a)) d1 := by
      intro k hk
      have e1 : mirrorAxis r (by omega : 0 < a) ⟨k + 1, hk⟩ = r ⟨k, by omega⟩ := by
        show mirrorAxis r (by omega : 0 < a) (Fin.succ (⟨k, by omega⟩ : Fin a)) = _
        simp only [mirrorAxis, Fin.cons_succ]
      rw [e1]
      cases k with
      | zero =>
        change _ - mirrorAxis r (by omega : 0 < a) 0 ≤ _
        rw [hfirst]
        linarith
      | succ k =>
        have e2 : mirrorAxis r (by omega : 0 < a) ⟨k + 1, by omega⟩ = r ⟨k, by omega⟩ := by
          show mirrorAxis r (by omega : 0 < a) (Fin.succ (⟨k, by omega⟩ : Fin a)) = _
          simp only [mirrorAxis, Fin.cons_succ]
        rw [e2]
        exact g1 k (by omega)
    have hrow : ∀ (i : Fin (a + 1)) (k : Fin b), (nd2 fun i k => (A (r i) (t k) : ℂ) * exp (I * (φ (r i) (t k) : ℝ))).get
        [(i : ℕ) - 1, (k : ℕ)] = A (r ⟨i - 1, by omega⟩) (t k) * exp (I * (φ (r ⟨i - 1, by omega⟩) (t k) : ℝ)) := by
      intro i k
      exact nd2_get (fun i k => (A (r i) (t k) : ℂ) * exp (I * (φ (r i) (t k) : ℝ))) ⟨i - 1, by omega⟩ k
    have hdist : ∀ i : Fin (a + 1), |mirrorAxis r (by omega : 0 < a) i - ρ| ≤ d1 → |r ⟨i - 1, by omega⟩ - ρ| ≤ d1 := by
      intro i hi
      rcases Fin.eq_zero_or_eq_succ i with rfl | ⟨j, rfl⟩
      · rw [hfirst, abs_le] at hi
        change |r ⟨0, by omega⟩ - ρ| ≤ d1
        rw [abs_le]
        constructor <;> linarith
      · simp only [mirrorAxis, Fin.cons_succ] at hi
        exact hi
    simp only [FromArray.evaluate, hrow]
    rw [← hρ]
    refine polar_close hAp (interp2_close (by omega) hb hm ht hi hin hg g2 fun i k e1 e2 => ?_)
      (interp2_close (by omega) hb hm ht hi hin hg g2 fun i k e1 e2 => ?_)
    · rw [hn]
      exact (hcl _ k (hdist i e1) e2).1
    · rw [hun]
      exact (hcl _ k (hdist i e1) e2).2

/-- the points of an ascending axis between its ends -/
theorem ascending_mem {n : ℕ} (hn : 2 ≤ n) {g : Fin n → ℝ} (hg : Ascending g) {lo hi : ℝ} (h0 : g ⟨0, by omega⟩ = lo)
    (h1 : g ⟨n - 1, by omega⟩ = hi) : (∀ i, g i ∈ Set.Icc lo hi) ∧ ∀ p, p ∈ Set.Icc lo hi → Inside g p := by
  have hm : ∀ i j : Fin n, i ≤ j → g i ≤ g j := fun i j hij => hg.le_iff.2 hij
  refine ⟨fun i => ⟨?_, ?_⟩, fun p hp => ⟨⟨_, h0.trans_le hp.1⟩, ⟨_, hp.2.trans h1.ge⟩⟩⟩
  · rw [← h0]; exact hm _ _ (by rw [Fin.le_def]; simp)
  · rw [← h1]; exact hm _ _ (by rw [Fin.le_def]; simp; omega)

/-- **C146** (fine arrays; `_partial` as before). For continuous `A > 0` and `φ` on a box, with `-π < φ ≤ π` at the first time, the
profiles made from finer and finer samples converge to `A exp(i φ)`, uniformly on the box. -/
theorem C146_fine_partial {x0 x1 y0 y1 t0 t1 : ℝ} (hx01 : x0 < x1) (hy01 : y0 < y1) (ht01 : t0 < t1) (A φ : ℝ → ℝ → ℝ → ℝ)
    (hA : Continuous fun v : ℝ × ℝ × ℝ => A v.1 v.2.1 v.2.2) (hφ : Continuous fun v : ℝ × ℝ × ℝ => φ v.1 v.2.1 v.2.2)
    (hA0 : ∀ p ∈ Set.Icc x0 x1, ∀ q ∈ Set.Icc y0 y1, ∀ r ∈ Set.Icc t0 t1, 0 < A p q r)
    (h0 : ∀ p ∈ Set.Icc x0 x1, ∀ q ∈ Set.Icc y0 y1, -Real.pi < φ p q t0 ∧ φ p q t0 ≤ Real.pi) {ε : ℝ} (hε : 0 < ε) :
    ∃ δ > 0, ∀ (a b c : ℕ) (ha : 2 ≤ a) (hb : 2 ≤ b) (hc : 2 ≤ c) (x : Fin a → ℝ) (y : Fin b → ℝ) (t : Fin c → ℝ),
      Ascending x → Ascending y → Ascending t → Gaps x δ → Gaps y δ → Gaps t δ →
      x ⟨0, by omega⟩ = x0 → x ⟨a - 1, by omega⟩ = x1 → y ⟨0, by omega⟩ = y0 → y ⟨b - 1, by omega⟩ = y1 →
      t ⟨0, by omega⟩ = t0 → t ⟨c - 1, by omega⟩ = t1 →
      ∃ prof, FromArray.init "xyt" (nd3 fun i j k => A (x i) (y j) (t k) * exp (I * (φ (x i) (y j) (t k) : ℝ)))
          { x := some ⟨a, x⟩, y := some ⟨b, y⟩, t := some ⟨c, t⟩ } = .ok prof ∧
        ∀ p ∈ Set.Icc x0 x1, ∀ q ∈ Set.Icc y0 y1, ∀ r ∈ Set.Icc t0 t1,
          ‖prof.evaluate p q r - A p q r * exp (I * (φ p q r : ℝ))‖ ≤ ε := by
  set K := Set.Icc x0 x1 ×ˢ (Set.Icc y0 y1 ×ˢ Set.Icc t0 t1) with hK
  have hKc : IsCompact K := isCompact_Icc.prod (isCompact_Icc.prod isCompact_Icc)
  obtain ⟨M, hM⟩ := hKc.exists_bound_of_continuousOn hA.continuousOn
  have hM0 : 0 ≤ M := (norm_nonneg _).trans (hM (x0, y0, t0) ⟨⟨le_rfl, hx01.le⟩, ⟨le_rfl, hy01.le⟩, ⟨le_rfl, ht01.le⟩⟩)
  set η := min (ε / (M + 1)) 1 with hη
  have hη0 : 0 < η := by positivity
  obtain ⟨δ1, hδ1, u1⟩ := Metric.uniformContinuousOn_iff_le.1 (hKc.uniformContinuousOn_of_continuous hA.continuousOn) η hη0
  obtain ⟨δ2, hδ2, u2⟩ := Metric.uniformContinuousOn_iff_le.1 (hKc.uniformContinuousOn_of_continuous hφ.continuousOn) η hη0
  refine ⟨min δ1 δ2, by positivity, ?_⟩
  intro a b c ha hb hc x y t hx hy ht g1 g2 g3 ex0 ex1 ey0 ey1 et0 et1
  obtain ⟨mx, ix⟩ := ascending_mem ha hx ex0 ex1
  obtain ⟨my, iy⟩ := ascending_mem hb hy ey0 ey1
  obtain ⟨mt, it⟩ := ascending_mem hc ht et0 et1
  have near : ∀ p q r p' q' r' : ℝ, p ∈ Set.Icc x0 x1 → q ∈ Set.Icc y0 y1 → r ∈ Set.Icc t0 t1 → p' ∈ Set.Icc x0 x1 →
      q' ∈ Set.Icc y0 y1 → r' ∈ Set.Icc t0 t1 → |p - p'| ≤ min δ1 δ2 → |q - q'| ≤ min δ1 δ2 → |r - r'| ≤ min δ1 δ2 →
      |A p q r - A p' q' r'| ≤ η ∧ |φ p q r - φ p' q' r'| ≤ η := by
    intro p q r p' q' r' hp hq hr hp' hq' hr' e1 e2 e3
    have hd : dist ((p, q, r) : ℝ × ℝ × ℝ) (p', q', r') ≤ min δ1 δ2 := by
      rw [Prod.dist_eq, Prod.dist_eq]
      exact max_le e1 (max_le e2 e3)
    have b1 := u1 (p, q, r) ⟨hp, hq, hr⟩ (p', q', r') ⟨hp', hq', hr'⟩ (hd.trans (min_le_left _ _))
    have b2 := u2 (p, q, r) ⟨hp, hq, hr⟩ (p', q', r') ⟨hp', hq', hr'⟩ (hd.trans (min_le_right _ _))
    exact ⟨by rwa [Real.dist_eq] at b1, by rwa [Real.dist_eq] at b2⟩
  have hmin : 0 < min δ1 δ2 := by positivity
  obtain ⟨prof, e, key⟩ := C146_everywhere_partial x y t ha hb hc hx hy ht g1 g2 g3 A φ
    (fun i j k => hA0 _ (mx i) _ (my j) _ (mt k)) (fun i j => by rw [et0]; exact h0 _ (mx i) _ (my j))
    (fun i j k hk => by
      have hgap := g3 k hk
      have hlt : t ⟨k, by omega⟩ < t ⟨k + 1, hk⟩ := ht _ _ (by rw [Fin.lt_def]; simp)
      have := (near (x i) (y j) (t ⟨k + 1, hk⟩) (x i) (y j) (t ⟨k, by omega⟩) (mx i) (my j) (mt _) (mx i) (my j) (mt _)
        (by rw [sub_self, abs_zero]; exact hmin.le) (by rw [sub_self, abs_zero]; exact hmin.le)
        (by rw [abs_of_pos (by linarith)]; exact hgap)).2
      have : η ≤ 1 := min_le_right _ _
      have := Real.two_le_pi
      linarith)
  refine ⟨prof, e, fun p hp q hq r hr => ?_⟩
  have hAM : A p q r ≤ M := (le_abs_self _).trans (hM (p, q, r) ⟨hp, hq, hr⟩)
  have := key p q r η η (ix p hp) (iy q hq) (it r hr) (hA0 p hp q hq r hr).le fun i j k e1 e2 e3 =>
    near _ _ _ _ _ _ (mx i) (my j) (mt k) hp hq hr e1 e2 e3
  refine this.trans ?_
  have h1 : η ≤ ε / (M + 1) := min_le_left _ _
  rw [le_div_iff₀ (by linarith)] at h1
  nlinarith

/-- C146_fine_partial speaks about something: a focusing Gaussian beam with a chirp -/
example {ε : ℝ} (hε : 0 < ε) : ∃ δ > 0, ∀ (a b c : ℕ) (ha : 2 ≤ a) (hb : 2 ≤ b) (hc : 2 ≤ c) (x : Fin a → ℝ) (y : Fin b → ℝ) (t : Fin c → ℝ),
    Ascending x → Ascending y → Ascending t → Gaps x δ → Gaps y δ → Gaps t δ →
    x ⟨0, by omega⟩ = -1 → x ⟨a - 1, by omega⟩ = 1 → y ⟨0, by omega⟩ = -1 → y ⟨b - 1, by omega⟩ = 1 →
    t ⟨0, by omega⟩ = 0 → t ⟨c - 1, by omega⟩ = 10 →
    ∃ prof, FromArray.init "xyt" (nd3 fun i j k => (Real.exp (-x i ^ 2 - y j ^ 2 - (t k - 5) ^ 2) : ℝ) *
          exp (I * ((x i ^ 2 + y j ^ 2 + t k ^ 2 : ℝ) : ℂ)))
        { x := some ⟨a, x⟩, y := some ⟨b, y⟩, t := some ⟨c, t⟩ } = .ok prof ∧
      ∀ p ∈ Set.Icc (-1 : ℝ) 1, ∀ q ∈ Set.Icc (-1 : ℝ) 1, ∀ r ∈ Set.Icc (0 : ℝ) 10,
        ‖prof.evaluate p q r - (Real.exp (-p ^ 2 - q ^ 2 - (r - 5) ^ 2) : ℝ) * exp (I * ((p ^ 2 + q ^ 2 + r ^ 2 : ℝ) : ℂ))‖ ≤ ε :=
  C146_fine_partial (by norm_num) (by norm_num) (by norm_num) (fun p q r => Real.exp (-p ^ 2 - q ^ 2 - (r - 5) ^ 2))
    (fun p q r => p ^ 2 + q ^ 2 + r ^ 2) (by fun_prop) (by fun_prop) (fun _ _ _ _ _ _ => Real.exp_pos _)
    (fun p hp q hq => by
      have := Real.two_le_pi
      have h1 : p ^ 2 ≤ 1 := by nlinarith [hp.1, hp.2]
      have h2 : q ^ 2 ≤ 1 := by nlinarith [hq.1, hq.2]
      constructor <;> nlinarith [sq_nonneg p, sq_nonneg q]) hε

end Lasy
