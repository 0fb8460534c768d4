import Verif.Props.CentralFrequency
import Verif.Props.Convergence

/-!
# Property C148: the frequency of chirped pulses, exact for linear chirps and convergent for smooth phases
-/

namespace Lasy
open Spec Phys Complex

variable {s : Shape}

/-- `np.gradient` with `edge_order=2` is exact on quadratic functions of the coordinate -/
theorem gradient_quadratic {n : ℕ} (x : Fin n → ℝ) (hn : 3 ≤ n)
    (hx : ∀ (k : ℕ) (hk : k + 1 < n), x ⟨k, by omega⟩ < x ⟨k + 1, hk⟩) (a b c : ℝ) :
    gradient (fun k => a * x k ^ 2 + b * x k + c) x = .ok fun k => 2 * a * x k + b := by
  unfold gradient
  rw [dif_pos hn]
  congr 1
  funext k
  obtain ⟨k, hk⟩ := k
  dsimp only
  split
  · rename_i k0
    subst k0
    have h1 := hx 0 (by omega)
    have h2 := hx 1 (by omega)
    simp only [zero_add] at h1
    simp only [Nat.reduceAdd] at h2
    generalize x ⟨0, by omega⟩ = x0 at *
    generalize x ⟨1, by omega⟩ = x1 at *
    generalize x ⟨2, by omega⟩ = x2 at *
    have p1 : 0 < x1 - x0 := by linarith
    have p2 : 0 < x2 - x1 := by linarith
    have p3 : (0 : ℝ) < x1 - x0 + (x2 - x1) := by linarith
    simp only [smul_eq_mul]
    field_simp
    ring
  · split
    · rename_i k0 kn
      have h1 := hx (n - 3) (by omega)
      have h2 := hx (n - 2) (by omega)
      have e1 : n - 3 + 1 = n - 2 := by omega
      have e2 : n - 2 + 1 = n - 1 := by omega
      have e3 : k = n - 1 := by omega
      subst e3
      simp only [e1] at h1
      simp only [e2] at h2
      generalize x ⟨n - 3, by omega⟩ = x0 at *
      generalize x ⟨n - 2, by omega⟩ = x1 at *
      generalize x ⟨n - 1, by omega⟩ = x2 at *
      have p1 : 0 < x1 - x0 := by linarith
      have p2 : 0 < x2 - x1 := by linarith
      have p3 : (0 : ℝ) < x1 - x0 + (x2 - x1) := by linarith
      simp only [smul_eq_mul]
      field_simp
      ring
    · rename_i k0 kn
      have h1 := hx (k - 1) (by omega)
      have h2 := hx k (by omega)
      have e1 : k - 1 + 1 = k := by omega
      simp only [e1] at h1
      generalize x ⟨k - 1, by omega⟩ = x0 at *
      generalize x ⟨k, by omega⟩ = x1 at *
      generalize x ⟨k + 1, by omega⟩ = x2 at *
      have p1 : 0 < x1 - x0 := by linarith
      have p2 : 0 < x2 - x1 := by linarith
      have p3 : (0 : ℝ) < x1 - x0 + (x2 - x1) := by linarith
      simp only [smul_eq_mul]
      field_simp
      ring

/-- where the phase is resolved, the gradient of the unwrapped angle is the gradient of the phase -/
theorem gradient_polar {n : ℕ} (hn : 0 < n) (t : Fin n → ℝ) (ht : Increasing t) {z : Fin n → ℂ} {A ph : Fin n → ℝ} (hA : ∀ k, 0 < A k)
    (hz : ∀ k, z k = A k * exp (-I * ph k))
    (hs : ∀ (k : ℕ) (hk : k + 1 < n), |ph ⟨k + 1, hk⟩ - ph ⟨k, by omega⟩| < Real.pi) :
    gradient (fun k => -unwrap (fun k => angle (z k)) k) t = gradient ph t := by
  have hu := unwrap_unique (fun k => angle (z k)) (fun k => -ph k)
    (fun k => angle_polar (hA k) (by rw [hz]; congr 2; push_cast; ring))
    (by
      intro k hk
      rw [show -ph ⟨k + 1, hk⟩ - -ph ⟨k, by omega⟩ = -(ph ⟨k + 1, hk⟩ - ph ⟨k, by omega⟩) by ring, abs_neg]
      exact hs k hk) hn
  rw [funext hu, ← gradient_add_const t ht ph (-(angle (z ⟨0, hn⟩) - -ph ⟨0, hn⟩))]
  congr 1
  funext k
  ring

/-- **C148** (linear chirp, exact). For an envelope `A exp(-i(φ + d t + b t²/2))` of positive amplitude, on any increasing time
axis that resolves the phase, `get_frequency` finds the instantaneous frequency `omega0 + d + b t` exactly, at the ends of the
axis too, up to the cut at the bounds; the central frequency is its mean weighted with the amplitude. -/
theorem C148_chirp {g : Grid s} {f : Field s} (h : g.Holds (some f))
    (A : Fin s.n0 → Fin s.n1 → Fin s.nt → ℝ) (φ d b : Fin s.n0 → Fin s.n1 → ℝ) (w0 lower upper : ℝ)
    (ih : Bool) (hA : ∀ i j k, 0 < A i j k)
    (hf : ∀ i j k, f i j k = A i j k * exp (-I * ((φ i j + d i j * g.t.pts k + b i j / 2 * g.t.pts k ^ 2 : ℝ) : ℂ)))
    (hne : 0 < s.n0 ∧ 0 < s.n1) (hnt : 3 ≤ s.nt) (ht : Increasing g.t.pts)
    (hd : ∀ i j (k : ℕ) (hk : k + 1 < s.nt), |d i j + b i j / 2 * (g.t.pts ⟨k + 1, hk⟩ + g.t.pts ⟨k, by omega⟩)| *
      (g.t.pts ⟨k + 1, hk⟩ - g.t.pts ⟨k, by omega⟩) < Real.pi)
    {central : ℝ} (hc : central = (∑ i, ∑ j, ∑ k, (w0 + d i j + b i j * g.t.pts k) * A i j k) / ∑ i, ∑ j, ∑ k, A i j k) :
    ∃ g', getFrequency ih (some w0) lower upper g =
        (.ok (fun i j k => min (max (w0 + d i j + b i j * g.t.pts k) (lower * central)) (upper * central), central), g') ∧
      g'.Holds (some f) := by
  have hnorm : ∀ i j k, ‖f i j k‖ = A i j k := by
    intro i j k
    rw [hf, norm_mul, norm_real, Real.norm_of_nonneg (hA i j k).le]
    rw [show -I * ((φ i j + d i j * g.t.pts k + b i j / 2 * g.t.pts k ^ 2 : ℝ) : ℂ) =
      ((-(φ i j + d i j * g.t.pts k + b i j / 2 * g.t.pts k ^ 2) : ℝ) : ℂ) * I by push_cast; ring, Complex.norm_exp_ofReal_mul_I, mul_one]
  have hrate : phaseRate f g.t.pts = .ok fun i j k => d i j + b i j * g.t.pts k := by
    apply phaseRate_of
    intro i j
    rw [gradient_polar (by omega) g.t.pts ht (hA i j) (hf i j) ?_]
    · have := gradient_quadratic g.t.pts hnt ht (b i j / 2) (d i j) (φ i j)
      rw [show (fun k => φ i j + d i j * g.t.pts k + b i j / 2 * g.t.pts k ^ 2) =
        fun k => b i j / 2 * g.t.pts k ^ 2 + d i j * g.t.pts k + φ i j by funext k; ring, this]
      congr 1
      funext k
      ring
    · intro k hk
      have := hd i j k hk
      have hp := ht k hk
      rw [show φ i j + d i j * g.t.pts ⟨k + 1, hk⟩ + b i j / 2 * g.t.pts ⟨k + 1, hk⟩ ^ 2 -
          (φ i j + d i j * g.t.pts ⟨k, by omega⟩ + b i j / 2 * g.t.pts ⟨k, by omega⟩ ^ 2) =
        (d i j + b i j / 2 * (g.t.pts ⟨k + 1, hk⟩ + g.t.pts ⟨k, by omega⟩)) * (g.t.pts ⟨k + 1, hk⟩ - g.t.pts ⟨k, by omega⟩) by ring,
        abs_mul, abs_of_pos (sub_pos.mpr hp)]
      exact this
  have hsum : ∑ p : Fin s.n0 × Fin s.n1 × Fin s.nt, ‖f p.1 p.2.1 p.2.2‖ ≠ 0 := by
    refine (Finset.sum_pos (fun p _ => by rw [hnorm]; exact hA _ _ _) ⟨(⟨0, hne.1⟩, ⟨0, hne.2⟩, ⟨0, by omega⟩), ?_⟩).ne'
    simp
  have hav : average3 (fun i j k => w0 + (d i j + b i j * g.t.pts k)) (fun i j k => ‖f i j k‖) = .ok central := by
    rw [hc, ← sum3 A, ← sum3 fun i j k => (w0 + d i j + b i j * g.t.pts k) * A i j k]
    unfold average3
    rw [average_ok hsum]
    simp only [hnorm, add_assoc]
  obtain ⟨g', e, h', -, -⟩ := getFrequency_holds h ih w0 lower upper hrate hav
  refine ⟨g', ?_, h'⟩
  rw [e]
  simp only [clipFrequency, add_assoc]

/-- The hypotheses are met: a chirp of one half on a 2×2×4 grid with the times 0, 1, 2, 3. The bounds cut nothing, and the local
frequencies found are `10 + t/2`. -/
example : ∃ (g : Grid ⟨2, 2, 4⟩) (f : Field ⟨2, 2, 4⟩), g.Holds (some f) ∧
    ∃ g', getFrequency false (some 10) 0.2 5.0 g = (.ok (fun _ _ k => 10 + ((k : ℕ) : ℝ) / 2, 10.75), g') := by
  let t : Axis 4 := { lo := 0, hi := 3, dx := 1, pts := fun k => (k : ℕ) }
  let x : Axis 2 := { lo := 0, hi := 1, dx := 1, pts := fun k => (k : ℕ) }
  let f : Field ⟨2, 2, 4⟩ := fun _ _ k => exp (-I * ((t.pts k ^ 2 / 4 : ℝ) : ℂ))
  refine ⟨Grid.holding (s := ⟨2, 2, 4⟩) (.xyt x x) t f, f, Grid.holding_holds .., ?_⟩
  obtain ⟨g', e, -⟩ := C148_chirp (Grid.holding_holds (s := ⟨2, 2, 4⟩) (.xyt x x) t f) (fun _ _ _ => 1) (fun _ _ => 0) (fun _ _ => 0)
    (fun _ _ => 1 / 2) 10 0.2 5.0 false (by simp) (by
      intro i j k
      simp only [Grid.holding, f]
      rw [ofReal_one, one_mul]
      congr 3
      ring) (by simp) (by simp)
    (by intro k hk; simp [Grid.holding, t])
    (by
      intro i j k hk
      have := Real.two_le_pi
      simp only [Grid.holding, t]
      push_cast
      have hk' : (k : ℝ) + 1 ≤ 3 := by
        have : k + 1 ≤ 3 := by simp only at hk; omega
        exact_mod_cast this
      rw [abs_of_nonneg (by positivity)]
      linarith) (central := 10.75) (by
      simp [Grid.holding, t, Fin.sum_univ_four]
      norm_num)
  refine ⟨g', ?_⟩
  rw [e]
  congr 3
  funext i j k
  simp only [Grid.holding, t]
  have hk' : ((k : ℕ) : ℝ) ≤ 3 := by
    have : (k : ℕ) ≤ 3 := by have := k.2; simp only at this; omega
    exact_mod_cast this
  have hk0 : (0 : ℝ) ≤ ((k : ℕ) : ℝ) := by positivity
  rw [max_eq_left (by norm_num; linarith), min_eq_left (by norm_num; linarith)]
  ring

/-! ## smooth phases -/

/-- `np.gradient` of a continuously differentiable function -/
theorem gradient_near {n : ℕ} (hn : 3 ≤ n) (x : Fin n → ℝ) {h : ℝ} (hh : 0 < h)
    (hx : ∀ (k : ℕ) (hk : k + 1 < n), x ⟨k + 1, hk⟩ = x ⟨k, by omega⟩ + h) {q q' : ℝ → ℝ} {a b η : ℝ} (hm : ∀ k, x k ∈ Set.Icc a b)
    (hq : ∀ t, HasDerivAt q (q' t) t) (hu : ∀ s ∈ Set.Icc a b, ∀ t ∈ Set.Icc a b, |s - t| ≤ 2 * h → |q' s - q' t| ≤ η) :
    ∃ D, gradient (fun k => q (x k)) x = .ok D ∧ ∀ k, |D k - q' (x k)| ≤ 3 * η := by
  -- the remainder of first order
  have rem : ∀ k j, |x j - x k| ≤ 2 * h → |q (x j) - q (x k) - q' (x k) * (x j - x k)| ≤ η * |x j - x k| := by
    intro k j hjk
    have hconv := (convex_uIcc (x k) (x j)).norm_image_sub_le_of_norm_hasDerivWithin_le
      (f := fun t => q t - q' (x k) * t) (f' := fun t => q' t - q' (x k)) (C := η) (x := x k) (y := x j)
      (fun t _ => ((hq t).sub (by simpa using (hasDerivAt_id t).const_mul (q' (x k)))).hasDerivWithinAt)
      (by
        intro t ht
        rw [Real.norm_eq_abs]
        have hsub : Set.uIcc (x k) (x j) ⊆ Set.Icc a b := Set.uIcc_subset_Icc (hm k) (hm j)
        exact hu t (hsub ht) (x k) (hm k) ((Set.abs_sub_left_of_mem_uIcc ht).trans hjk))
      Set.left_mem_uIcc Set.right_mem_uIcc
    rw [Real.norm_eq_abs, Real.norm_eq_abs] at hconv
    rw [show q (x j) - q (x k) - q' (x k) * (x j - x k) = q (x j) - q' (x k) * x j - (q (x k) - q' (x k) * x k) by ring]
    exact hconv
  have hη : 0 ≤ η := (abs_nonneg _).trans (hu (x ⟨0, by omega⟩) (hm _) (x ⟨0, by omega⟩) (hm _) (by simp; linarith))
  unfold gradient
  rw [dif_pos hn]
  refine ⟨_, rfl, ?_⟩
  rintro ⟨k, hk⟩
  dsimp only
  split
  · rename_i k0
    subst k0
    have h1 := hx 0 (by omega)
    have h2 := hx 1 (by omega)
    simp only [zero_add] at h1
    simp only [Nat.reduceAdd] at h2
    have r1 := rem ⟨0, by omega⟩ ⟨1, by omega⟩
    have r2 := rem ⟨0, by omega⟩ ⟨2, by omega⟩
    generalize x ⟨0, by omega⟩ = x0 at *
    generalize x ⟨1, by omega⟩ = x1 at *
    generalize x ⟨2, by omega⟩ = x2 at *
    have d1 : x1 - x0 = h := by linarith
    have d2 : x2 - x1 = h := by linarith
    have d3 : x2 - x0 = 2 * h := by linarith
    rw [d1, abs_of_pos hh] at r1
    rw [d3, abs_of_pos (by linarith : (0:ℝ) < 2 * h)] at r2
    have r1' := abs_le.1 (r1 (by linarith))
    have r2' := abs_le.1 (r2 le_rfl)
    simp only [smul_eq_mul, d1, d2]
    have e : -(2 * h + h) / (h * (h + h)) * q x0 + (h + h) / (h * h) * q x1 + -h / (h * (h + h)) * q x2 - q' x0 =
        (4 * (q x1 - q x0 - q' x0 * h) - (q x2 - q x0 - q' x0 * (2 * h))) / (2 * h) := by
      field_simp
      ring
    rw [e, abs_le, le_div_iff₀ (by linarith), div_le_iff₀ (by linarith)]
    constructor <;> nlinarith [r1'.1, r1'.2, r2'.1, r2'.2]
  · split
    · rename_i k0 kn
      have h1 := hx (n - 3) (by omega)
      have h2 := hx (n - 2) (by omega)
      have e1 : n - 3 + 1 = n - 2 := by omega
      have e2 : n - 2 + 1 = n - 1 := by omega
      have e3 : k = n - 1 := by omega
      subst e3
      simp only [e1] at h1
      simp only [e2] at h2
      have r1 := rem ⟨n - 1, by omega⟩ ⟨n - 2, by omega⟩
      have r2 := rem ⟨n - 1, by omega⟩ ⟨n - 3, by omega⟩
      generalize x ⟨n - 3, by omega⟩ = x0 at *
      generalize x ⟨n - 2, by omega⟩ = x1 at *
      generalize x ⟨n - 1, by omega⟩ = x2 at *
      have d1 : x1 - x0 = h := by linarith
      have d2 : x2 - x1 = h := by linarith
      rw [show x1 - x2 = -h by linarith, abs_neg, abs_of_pos hh] at r1
      rw [show x0 - x2 = -(2 * h) by linarith, abs_neg, abs_of_pos (by linarith : (0:ℝ) < 2 * h)] at r2
      have r1' := abs_le.1 (r1 (by linarith))
      have r2' := abs_le.1 (r2 le_rfl)
      simp only [smul_eq_mul, d1, d2]
      have e : h / (h * (h + h)) * q x0 + -(h + h) / (h * h) * q x1 + (2 * h + h) / (h * (h + h)) * q x2 - q' x2 =
          ((q x0 - q x2 - q' x2 * -(2 * h)) - 4 * (q x1 - q x2 - q' x2 * -h)) / (2 * h) := by
        field_simp
        ring
      rw [e, abs_le, le_div_iff₀ (by linarith), div_le_iff₀ (by linarith)]
      constructor <;> nlinarith [r1'.1, r1'.2, r2'.1, r2'.2]
    · rename_i k0 kn
      have h1 := hx (k - 1) (by omega)
      have h2 := hx k (by omega)
      have e1 : k - 1 + 1 = k := by omega
      simp only [e1] at h1
      have r1 := rem ⟨k, by omega⟩ ⟨k - 1, by omega⟩
      have r2 := rem ⟨k, by omega⟩ ⟨k + 1, by omega⟩
      generalize x ⟨k - 1, by omega⟩ = x0 at *
      generalize x ⟨k, by omega⟩ = x1 at *
      generalize x ⟨k + 1, by omega⟩ = x2 at *
      have d1 : x1 - x0 = h := by linarith
      have d2 : x2 - x1 = h := by linarith
      rw [show x0 - x1 = -h by linarith, abs_neg, abs_of_pos hh] at r1
      rw [d2, abs_of_pos hh] at r2
      have r1' := abs_le.1 (r1 (by linarith))
      have r2' := abs_le.1 (r2 (by linarith))
      simp only [smul_eq_mul, d1, d2]
      have e : -h / (h * (h + h)) * q x0 + (h - h) / (h * h) * q x1 + h / (h * (h + h)) * q x2 - q' x1 =
          ((q x2 - q x1 - q' x1 * h) - (q x0 - q x1 - q' x1 * -h)) / (2 * h) := by
        field_simp
        ring
      rw [e, abs_le, le_div_iff₀ (by linarith), div_le_iff₀ (by linarith)]
      constructor <;> nlinarith [r1'.1, r1'.2, r2'.1, r2'.2]

/-- cutting at two bounds relative to the centre is Lipschitz -/
theorem clip_close {lower upper c c' w w' ε : ℝ} (hw : |w - w'| ≤ ε) (hc : (1 + |lower| + |upper|) * |c - c'| ≤ ε) :
    |clipFrequency lower upper c w - clipFrequency lower upper c' w'| ≤ ε := by
  have h0 := abs_nonneg (c - c')
  have h1 : |lower * c - lower * c'| ≤ ε := by
    rw [← mul_sub, abs_mul]
    nlinarith [abs_nonneg lower, abs_nonneg upper]
  have h2 : |upper * c - upper * c'| ≤ ε := by
    rw [← mul_sub, abs_mul]
    nlinarith [abs_nonneg lower, abs_nonneg upper]
  unfold clipFrequency
  exact (abs_min_sub_min_le_max _ _ _ _).trans (max_le ((abs_max_sub_max_le_max _ _ _ _).trans (max_le hw h1)) h2)

/-- the means of two fields that are close are close -/
theorem mean3_close {a b : RField s} {A : RField s} (hA : ∀ i j k, 0 ≤ A i j k) (h0 : ∑ i, ∑ j, ∑ k, A i j k ≠ 0) {ε : ℝ}
    (h : ∀ i j k, |a i j k - b i j k| ≤ ε) :
    |(∑ i, ∑ j, ∑ k, a i j k * A i j k) / (∑ i, ∑ j, ∑ k, A i j k) - (∑ i, ∑ j, ∑ k, b i j k * A i j k) / ∑ i, ∑ j, ∑ k, A i j k| ≤ ε := by
  have hpos : 0 < ∑ i, ∑ j, ∑ k, A i j k :=
    lt_of_le_of_ne (Finset.sum_nonneg fun i _ => Finset.sum_nonneg fun j _ => Finset.sum_nonneg fun k _ => hA i j k) h0.symm
  rw [← sub_div, abs_div, abs_of_pos hpos, div_le_iff₀ hpos]
  simp only [← Finset.sum_sub_distrib, ← sub_mul, Finset.mul_sum]
  refine (Finset.abs_sum_le_sum_abs _ _).trans (Finset.sum_le_sum fun i _ => (Finset.abs_sum_le_sum_abs _ _).trans
    (Finset.sum_le_sum fun j _ => (Finset.abs_sum_le_sum_abs _ _).trans (Finset.sum_le_sum fun k _ => ?_)))
  rw [abs_mul, abs_of_nonneg (hA i j k)]
  exact mul_le_mul_of_nonneg_right (h i j k) (hA i j k)

theorem frequency_fine [Phys] (lo0 lo1 lo2 hi0 hi1 hi2 : ℝ) (h0 : lo0 < hi0) (h1 : lo1 < hi1) (h2 : lo2 < hi2) (p : ProfileObj)
    (hp : p.laserEnergy = none) (hd : p.dtype = .c128) {A q q' : ℝ → ℝ → ℝ → ℝ}
    (hA : Continuous fun v : ℝ × ℝ × ℝ => A v.1 v.2.1 v.2.2) (hA0 : ∀ x y t, 0 < A x y t)
    (hq : ∀ x y t, HasDerivAt (q x y) (q' x y t) t) (hq' : Continuous fun v : ℝ × ℝ × ℝ => q' v.1 v.2.1 v.2.2)
    (hF : p.Pointwise fun x y t => A x y t * exp (-I * q x y t)) (w0 lower upper mean : ℝ)
    (hnz : (∫ x in lo0..hi0, ∫ y in lo1..hi1, ∫ t in lo2..hi2, A x y t) ≠ 0)
    (hmean : mean = (∫ x in lo0..hi0, ∫ y in lo1..hi1, ∫ t in lo2..hi2, (w0 + q' x y t) * A x y t) /
      ∫ x in lo0..hi0, ∫ y in lo1..hi1, ∫ t in lo2..hi2, A x y t)
    (ih : Bool) (m nT : Option ℕ) {ε : ℝ} (hε : 0 < ε) :
    ∃ N : ℕ, ∀ nx ≥ N, ∀ ny ≥ N, ∀ nt ≥ N, ∃ (l : Laser ⟨nx, ny, nt⟩) (omega : RField ⟨nx, ny, nt⟩) (central : ℝ) (g' : Grid ⟨nx, ny, nt⟩),
      Laser.init "xyt" [lo0, lo1, lo2] [hi0, hi1, hi2] [nx, ny, nt] p m nT = .ok ⟨_, l⟩ ∧
      getFrequency ih (some w0) lower upper l.grid = (.ok (omega, central), g') ∧ l.grid.isEnvelope = true ∧
      g'.Holds (some fun i j k => (A (linspace lo0 hi0 nx i) (linspace lo1 hi1 ny j) (linspace lo2 hi2 nt k) : ℂ) *
        exp (-I * q (linspace lo0 hi0 nx i) (linspace lo1 hi1 ny j) (linspace lo2 hi2 nt k))) ∧ |central - mean| ≤ ε ∧
      ∀ i j k, |omega i j k - min (max (w0 + q' (linspace lo0 hi0 nx i) (linspace lo1 hi1 ny j) (linspace lo2 hi2 nt k))
        (lower * mean)) (upper * mean)| ≤ ε := by
  have hcp := Phys.c_pos
  have hpi := Real.pi_pos
  set κ := 1 + |lower| + |upper| with hκ
  have hκ1 : 1 ≤ κ := by
    have := abs_nonneg lower
    have := abs_nonneg upper
    linarith
  obtain ⟨ε1, hε1, hε1'⟩ : ∃ e > 0, 2 * κ * e ≤ ε := ⟨ε / (2 * κ), by positivity, by rw [mul_div_cancel₀ _ (by positivity)]⟩
  have hK : IsCompact (box lo0 hi0 lo1 hi1 lo2 hi2) := isCompact_Icc.prod (isCompact_Icc.prod isCompact_Icc)
  have huc := hK.uniformContinuousOn_of_continuous hq'.continuousOn
  rw [Metric.uniformContinuousOn_iff] at huc
  obtain ⟨δ, hδ, hud⟩ := huc (ε1 / 3) (by positivity)
  obtain ⟨M, hM⟩ := hK.exists_bound_of_continuousOn hq'.continuousOn
  have b0 := box_tendsto h0.le h1.le h2.le (G := A) hA.continuousOn
  have b1 := box_tendsto h0.le h1.le h2.le (G := fun x y t => (w0 + q' x y t) * A x y t) ((continuous_const.add hq').mul hA).continuousOn
  have key := (b1.div b0 hnz).eventually (Metric.closedBall_mem_nhds _ hε1)
  have hne := b0.eventually_ne hnz
  obtain ⟨⟨Na, Nb, Nc⟩, hN⟩ := Filter.eventually_atTop.1 (key.and hne)
  -- a step small enough
  have hstep : ∀ᶠ n : ℕ in Filter.atTop, (hi2 - lo2) / ((n : ℝ) - 1) ≤ min (δ / 4) (Real.pi / (2 * (|M| + 1))) := by
    have : Filter.Tendsto (fun n : ℕ => (hi2 - lo2) / ((n : ℝ) - 1)) Filter.atTop (nhds 0) :=
      Filter.Tendsto.div_atTop tendsto_const_nhds (Filter.tendsto_atTop_add_const_right _ _ tendsto_natCast_atTop_atTop)
    exact this.eventually (Iic_mem_nhds (by positivity))
  obtain ⟨Nd, hNd⟩ := Filter.eventually_atTop.1 hstep
  refine ⟨max (max Na 3) (max Nb (max Nc Nd)), fun nx hx ny hy nt hn => ?_⟩
  have hx' : Na ≤ nx ∧ 2 ≤ nx := by constructor <;> omega
  have hy' : Nb ≤ ny ∧ 2 ≤ ny := by constructor <;> omega
  have ht' : Nc ≤ nt ∧ 3 ≤ nt := by constructor <;> omega
  have hs := hNd nt (by omega)
  have hnt2 : (3 : ℝ) ≤ nt := by exact_mod_cast ht'.2
  obtain ⟨k1, k2⟩ := hN (nx, ny, nt) ⟨hx'.1, hy'.1, ht'.1⟩
  simp only at k1 k2
  obtain ⟨l, hl, hh⟩ := C14_unscaled_xyt lo0 lo1 lo2 hi0 hi1 hi2 nx ny nt hx'.2 hy'.2 (by omega) p hp hd _ hF m nT
  obtain ⟨-, hpts⟩ := init_xyt_volume hl
  set h := (hi2 - lo2) / ((nt : ℝ) - 1) with hhd
  have hh0 : 0 < h := div_pos (by linarith) (by linarith)
  have hh1 : h ≤ δ / 4 := hs.trans (min_le_left _ _)
  have hh2 : h ≤ Real.pi / (2 * (|M| + 1)) := hs.trans (min_le_right _ _)
  let X := fun i : Fin nx => linspace lo0 hi0 nx i
  let Y := fun j : Fin ny => linspace lo1 hi1 ny j
  let T := fun k : Fin nt => linspace lo2 hi2 nt k
  have mX : ∀ i, X i ∈ Set.Icc lo0 hi0 := fun i => linspace_mem h0.le i
  have mY : ∀ j, Y j ∈ Set.Icc lo1 hi1 := fun j => linspace_mem h1.le j
  have mT : ∀ k, T k ∈ Set.Icc lo2 hi2 := fun k => linspace_mem h2.le k
  have hT : ∀ (k : ℕ) (hk : k + 1 < nt), T ⟨k + 1, hk⟩ = T ⟨k, by omega⟩ + h := by
    intro k hk
    simp only [T, linspace, ← hhd]
    push_cast
    ring
  have hTi : Increasing T := fun k hk => by rw [hT k hk]; linarith
  -- the local rate
  have hr : ∀ i j, ∃ D : Fin nt → ℝ, gradient (fun k => -unwrap (fun k => angle ((A (X i) (Y j) (T k) : ℂ) * exp (-I * q (X i) (Y j) (T k)))) k) T = .ok D ∧
      ∀ k, |D k - q' (X i) (Y j) (T k)| ≤ ε1 := by
    intro i j
    rw [gradient_polar (by omega) T hTi (A := fun k => A (X i) (Y j) (T k)) (ph := fun k => q (X i) (Y j) (T k)) (fun k => hA0 _ _ _) (fun k => rfl) ?_]
    · obtain ⟨D, e, hD⟩ := gradient_near ht'.2 T hh0 hT (q := q (X i) (Y j)) (q' := q' (X i) (Y j)) (η := ε1 / 3) mT (hq _ _) (by
        intro s hs t ht hst
        have := hud (X i, Y j, s) ⟨mX i, mY j, hs⟩ (X i, Y j, t) ⟨mX i, mY j, ht⟩ (by
          simp only [Prod.dist_eq, dist_self, Real.dist_eq]
          refine max_lt hδ (max_lt hδ ?_)
          linarith)
        rw [Real.dist_eq] at this
        exact this.le)
      exact ⟨D, e, fun k => by have := hD k; linarith⟩
    · intro k hk
      have hb := (convex_Icc lo2 hi2).norm_image_sub_le_of_norm_hasDerivWithin_le (f := q (X i) (Y j)) (f' := q' (X i) (Y j)) (C := |M|)
        (fun t _ => (hq (X i) (Y j) t).hasDerivWithinAt)
        (fun t ht => (hM (X i, Y j, t) ⟨mX i, mY j, ht⟩).trans (le_abs_self M)) (mT ⟨k, by omega⟩) (mT ⟨k + 1, hk⟩)
      rw [Real.norm_eq_abs, Real.norm_eq_abs, hT k hk, add_sub_cancel_left, abs_of_pos hh0] at hb
      rw [hT k hk]
      refine lt_of_le_of_lt hb ?_
      have hM0 := abs_nonneg M
      rw [le_div_iff₀ (by positivity)] at hh2
      nlinarith
  choose D hD hDc using hr
  set f : Field ⟨nx, ny, nt⟩ := fun i j k => (A (X i) (Y j) (T k) : ℂ) * exp (-I * q (X i) (Y j) (T k)) with hf
  have hnorm : ∀ i j k, ‖f i j k‖ = A (X i) (Y j) (T k) := by
    intro i j k
    rw [hf]
    dsimp only
    rw [norm_mul, norm_real, Real.norm_of_nonneg (hA0 _ _ _).le,
      show -I * (q (X i) (Y j) (T k) : ℂ) = ((-q (X i) (Y j) (T k) : ℝ) : ℂ) * I by push_cast; ring, Complex.norm_exp_ofReal_mul_I, mul_one]
  have hrate : phaseRate f l.grid.t.pts = .ok D := by
    rw [hpts]
    exact phaseRate_of hD
  let a : RField ⟨nx, ny, nt⟩ := fun i j k => A (X i) (Y j) (T k)
  have hS0 : ∑ i, ∑ j, ∑ k, a i j k ≠ 0 := by
    intro hc
    apply k2
    have e := sum_eq_linSum lo0 lo1 lo2 hi0 hi1 hi2 nx ny nt A
    simp only [← Finset.mul_sum] at e
    have : c * (linSum lo0 hi0 nx fun x => linSum lo1 hi1 ny fun y => linSum lo2 hi2 nt (A x y)) = 0 := by
      rw [← e]
      exact mul_eq_zero_of_right _ hc
    exact (mul_eq_zero.1 this).resolve_left hcp.ne'
  have hratio : (∑ i, ∑ j, ∑ k, (w0 + q' (X i) (Y j) (T k)) * a i j k) / (∑ i, ∑ j, ∑ k, a i j k) =
      (linSum lo0 hi0 nx fun x => linSum lo1 hi1 ny fun y => linSum lo2 hi2 nt fun t => (w0 + q' x y t) * A x y t) /
        linSum lo0 hi0 nx fun x => linSum lo1 hi1 ny fun y => linSum lo2 hi2 nt (A x y) := by
    have e := sum_eq_linSum lo0 lo1 lo2 hi0 hi1 hi2 nx ny nt A
    have e' := sum_eq_linSum lo0 lo1 lo2 hi0 hi1 hi2 nx ny nt fun x y t => (w0 + q' x y t) * A x y t
    simp only [← Finset.mul_sum] at e e'
    have hP : (hi0 - lo0) / ((nx : ℝ) - 1) * ((hi1 - lo1) / ((ny : ℝ) - 1)) * ((hi2 - lo2) / ((nt : ℝ) - 1) * c) ≠ 0 := by
      intro hc
      rw [hc, zero_mul] at e
      exact k2 ((mul_eq_zero.1 e.symm).resolve_left hcp.ne')
    rw [← mul_div_mul_left _ (linSum lo0 hi0 nx fun x => linSum lo1 hi1 ny fun y => linSum lo2 hi2 nt (A x y)) hcp.ne', ← e, ← e',
      mul_div_mul_left _ _ hP]
  set central := (∑ i, ∑ j, ∑ k, (w0 + D i j k) * a i j k) / ∑ i, ∑ j, ∑ k, a i j k with hcen
  have hsum : ∑ p : Fin nx × Fin ny × Fin nt, ‖f p.1 p.2.1 p.2.2‖ ≠ 0 := by
    simp only [hnorm]
    rw [sum3 (s := ⟨nx, ny, nt⟩) a]
    exact hS0
  have hav : average3 (fun i j k => w0 + D i j k) (fun i j k => ‖f i j k‖) = .ok central := by
    rw [hcen, ← sum3 (s := ⟨nx, ny, nt⟩) a, ← sum3 (s := ⟨nx, ny, nt⟩) fun i j k => (w0 + D i j k) * a i j k]
    unfold average3
    rw [average_ok hsum]
    simp only [hnorm]
    rfl
  obtain ⟨g', e, hg', -, -⟩ := getFrequency_holds hh ih w0 lower upper hrate hav
  have hcc : |central - mean| ≤ 2 * ε1 := by
    have m1 := mean3_close (s := ⟨nx, ny, nt⟩) (a := fun i j k => w0 + D i j k) (b := fun i j k => w0 + q' (X i) (Y j) (T k)) (A := a)
      (fun i j k => (hA0 _ _ _).le) hS0 (ε := ε1) (fun i j k => by rw [add_sub_add_left_eq_sub]; exact hDc i j k)
    rw [hratio, ← hcen] at m1
    rw [← hmean, Real.dist_eq, Pi.div_apply] at k1
    have := abs_sub_le central ((linSum lo0 hi0 nx fun x => linSum lo1 hi1 ny fun y => linSum lo2 hi2 nt fun t => (w0 + q' x y t) * A x y t) /
        linSum lo0 hi0 nx fun x => linSum lo1 hi1 ny fun y => linSum lo2 hi2 nt (A x y)) mean
    linarith
  refine ⟨l, _, _, g', hl, e, Grid.Holds.env hh, hg', ?_, ?_⟩
  · nlinarith
  · intro i j k
    refine clip_close ?_ ?_
    · rw [add_sub_add_left_eq_sub]
      have := hDc i j k
      nlinarith
    · rw [← hκ]
      nlinarith

/-- **C148** (smooth phase). For every new laser with envelope `A exp(-i q)`, `A` positive and continuous, `q` continuously
differentiable in time, on fine enough grids `get_frequency` gives the instantaneous frequency `omega0 + ∂q/∂t` at every sample,
cut at the bounds, and as central frequency the mean of the instantaneous frequency over the pulse, weighted with the amplitude. -/
theorem C148_fine [Phys] (lo0 lo1 lo2 hi0 hi1 hi2 : ℝ) (h0 : lo0 < hi0) (h1 : lo1 < hi1) (h2 : lo2 < hi2) (p : ProfileObj)
    (hp : p.laserEnergy = none) (hd : p.dtype = .c128) {A q q' : ℝ → ℝ → ℝ → ℝ}
    (hA : Continuous fun v : ℝ × ℝ × ℝ => A v.1 v.2.1 v.2.2) (hA0 : ∀ x y t, 0 < A x y t)
    (hq : ∀ x y t, HasDerivAt (q x y) (q' x y t) t) (hq' : Continuous fun v : ℝ × ℝ × ℝ => q' v.1 v.2.1 v.2.2)
    (hF : p.Pointwise fun x y t => A x y t * exp (-I * q x y t)) (w0 lower upper mean : ℝ)
    (hnz : (∫ x in lo0..hi0, ∫ y in lo1..hi1, ∫ t in lo2..hi2, A x y t) ≠ 0)
    (hmean : mean = (∫ x in lo0..hi0, ∫ y in lo1..hi1, ∫ t in lo2..hi2, (w0 + q' x y t) * A x y t) /
      ∫ x in lo0..hi0, ∫ y in lo1..hi1, ∫ t in lo2..hi2, A x y t)
    (ih : Bool) (m nT : Option ℕ) {ε : ℝ} (hε : 0 < ε) :
    ∃ N : ℕ, ∀ nx ≥ N, ∀ ny ≥ N, ∀ nt ≥ N, ∃ (l : Laser ⟨nx, ny, nt⟩) (omega : RField ⟨nx, ny, nt⟩) (central : ℝ) (g' : Grid ⟨nx, ny, nt⟩),
      Laser.init "xyt" [lo0, lo1, lo2] [hi0, hi1, hi2] [nx, ny, nt] p m nT = .ok ⟨_, l⟩ ∧
      getFrequency ih (some w0) lower upper l.grid = (.ok (omega, central), g') ∧ |central - mean| ≤ ε ∧
      ∀ i j k, |omega i j k - min (max (w0 + q' (linspace lo0 hi0 nx i) (linspace lo1 hi1 ny j) (linspace lo2 hi2 nt k))
        (lower * mean)) (upper * mean)| ≤ ε := by
  obtain ⟨N, hN⟩ := frequency_fine lo0 lo1 lo2 hi0 hi1 hi2 h0 h1 h2 p hp hd hA hA0 hq hq' hF w0 lower upper mean hnz hmean ih m nT hε
  refine ⟨N, fun nx hx ny hy nt ht => ?_⟩
  obtain ⟨l, omega, central, g', e1, e2, -, -, e3, e4⟩ := hN nx hx ny hy nt ht
  exact ⟨l, omega, central, g', e1, e2, e3, e4⟩

/-- **C148** (vector potential). With a positive mean frequency, `field_to_vector_potential` tends, uniformly on the grid, to the
field divided by `i mₑ c ω / e` with the instantaneous frequency `ω`, cut at 0.2 and 5 times the mean frequency. -/
theorem C148_vector_potential [Phys] (lo0 lo1 lo2 hi0 hi1 hi2 : ℝ) (h0 : lo0 < hi0) (h1 : lo1 < hi1) (h2 : lo2 < hi2) (p : ProfileObj)
    (hp : p.laserEnergy = none) (hd : p.dtype = .c128) {A q q' : ℝ → ℝ → ℝ → ℝ}
    (hA : Continuous fun v : ℝ × ℝ × ℝ => A v.1 v.2.1 v.2.2) (hA0 : ∀ x y t, 0 < A x y t)
    (hq : ∀ x y t, HasDerivAt (q x y) (q' x y t) t) (hq' : Continuous fun v : ℝ × ℝ × ℝ => q' v.1 v.2.1 v.2.2)
    {F : ℝ → ℝ → ℝ → ℂ} (hFe : F = fun x y t => A x y t * exp (-I * q x y t)) (hF : p.Pointwise F) (w0 mean : ℝ)
    (hnz : (∫ x in lo0..hi0, ∫ y in lo1..hi1, ∫ t in lo2..hi2, A x y t) ≠ 0)
    (hmean : mean = (∫ x in lo0..hi0, ∫ y in lo1..hi1, ∫ t in lo2..hi2, (w0 + q' x y t) * A x y t) /
      ∫ x in lo0..hi0, ∫ y in lo1..hi1, ∫ t in lo2..hi2, A x y t) (hpos : 0 < mean)
    {w : ℝ → ℝ → ℝ → ℝ} (hw : w = fun x y t => min (max (w0 + q' x y t) (0.2 * mean)) (5.0 * mean))
    (m nT : Option ℕ) {ε : ℝ} (hε : 0 < ε) :
    ∃ N : ℕ, ∀ nx ≥ N, ∀ ny ≥ N, ∀ nt ≥ N, ∃ (l : Laser ⟨nx, ny, nt⟩) (a : Field ⟨nx, ny, nt⟩) (g' : Grid ⟨nx, ny, nt⟩),
      Laser.init "xyt" [lo0, lo1, lo2] [hi0, hi1, hi2] [nx, ny, nt] p m nT = .ok ⟨_, l⟩ ∧
      fieldToVectorPotential w0 l.grid = (.ok a, g') ∧
      ∀ i j k x y t, x = linspace lo0 hi0 nx i → y = linspace lo1 hi1 ny j → t = linspace lo2 hi2 nt k →
        ‖a i j k - F x y t / (I * me * c * w x y t / Phys.e)‖ ≤ ε := by
  have hcp := Phys.c_pos
  have hep := Phys.e_pos
  have hmp := Phys.me_pos
  subst hFe
  have hK : IsCompact (box lo0 hi0 lo1 hi1 lo2 hi2) := isCompact_Icc.prod (isCompact_Icc.prod isCompact_Icc)
  obtain ⟨M, hM⟩ := hK.exists_bound_of_continuousOn hA.continuousOn
  set β := 0.1 * mean with hβ
  have hβ0 : 0 < β := by positivity
  set κ := Phys.e * (|M| + 1) / (me * c * (2 * β ^ 2)) with hκ
  have hκ0 : 0 < κ := by positivity
  obtain ⟨η, hη, hη1, hη2⟩ : ∃ η > 0, η ≤ β ∧ κ * η ≤ ε :=
    ⟨min β (ε / κ), by positivity, min_le_left _ _, by
      have := min_le_right β (ε / κ)
      rw [le_div_iff₀ hκ0] at this
      linarith⟩
  obtain ⟨N, hN⟩ := frequency_fine lo0 lo1 lo2 hi0 hi1 hi2 h0 h1 h2 p hp hd hA hA0 hq hq' hF w0 0.2 5.0 mean hnz hmean false m nT hη
  refine ⟨N, fun nx hx ny hy nt ht => ?_⟩
  obtain ⟨l, omega, central, g1, hl, hfr, henv, hg1, -, hom⟩ := hN nx hx ny hy nt ht
  obtain ⟨g2, e2, h2', -, -⟩ := hg1.getT
  have hvp : fieldToVectorPotential w0 l.grid = (.ok fun i j k => -I * Phys.e *
      ((A (linspace lo0 hi0 nx i) (linspace lo1 hi1 ny j) (linspace lo2 hi2 nt k) : ℂ) *
        exp (-I * q (linspace lo0 hi0 nx i) (linspace lo1 hi1 ny j) (linspace lo2 hi2 nt k))) / (me * omega i j k * c), g2) := by
    unfold fieldToVectorPotential
    rw [Py.bind_ok (Py.get_apply l.grid), Py.bind_ok (Py.require_pos henv l.grid), Py.bind_ok hfr]
    simp only
    rw [Py.bind_ok e2]
    rfl
  refine ⟨l, _, g2, hl, hvp, ?_⟩
  intro i j k x y t hx' hy' ht'
  have ho := hom i j k
  rw [← hx', ← hy', ← ht'] at ho ⊢
  have hmem : (x, y, t) ∈ box lo0 hi0 lo1 hi1 lo2 hi2 := by
    rw [hx', hy', ht']
    exact ⟨linspace_mem h0.le i, linspace_mem h1.le j, linspace_mem h2.le k⟩
  have hMA := hM (x, y, t) hmem
  rw [Real.norm_of_nonneg (hA0 _ _ _).le] at hMA
  have hMA' : A x y t ≤ |M| + 1 := by
    have := le_abs_self M
    dsimp only at hMA
    linarith
  have hwx : w x y t = min (max (w0 + q' x y t) (0.2 * mean)) (5.0 * mean) := by rw [hw]
  rw [← hwx] at ho
  have hw2 : 2 * β ≤ w x y t := by
    rw [hwx, hβ]
    refine le_min (le_trans (by norm_num; linarith) (le_max_right _ _)) (by norm_num; linarith)
  have hab := abs_le.1 ho
  have ho1 : β ≤ omega i j k := by linarith [hab.1]
  set W := w x y t
  set O := omega i j k
  have hW : 0 < W := by linarith
  have hO : 0 < O := by linarith
  have hne : (W : ℂ) ≠ 0 ∧ (O : ℂ) ≠ 0 ∧ (me : ℂ) ≠ 0 ∧ (c : ℂ) ≠ 0 ∧ (Phys.e : ℂ) ≠ 0 :=
    ⟨by exact_mod_cast hW.ne', by exact_mod_cast hO.ne', by exact_mod_cast hmp.ne', by exact_mod_cast hcp.ne', by exact_mod_cast hep.ne'⟩
  obtain ⟨n1, n2, n3, n4, n5⟩ := hne
  have hnf : ‖(A x y t : ℂ) * exp (-I * q x y t)‖ = A x y t := by
    rw [norm_mul, norm_real, Real.norm_of_nonneg (hA0 _ _ _).le,
      show -I * (q x y t : ℂ) = ((-q x y t : ℝ) : ℂ) * I by push_cast; ring, Complex.norm_exp_ofReal_mul_I, mul_one]
  beta_reduce
  generalize (A x y t : ℂ) * exp (-I * q x y t) = f at hnf ⊢
  have e : -I * Phys.e * f / (me * O * c) - f / (I * me * c * W / Phys.e) =
      f * (-I) * ((Phys.e / (me * c) * ((W - O) / (O * W)) : ℝ) : ℂ) := by
    have : f / (I * me * c * W / Phys.e) = -I * Phys.e * f / (me * W * c) := by
      rw [div_div_eq_mul_div, div_eq_div_iff (by simp [n1, n3, n4]) (by simp [n1, n3, n4])]
      have := I_mul_I
      linear_combination ((Phys.e : ℂ) * f * me * c * W) * this
    rw [this]
    push_cast
    field_simp
    ring
  rw [e, norm_mul, norm_mul, norm_neg, norm_I, mul_one, hnf, norm_real, Real.norm_eq_abs, abs_mul, abs_of_pos (by positivity), abs_div,
    abs_of_pos (mul_pos hO hW), abs_sub_comm]
  have hOW : 2 * β ^ 2 ≤ O * W := by nlinarith
  have : A x y t * (Phys.e / (me * c) * (|O - W| / (O * W))) ≤ (|M| + 1) * (Phys.e / (me * c) * (η / (2 * β ^ 2))) := by
    gcongr
  refine this.trans (le_trans (le_of_eq ?_) hη2)
  rw [hκ]
  field_simp

/-- The hypotheses are met, with the CODATA constants, by a chirped pulse that is nowhere zero: `exp(-x²-y²-t²)` with phase
`t + t²/2` on the unit box. -/
example : (Continuous fun v : ℝ × ℝ × ℝ => Real.exp (-v.1 ^ 2 - v.2.1 ^ 2 - v.2.2 ^ 2)) ∧ (∀ x y t : ℝ, 0 < Real.exp (-x ^ 2 - y ^ 2 - t ^ 2)) ∧
    (∀ t : ℝ, HasDerivAt (fun t : ℝ => t + t ^ 2 / 2) (1 + t) t) ∧
    (∫ x in (0:ℝ)..1, ∫ y in (0:ℝ)..1, ∫ t in (0:ℝ)..1, Real.exp (-x ^ 2 - y ^ 2 - t ^ 2)) ≠ 0 := by
  refine ⟨by fun_prop, fun x y t => Real.exp_pos _, fun t => ?_, ?_⟩
  · have := (hasDerivAt_id' t).add ((hasDerivAt_pow 2 t).div_const 2)
    refine HasDerivAt.congr_deriv this ?_
    norm_num
  · have e : ∀ x y t : ℝ, Real.exp (-x ^ 2 - y ^ 2 - t ^ 2) = Real.exp (-x ^ 2) * (Real.exp (-y ^ 2) * Real.exp (-t ^ 2)) := by
      intro x y t
      rw [← Real.exp_add, ← Real.exp_add]
      ring_nf
    simp only [e, intervalIntegral.integral_const_mul, intervalIntegral.integral_mul_const]
    have hp : 0 < ∫ x in (0:ℝ)..1, Real.exp (-x ^ 2) :=
      intervalIntegral.intervalIntegral_pos_of_pos (by apply Continuous.intervalIntegrable; fun_prop) (fun x => Real.exp_pos _) one_pos
    positivity

end Lasy
