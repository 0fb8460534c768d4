import Verif.Lemmas.Zernike

/-!
# C51, C52: Zernike indices and radial polynomials
-/

namespace Lasy
open Finset

/-! ## C51 -/

/-- **C51.** For every `j ≥ 0`, `get_zernike_nm(j)` returns the pair `(m, n)` with `0 ≤ n`, `|m| ≤ n`, `n - m`
even, whose OSA/ANSI number `(n (n+2) + m) / 2` is `j`. -/
theorem C51_index (j : ℕ) : ∃ m n : ℤ, zernikeNM j = .ok (m, n) ∧ 0 ≤ n ∧ |m| ≤ n ∧ Even (n - m) ∧
    n * (n + 2) + m = 2 * j := by
  set S : ℝ := Real.sqrt (9 + 8 * (j : ℤ)) with hS
  set n : ℤ := ⌈(-3 + S) / 2⌉ with hn
  have hj : (0 : ℝ) ≤ ((j : ℤ) : ℝ) := by exact_mod_cast Int.natCast_nonneg j
  have hS2 : S ^ 2 = 9 + 8 * ((j : ℤ) : ℝ) := Real.sq_sqrt (by linarith)
  have hS3 : 3 ≤ S := by
    rw [hS, show (3 : ℝ) = Real.sqrt 9 by rw [show (9 : ℝ) = 3 ^ 2 by norm_num]; exact (Real.sqrt_sq (by norm_num)).symm]
    exact Real.sqrt_le_sqrt (by linarith)
  have hle : (-3 + S) / 2 ≤ n := Int.le_ceil _
  have hlt : (n : ℝ) < (-3 + S) / 2 + 1 := Int.ceil_lt_add_one _
  have hn0 : 0 ≤ n := by
    have : (-1 : ℝ) < n := by linarith
    have : (-1 : ℤ) < n := by exact_mod_cast this
    omega
  have hn0' : (0 : ℝ) ≤ n := by exact_mod_cast hn0
  have hU : (9 + 8 * ((j : ℤ) : ℝ)) ≤ (2 * n + 3) ^ 2 := by rw [← hS2]; exact pow_le_pow_left₀ (by linarith) (by linarith) 2
  have hL : (2 * (n : ℝ) + 1) ^ 2 < 9 + 8 * ((j : ℤ) : ℝ) := by rw [← hS2]; exact pow_lt_pow_left₀ (by linarith) (by linarith) (by norm_num)
  have hU' : (9 + 8 * (j : ℤ)) ≤ (2 * n + 3) ^ 2 := by exact_mod_cast hU
  have hL' : (2 * n + 1) ^ 2 < 9 + 8 * (j : ℤ) := by exact_mod_cast hL
  refine ⟨2 * j - n * (n + 2), n, ?_, hn0, ?_, ?_, by ring⟩
  · unfold zernikeNM
    rw [if_neg (by omega)]
  · obtain ⟨q, hq⟩ := Int.even_mul_succ_self n
    rw [abs_le]
    constructor
    · have : n * (n + 2) = n * (n + 1) + n := by ring
      have h2 : (2 * n + 1) ^ 2 = 4 * (n * (n + 1)) + 1 := by ring
      omega
    · nlinarith
  · have : n - (2 * j - n * (n + 2)) = n * (n + 1) + 2 * (n - j) := by ring
    rw [this]
    exact (Int.even_mul_succ_self n).add (even_two_mul _)

/-- **C51.** Every pair `(m, n)` with `|m| ≤ n` and `n - m` even is returned for exactly one `j ≥ 0`. -/
theorem C51_bijection (m n : ℤ) (hm : |m| ≤ n) (he : Even (n - m)) : ∃! j : ℕ, zernikeNM j = .ok (m, n) := by
  have hn : 0 ≤ n := (abs_nonneg m).trans hm
  rw [abs_le] at hm
  obtain ⟨q, hq⟩ : Even (n * (n + 2) + m) := by
    have : n * (n + 2) + m = n * (n + 1) + 2 * n - (n - m) := by ring
    rw [this]
    exact ((Int.even_mul_succ_self n).add (even_two_mul _)).sub he
  have hq0 : 0 ≤ q := by nlinarith
  obtain ⟨j, rfl⟩ : ∃ j : ℕ, q = j := ⟨q.toNat, by simp [hq0]⟩
  have uniq : ∀ (j : ℕ) (m' n' : ℤ), zernikeNM j = .ok (m', n') → n' * (n' + 2) + m' = 2 * j := by
    intro j m' n' h
    obtain ⟨a, b, hab, -, -, -, e⟩ := C51_index j
    rw [hab] at h
    simp only [Except.ok.injEq, Prod.mk.injEq] at h
    rw [← h.1, ← h.2]; exact e
  refine ⟨j, ?_, ?_⟩
  · obtain ⟨a, b, hab, hb, hab', -, e⟩ := C51_index j
    rw [abs_le] at hab'
    have hbn : b = n := by
      by_contra hne
      rcases lt_or_gt_of_ne hne with h | h
      · nlinarith
      · nlinarith
    subst hbn
    have : a = m := by omega
    rw [hab, this]
  · intro j' hj'
    have := uniq j' m n hj'
    omega

/-! ## C52 -/

/-- the radial polynomial of the definition (Born & Wolf), `n = 2 p + m` -/
noncomputable def bornWolfRadial (p m : ℕ) (rho : ℝ) : ℝ :=
  ∑ k ∈ range (p + 1), radCoef p m k * rho ^ (2 * p + m - 2 * k)

theorem foldlM_ok (f : ℕ → Except PyErr ℝ) (t : ℕ → ℝ) : ∀ (l : List ℕ) (a : ℝ), (∀ i ∈ l, f i = .ok (t i)) →
    l.foldlM (fun acc i => do return acc + (← f i)) a = .ok (a + (l.map t).sum) := by
  intro l
  induction l with
  | nil => intro a _; simp; rfl
  | cons i l ih =>
    intro a h
    rw [List.foldlM_cons, h i (by simp)]
    have := ih (a + t i) fun i' hi' => h i' (by simp [hi'])
    simp only [List.map_cons, List.sum_cons]
    rw [← add_assoc, ← this]
    rfl

theorem radialPoly_eq {ndim : ℕ} (hd : ndim = 1 ∨ ndim = 2) (p m : ℕ) (rho : ℝ) :
    radialPoly ndim ((2 * p + m : ℕ) : ℤ) m rho = .ok (bornWolfRadial p m rho) := by
  unfold radialPoly
  split
  · rename_i h
    have hp : p = 0 := by omega
    have hm : m = 0 := by omega
    subst hp hm
    simp [bornWolfRadial, radCoef]
  · have e1 : (((2 * p + m : ℕ) : ℤ) - m) = 2 * p := by push_cast; ring
    rw [if_pos (by rw [e1]; omega), if_neg (by rw [e1]; omega)]
    have e2 : (((2 * p + m : ℕ) : ℤ) - m) / 2 + 1 = ((p + 1 : ℕ) : ℤ) := by rw [e1]; push_cast; omega
    rw [e2, Int.toNat_natCast, foldlM_ok (t := fun k => radCoef p m k * rho ^ (2 * p + m - 2 * k))]
    · rw [zero_add]
      rfl
    · intro k hk
      have hk' : k ≤ p := by have := List.mem_range.1 hk; omega
      have f : ∀ a : ℕ, pyFactorial a = .ok a.factorial := by intro a; simp [pyFactorial]
      unfold radialTerm
      have a1 : ((2 * p + m : ℕ) : ℤ) - k = ((2 * p + m - k : ℕ) : ℤ) := by omega
      have a2 : (((2 * p + m : ℕ) : ℤ) + m) / 2 - k = ((p + m - k : ℕ) : ℤ) := by omega
      have a3 : (((2 * p + m : ℕ) : ℤ) - m) / 2 - k = ((p - k : ℕ) : ℤ) := by omega
      have a4 : ((2 * p + m : ℕ) : ℤ) - 2 * (k : ℤ) = ((2 * p + m - 2 * k : ℕ) : ℤ) := by omega
      rw [a1, a2, a3, a4, f, f, f, f, zpow_natCast]
      rfl

/-- **C52.** For `n ≥ m ≥ 0` with `n - m` even and arrays with one or two dimensions, `RmnGenerator(n, m, rho)` is
defined; its value at the edge `rho = 1` is `1`, it has the parity of `n`, and it is
`∑_k (-1)^k (n-k)! / (k! ((n+m)/2-k)! ((n-m)/2-k)!) rho^(n-2k)`. -/
theorem C52_radial {ndim : ℕ} (hd : ndim = 1 ∨ ndim = 2) (n m : ℕ) (hmn : m ≤ n) (he : Even (n - m)) :
    ∃ R : ℝ → ℝ, (∀ rho, radialPoly ndim n m rho = .ok (R rho)) ∧ R 1 = 1 ∧
      (∀ rho, R (-rho) = (-1) ^ n * R rho) ∧
      ∀ rho, R rho = ∑ k ∈ range ((n - m) / 2 + 1), ((-1) ^ k * ((n - k).factorial : ℝ)) /
        ((k.factorial : ℝ) * (((n + m) / 2 - k).factorial : ℝ) * (((n - m) / 2 - k).factorial : ℝ)) * rho ^ (n - 2 * k) := by
  obtain ⟨p, hp⟩ := he
  obtain rfl : n = 2 * p + m := by omega
  refine ⟨bornWolfRadial p m, radialPoly_eq hd p m, ?_, ?_, ?_⟩
  · simp only [bornWolfRadial, one_pow, mul_one]
    exact sum_radCoef p m
  · intro rho
    rw [bornWolfRadial, bornWolfRadial, mul_sum]
    refine sum_congr rfl fun k hk => ?_
    have hk' : k ≤ p := by have := mem_range.1 hk; omega
    have h1 : ((-1 : ℝ)) ^ (2 * p + m) = (-1) ^ (2 * p + m - 2 * k) := by
      have : 2 * p + m = (2 * p + m - 2 * k) + 2 * k := by omega
      conv_lhs => rw [this, pow_add, pow_mul]
      norm_num
    rw [neg_pow, h1]
    ring
  · intro rho
    have e1 : (2 * p + m - m) / 2 = p := by omega
    have e2 : (2 * p + m + m) / 2 = p + m := by omega
    rw [e1, e2]
    rfl

/-- **C52.** For `n > 0` and `n - m` odd the result is zero. -/
theorem C52_odd {ndim : ℕ} (hd : ndim = 1 ∨ ndim = 2) (n m : ℕ) (hn : 0 < n) (ho : ¬ Even ((n : ℤ) - m)) (rho : ℝ) :
    radialPoly ndim n m rho = .ok 0 := by
  unfold radialPoly
  rw [if_neg (by omega), if_neg (fun h => ho (Int.even_iff.2 h)), if_pos hd]

/-- **C52.** Arrays with another number of dimensions than one or two are refused. -/
theorem C52_ndim {ndim : ℕ} (hd : ndim ≠ 1 ∧ ndim ≠ 2) (n m : ℕ) (rho : ℝ) :
    ∀ v, radialPoly ndim n m rho ≠ .ok v := by
  intro v h
  have hd' : ¬ (ndim = 1 ∨ ndim = 2) := by omega
  unfold radialPoly at h
  simp only [hd', if_false] at h
  split_ifs at h

/-- `zernike(x, y, pupil, j)` in terms of the parts of the model; see `C52_zernike` -/
theorem zernike_form {ndim : ℕ} (hd : ndim = 1 ∨ ndim = 2) (j : ℕ) : ∃ (m : ℤ) (n p : ℕ), zernikeNM j = .ok (m, (n : ℤ)) ∧
    n = 2 * p + m.natAbs ∧ ∀ x y cgx cgy r : ℝ, zernike ndim x y cgx cgy r j =
      .ok (bornWolfRadial p m.natAbs (Real.sqrt ((x - cgx) ^ 2 + (y - cgy) ^ 2) / r) *
        zernikeAzimuthal m (arctan2 (y - cgy) (x - cgx)) * zernikeScaling n m) := by
  obtain ⟨m, n, h, hn, hmn, he, -⟩ := C51_index j
  obtain ⟨n, rfl⟩ : ∃ n' : ℕ, n = n' := ⟨n.toNat, by omega⟩
  obtain ⟨q, hq⟩ := he
  have hab : |m| = (m.natAbs : ℤ) := Int.abs_eq_natAbs m
  obtain ⟨p, hp⟩ : ∃ p : ℕ, n = 2 * p + m.natAbs := ⟨(n - m.natAbs) / 2, by omega⟩
  refine ⟨m, n, p, h, hp, fun x y cgx cgy r => ?_⟩
  have e := radialPoly_eq hd p m.natAbs (Real.sqrt ((x - cgx) ^ 2 + (y - cgy) ^ 2) / r)
  rw [← hp] at e
  rw [← hab] at e
  have e' : zernike ndim x y cgx cgy r j =
      (radialPoly ndim n |m| (Real.sqrt ((x - cgx) ^ 2 + (y - cgy) ^ 2) / r)).map fun R =>
        R * zernikeAzimuthal m (arctan2 (y - cgy) (x - cgx)) * zernikeScaling n m := by
    unfold zernike
    rw [h]
    rfl
  rw [e', e]
  rfl

/-- **C52**, whole modes: for `j ≥ 0` with the indices `(m, n)` of `get_zernike_nm`, `n = 2p + |m|`, the value of
`zernike` at the point with polar coordinates `(r ρ, θ)` around the centre of a pupil of radius `r` is
`√(n+1) R(ρ)` for `m = 0`, `√(2(n+1)) R(ρ) cos(mθ)` for `m > 0` and `√(2(n+1)) R(ρ) sin(|m|θ)` for `m < 0`, with
`R` the radial polynomial of the definition. In particular the branch of `RmnGenerator` which returns zero is
never used. -/
theorem C52_zernike {ndim : ℕ} (hd : ndim = 1 ∨ ndim = 2) (j : ℕ) : ∃ (m : ℤ) (n p : ℕ), zernikeNM j = .ok (m, (n : ℤ)) ∧
    n = 2 * p + m.natAbs ∧ ∀ cgx cgy r ρ θ : ℝ, 0 < r → 0 ≤ ρ →
      zernike ndim (cgx + r * ρ * Real.cos θ) (cgy + r * ρ * Real.sin θ) cgx cgy r j =
      .ok (Real.sqrt ((if m = 0 then 1 else 2) * ((n : ℝ) + 1)) * bornWolfRadial p m.natAbs ρ *
        (if m = 0 then 1 else if 0 < m then Real.cos (m * θ) else Real.sin (-m * θ))) := by
  obtain ⟨m, n, p, h, hn, hz⟩ := zernike_form hd j
  refine ⟨m, n, p, h, hn, fun cgx cgy r ρ θ hr hρ => ?_⟩
  rw [hz]
  congr 1
  simp only [add_sub_cancel_left]
  have e1 : Real.sqrt ((r * ρ * Real.cos θ) ^ 2 + (r * ρ * Real.sin θ) ^ 2) / r = ρ := by
    rw [show (r * ρ * Real.cos θ) ^ 2 + (r * ρ * Real.sin θ) ^ 2 = (r * ρ) ^ 2 by
      linear_combination (r * ρ) ^ 2 * Real.sin_sq_add_cos_sq θ, Real.sqrt_sq (by positivity)]
    field_simp
  have hscal : zernikeScaling n m = Real.sqrt ((if m = 0 then 1 else 2) * ((n : ℝ) + 1)) := by
    unfold zernikeScaling
    by_cases h0 : n = 0
    · have hm0 : m = 0 := by omega
      rw [if_pos (by exact_mod_cast h0), if_pos hm0, h0]
      norm_num
    · rw [if_neg (by exact_mod_cast h0)]
      split_ifs <;> push_cast <;> simp
  rw [e1, hscal]
  rcases hρ.eq_or_lt with rfl | hρ'
  · by_cases hm : m = 0
    · subst hm
      simp [zernikeAzimuthal]
      ring
    · have : bornWolfRadial p m.natAbs 0 = 0 := by
        unfold bornWolfRadial
        refine Finset.sum_eq_zero fun k hk => ?_
        rw [zero_pow, mul_zero]
        have := Finset.mem_range.1 hk
        omega
      rw [this]
      simp
  · have hrρ : 0 < r * ρ := mul_pos hr hρ'
    obtain ⟨q, hq⟩ : ∃ q : ℤ, arctan2 (r * ρ * Real.sin θ) (r * ρ * Real.cos θ) = θ + q * (2 * Real.pi) := by
      have hmem := toIocMod_mem_Ioc Real.two_pi_pos (-Real.pi) θ
      rw [show -Real.pi + 2 * Real.pi = Real.pi by ring] at hmem
      have harg := Complex.arg_mul_cos_add_sin_mul_I hrρ hmem
      obtain ⟨q, hq⟩ : ∃ q : ℤ, toIocMod Real.two_pi_pos (-Real.pi) θ = θ + q * (2 * Real.pi) :=
        ⟨-toIocDiv Real.two_pi_pos (-Real.pi) θ, by
          have := toIocMod_add_toIocDiv_zsmul Real.two_pi_pos (-Real.pi) θ
          simp only [zsmul_eq_mul] at this
          push_cast
          linarith⟩
      refine ⟨q, ?_⟩
      rw [← hq, ← harg, arctan2, angle, hq]
      congr 1
      push_cast
      rw [Complex.cos_add_int_mul_two_pi, Complex.sin_add_int_mul_two_pi]
      apply Complex.ext <;> simp [-Complex.ofReal_cos, -Complex.ofReal_sin, ← Complex.ofReal_cos, ← Complex.ofReal_sin]
    rw [hq]
    unfold zernikeAzimuthal
    rcases lt_trichotomy m 0 with hm | hm | hm
    · rw [if_pos hm, if_neg (show m ≠ 0 by omega), if_neg (show m ≠ 0 by omega), if_neg (show ¬ 0 < m by omega)]
      have : Real.sin (-m * (θ + q * (2 * Real.pi))) = Real.sin (-m * θ) := by
        rw [show (-m : ℝ) * (θ + q * (2 * Real.pi)) = -m * θ + ((-m * q : ℤ) : ℝ) * (2 * Real.pi) by push_cast; ring]
        exact Real.sin_add_int_mul_two_pi _ _
      rw [this]
      ring
    · subst hm
      simp
      ring
    · rw [if_neg (show ¬ m < 0 by omega), if_neg (show m ≠ 0 by omega), if_neg (show m ≠ 0 by omega), if_pos hm]
      have : Real.cos (m * (θ + q * (2 * Real.pi))) = Real.cos (m * θ) := by
        rw [show (m : ℝ) * (θ + q * (2 * Real.pi)) = m * θ + ((m * q : ℤ) : ℝ) * (2 * Real.pi) by push_cast; ring]
        exact Real.cos_add_int_mul_two_pi _ _
      rw [this]
      ring

/-- the astigmatism term `j = 5`: `(m, n) = (2, 2)`, `R = rho^2` -/
example : zernikeNM 5 = .ok (2, 2) ∧ ∀ rho, radialPoly 2 2 2 rho = .ok (rho ^ 2) := by
  constructor
  · obtain ⟨m, n, h, hn, hmn, he, e⟩ := C51_index 5
    rw [abs_le] at hmn
    push_cast at e
    have h2 : n = 2 := by
      have : n < 3 := by nlinarith
      have : 1 < n := by nlinarith
      omega
    subst h2
    have : m = 2 := by omega
    subst this
    exact h
  · intro rho
    have := radialPoly_eq (ndim := 2) (Or.inr rfl) 0 2 rho
    simpa [bornWolfRadial, radCoef, Nat.factorial] using this

end Lasy
