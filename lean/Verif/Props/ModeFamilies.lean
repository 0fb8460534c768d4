import Verif.Lemmas.Hermite
import Verif.Props.LaguerreGauss

/-!
# Property C138: the families of profiles agree where they should
-/

namespace Lasy
open Complex

/-! ## Hermite polynomials in two variables -/

/-- `F` is a combination of the products `H_a(x) H_b(y)` with `a + b = N` -/
def InHermite (N : ℕ) (F : ℝ → ℝ → ℂ) : Prop := ∃ c : ℕ → ℂ, ∀ x y : ℝ, F x y =
  ∑ k ∈ Finset.range (N + 1), c k * (((hermiteH (N - k)).eval x * (hermiteH k).eval y : ℝ) : ℂ)

/-- the operator that raises the order -/
theorem InHermite.raise {N : ℕ} {F Fx Fy : ℝ → ℝ → ℂ} (h : InHermite N F)
    (hx : ∀ x y, HasDerivAt (fun x => F x y) (Fx x y) x) (hy : ∀ x y, HasDerivAt (fun y => F x y) (Fy x y) y) (τ : ℂ) :
    InHermite (N + 1) fun x y => 2 * (x + τ * y) * F x y - (Fx x y + τ * Fy x y) := by
  obtain ⟨c, hc⟩ := h
  have hd : ∀ (n : ℕ) (x : ℝ), HasDerivAt (fun x : ℝ => (((hermiteH n).eval x : ℝ) : ℂ))
      ((((Polynomial.derivative (hermiteH n)).eval x : ℝ)) : ℂ) x := fun n x =>
    ((hermiteH n).hasDerivAt x).ofReal_comp
  have hFx : ∀ x y, Fx x y = ∑ k ∈ Finset.range (N + 1),
      c k * ((((Polynomial.derivative (hermiteH (N - k))).eval x * (hermiteH k).eval y : ℝ)) : ℂ) := by
    intro x y
    have h1 : HasDerivAt (fun x => F x y) (∑ k ∈ Finset.range (N + 1),
        c k * ((((Polynomial.derivative (hermiteH (N - k))).eval x * (hermiteH k).eval y : ℝ)) : ℂ)) x := by
      simp only [hc, Complex.ofReal_mul]
      exact HasDerivAt.fun_sum fun k _ => ((hd (N - k) x).mul_const _).const_mul _
    exact (hx x y).unique h1
  have hFy : ∀ x y, Fy x y = ∑ k ∈ Finset.range (N + 1),
      c k * ((((hermiteH (N - k)).eval x * (Polynomial.derivative (hermiteH k)).eval y : ℝ)) : ℂ) := by
    intro x y
    have h1 : HasDerivAt (fun y => F x y) (∑ k ∈ Finset.range (N + 1),
        c k * ((((hermiteH (N - k)).eval x * (Polynomial.derivative (hermiteH k)).eval y : ℝ)) : ℂ)) y := by
      simp only [hc, Complex.ofReal_mul]
      exact HasDerivAt.fun_sum fun k _ => ((hd k y).const_mul _).const_mul _
    exact (hy x y).unique h1
  have hH : ∀ (n : ℕ) (u : ℝ), (hermiteH (n + 1)).eval u =
      2 * u * (hermiteH n).eval u - (Polynomial.derivative (hermiteH n)).eval u := fun n u => by
    rw [hermiteH_succ]; simp
  refine ⟨fun k => (if k ≤ N then c k else 0) + (if k = 0 then 0 else τ * c (k - 1)), fun x y => ?_⟩
  have e1 : 2 * ((x : ℂ) + τ * y) * F x y - (Fx x y + τ * Fy x y) =
      ∑ k ∈ Finset.range (N + 1), c k * (((hermiteH (N - k + 1)).eval x * (hermiteH k).eval y : ℝ) : ℂ) +
      ∑ k ∈ Finset.range (N + 1), τ * c k * (((hermiteH (N - k)).eval x * (hermiteH (k + 1)).eval y : ℝ) : ℂ) := by
    rw [hc, hFx, hFy, Finset.mul_sum, Finset.mul_sum, ← Finset.sum_add_distrib, ← Finset.sum_sub_distrib,
      ← Finset.sum_add_distrib]
    refine Finset.sum_congr rfl fun k _ => ?_
    rw [hH, hH]
    push_cast
    ring
  show 2 * ((x : ℂ) + τ * y) * F x y - (Fx x y + τ * Fy x y) = _
  rw [e1]
  simp only [add_mul, Finset.sum_add_distrib]
  congr 1
  · symm
    rw [Finset.sum_range_succ, if_neg (by omega), zero_mul, add_zero]
    refine Finset.sum_congr rfl fun k hk => ?_
    rw [Finset.mem_range] at hk
    rw [if_pos (by omega), show N + 1 - k = N - k + 1 by omega]
  · symm
    rw [Finset.sum_range_succ']
    simp only [if_true, zero_mul, add_zero]
    refine Finset.sum_congr rfl fun k hk => ?_
    rw [if_neg (by omega), Nat.add_sub_cancel, show N + 1 - (k + 1) = N - k by omega]

theorem InHermite.congr {N : ℕ} {F G : ℝ → ℝ → ℂ} (h : InHermite N F) (e : ∀ x y, F x y = G x y) : InHermite N G := by
  obtain ⟨c, hc⟩ := h
  exact ⟨c, fun x y => (e x y).symm.trans (hc x y)⟩

theorem InHermite.smul {N : ℕ} {F : ℝ → ℝ → ℂ} (h : InHermite N F) (a : ℂ) : InHermite N fun x y => a * F x y := by
  obtain ⟨c, hc⟩ := h
  refine ⟨fun k => a * c k, fun x y => ?_⟩
  show a * F x y = _
  rw [hc, Finset.mul_sum]
  exact Finset.sum_congr rfl fun k _ => by ring

/-- one step in the radial index: `(p + 1) L_{p+1}^a = (a + 1 - X) L_p^{a+1} + X (L_p^{a+1})'` -/
theorem laguerreL_raise (p a : ℕ) (s : ℝ) : ((p : ℝ) + 1) * (laguerreL (p + 1) a).eval s =
    ((a : ℝ) + 1 - s) * (laguerreL p (a + 1)).eval s + s * (Polynomial.derivative (laguerreL p (a + 1))).eval s := by
  have key : Polynomial.C ((p : ℝ) + 1) * laguerreL (p + 1) a =
      (Polynomial.C ((a : ℝ) + 1) - Polynomial.X) * laguerreL p (a + 1) +
        Polynomial.X * Polynomial.derivative (laguerreL p (a + 1)) := by
    ext k
    rw [sub_mul, Polynomial.coeff_add, Polynomial.coeff_sub, Polynomial.coeff_C_mul, Polynomial.coeff_C_mul]
    cases k with
    | zero =>
      simp only [Polynomial.mul_coeff_zero, Polynomial.coeff_X_zero, zero_mul, laguerreL_coeff, zero_le, if_true,
        pow_zero, one_mul, Nat.sub_zero, Nat.factorial_zero, Nat.cast_one, div_one, sub_zero, add_zero]
      have h := Nat.choose_succ_right_eq (p + 1 + a) p
      rw [show p + 1 + a - p = a + 1 by omega] at h
      have h' := congrArg (Nat.cast : ℕ → ℝ) h
      push_cast at h'
      rw [show p + (a + 1) = p + 1 + a by ring]
      linear_combination h'
    | succ k =>
      simp only [Polynomial.coeff_X_mul, Polynomial.coeff_derivative, laguerreL_coeff]
      have hk : ((k.factorial : ℕ) : ℝ) ≠ 0 := by positivity
      have hk1 : ((k : ℝ) + 1) ≠ 0 := by positivity
      rw [show p + (a + 1) = p + 1 + a by ring]
      rcases Nat.lt_trichotomy k p with h | h | h
      · rw [if_pos (by omega), if_pos (by omega), if_pos (by omega), Nat.factorial_succ]
        obtain ⟨d, rfl⟩ : ∃ d, p = k + 1 + d := ⟨p - (k + 1), by omega⟩
        have hc := Nat.choose_succ_right_eq (k + 1 + d + 1 + a) d
        rw [show k + 1 + d + 1 - (k + 1) = d + 1 by omega, show k + 1 + d - (k + 1) = d by omega,
          show k + 1 + d - k = d + 1 by omega]
        rw [show k + 1 + d + 1 + a - d = k + a + 2 by omega] at hc
        have hc' := congrArg (Nat.cast : ℕ → ℝ) hc
        push_cast at hc' ⊢
        field_simp
        rw [pow_succ]
        linear_combination (-(-1 : ℝ) ^ k) * hc'
      · subst h
        rw [if_pos (by omega), if_neg (by omega), if_pos le_rfl, Nat.factorial_succ]
        push_cast
        simp only [Nat.sub_self, Nat.choose_zero_right, Nat.cast_one]
        field_simp
        rw [pow_succ]
        ring
      · rw [if_neg (by omega), if_neg (by omega), if_neg (by omega)]
        simp
  have := congrArg (Polynomial.eval s) key
  simpa using this

/-- powers of `x + σ y` -/
theorem inHermite_pow (σ : ℂ) (hσ : σ ^ 2 = -1) (n : ℕ) : InHermite n fun x y => ((x : ℂ) + σ * y) ^ n := by
  induction n with
  | zero => exact ⟨fun _ => 1, fun x y => by simp [hermiteH]⟩
  | succ n ih =>
    have hx : ∀ x y : ℝ, HasDerivAt (fun x : ℝ => ((x : ℂ) + σ * y) ^ n) (n * ((x : ℂ) + σ * y) ^ (n - 1)) x := by
      intro x y
      have h := ((hasDerivAt_id x).ofReal_comp.add_const (σ * y)).fun_pow n
      simpa using h
    have hy : ∀ x y : ℝ, HasDerivAt (fun y : ℝ => ((x : ℂ) + σ * y) ^ n) (n * ((x : ℂ) + σ * y) ^ (n - 1) * σ) y := by
      intro x y
      have h := (((hasDerivAt_id y).ofReal_comp.const_mul σ).const_add (x : ℂ)).fun_pow n
      simpa using h
    refine ((ih.raise hx hy σ).smul (1 / 2)).congr fun x y => ?_
    rw [pow_succ]
    linear_combination (-(1 / 2 : ℂ) * n * ((x : ℂ) + σ * y) ^ (n - 1)) * hσ

/-- `(x + σ y)^m L_p^m(x² + y²)` is a combination of products of Hermite polynomials of total order `2 p + m` -/
theorem inHermite_laguerre (σ : ℂ) (hσ : σ ^ 2 = -1) (p m : ℕ) : InHermite (2 * p + m) fun x y =>
    ((x : ℂ) + σ * y) ^ m * (((laguerreL p m).eval (x ^ 2 + y ^ 2) : ℝ) : ℂ) := by
  induction p generalizing m with
  | zero =>
    rw [show 2 * 0 + m = m by ring]
    refine (inHermite_pow σ hσ m).congr fun x y => ?_
    have : laguerreL 0 m = 1 := by simp [laguerreL]
    rw [this]
    simp
  | succ p ih =>
    have hd : ∀ s : ℝ, HasDerivAt (fun s : ℝ => (((laguerreL p (m + 1)).eval s : ℝ) : ℂ))
        ((((Polynomial.derivative (laguerreL p (m + 1))).eval s : ℝ)) : ℂ) s := fun s =>
      ((laguerreL p (m + 1)).hasDerivAt s).ofReal_comp
    set D : ℝ → ℝ → ℂ := fun x y => (((Polynomial.derivative (laguerreL p (m + 1))).eval (x ^ 2 + y ^ 2) : ℝ) : ℂ) with hD
    set Q : ℝ → ℝ → ℂ := fun x y => (((laguerreL p (m + 1)).eval (x ^ 2 + y ^ 2) : ℝ) : ℂ) with hQ
    have hx : ∀ x y : ℝ, HasDerivAt (fun x : ℝ => ((x : ℂ) + σ * y) ^ (m + 1) * Q x y)
        ((m + 1 : ℕ) * ((x : ℂ) + σ * y) ^ m * Q x y + ((x : ℂ) + σ * y) ^ (m + 1) * ((2 * x : ℝ) * D x y)) x := by
      intro x y
      have h1 := ((hasDerivAt_id x).ofReal_comp.add_const (σ * y)).fun_pow (m + 1)
      have h2 : HasDerivAt (fun x : ℝ => x ^ 2 + y ^ 2) (2 * x) x := by
        simpa using ((hasDerivAt_id x).pow 2).add_const (y ^ 2)
      have h3 := (hd (x ^ 2 + y ^ 2)).scomp x h2
      have h4 := h1.mul h3
      refine h4.congr_deriv ?_
      simp [hQ, hD]
    have hy : ∀ x y : ℝ, HasDerivAt (fun y : ℝ => ((x : ℂ) + σ * y) ^ (m + 1) * Q x y)
        ((m + 1 : ℕ) * ((x : ℂ) + σ * y) ^ m * σ * Q x y + ((x : ℂ) + σ * y) ^ (m + 1) * ((2 * y : ℝ) * D x y)) y := by
      intro x y
      have h1 := (((hasDerivAt_id y).ofReal_comp.const_mul σ).const_add (x : ℂ)).fun_pow (m + 1)
      have h2 : HasDerivAt (fun y : ℝ => x ^ 2 + y ^ 2) (2 * y) y := by
        simpa using ((hasDerivAt_id y).pow 2).const_add (x ^ 2)
      have h3 := (hd (x ^ 2 + y ^ 2)).scomp y h2
      have h4 := h1.mul h3
      refine h4.congr_deriv ?_
      simp [hQ, hD]
    have hp : (-2 * ((p : ℂ) + 1)) ≠ 0 := by
      have : ((p : ℂ) + 1) ≠ 0 := by exact_mod_cast Nat.succ_ne_zero p
      simpa using this
    rw [show 2 * (p + 1) + m = 2 * p + (m + 1) + 1 by ring]
    refine (((ih (m + 1)).raise hx hy (-σ)).smul (1 / (-2 * ((p : ℂ) + 1)))).congr fun x y => ?_
    have hl := congrArg (fun u : ℝ => (u : ℂ)) (laguerreL_raise p m (x ^ 2 + y ^ 2))
    simp only [Complex.ofReal_mul, Complex.ofReal_add, Complex.ofReal_sub, Complex.ofReal_natCast, Complex.ofReal_one] at hl
    change _ = ((m : ℂ) + 1 - _) * Q x y + _ * D x y at hl
    change 1 / (-2 * ((p : ℂ) + 1)) * (2 * (x + -σ * y) * (((x : ℂ) + σ * y) ^ (m + 1) * Q x y) - _) = _
    rw [one_div, inv_mul_eq_iff_eq_mul₀ hp]
    have hs : ((x : ℂ) + σ * y) * (x - σ * y) = x ^ 2 + y ^ 2 := by linear_combination (-(y : ℂ) ^ 2) * hσ
    push_cast at hl ⊢
    rw [pow_succ]
    linear_combination (2 * ((x : ℂ) + σ * y) ^ m) * hl + (2 * ((x : ℂ) + σ * y) ^ m * (Q x y - D x y)) * hs +
      (((m : ℂ) + 1) * ((x : ℂ) + σ * y) ^ m * Q x y) * hσ

/-! ## C138 -/

/-- **C138 (fundamental modes).** At every defocus the Laguerre-Gauss mode `p = m = 0` is the Gaussian profile, and the
Hermite-Gauss mode `n_x = n_y = 0` is the Gaussian profile times `√(2/π) / w0`. -/
theorem C138_fundamental (w0 ζ : ℝ) (hw : 0 < w0) (x y : ℝ) :
    laguerreGaussianTrans w0 0 0 ζ x y = gaussianTrans w0 ζ x y ∧
    hermiteGaussianTrans w0 0 0 ζ x y = ((Real.sqrt (2 / Real.pi) / w0 : ℝ) : ℂ) * gaussianTrans w0 ζ x y := by
  constructor
  · unfold laguerreGaussianTrans gaussianTrans
    have h1 : laguerreL 0 0 = 1 := by simp [laguerreL]
    have h2 : ‖(x : ℂ) + I * y‖ ^ 2 = x ^ 2 + y ^ 2 := norm_pos_sq I (Or.inl rfl) x y
    simp [h1, h2, div_eq_mul_inv]
  · unfold hermiteGaussianTrans gaussianTrans
    have h1 : (Real.sqrt (1 / w0) : ℂ) * (Real.sqrt (1 / w0) : ℂ) = ((1 / w0 : ℝ) : ℂ) := by
      rw [← Complex.ofReal_mul, Real.mul_self_sqrt (by positivity)]
    simp only [hermiteH, Polynomial.eval_one, pow_zero, Nat.factorial_zero, Nat.cast_one, one_mul, Complex.ofReal_one,
      mul_one, add_zero, Nat.cast_zero, mul_zero, zero_mul, sub_zero]
    rw [mul_assoc ((Real.sqrt (2 / Real.pi) : ℝ) : ℂ), h1]
    push_cast
    field_simp

/-- **C138 (super-Gaussians of order 2).** The super-Gaussian profiles of order 2 are the Gaussian ones, in space (at
focus) and in time. -/
theorem C138_super_gaussian [Phys] (w0 x y wavelength tau tPeak cep t : ℝ) :
    superGaussianTrans w0 2 x y = gaussianTrans w0 0 x y ∧
    superGaussianLong wavelength tau tPeak 2 cep t = gaussianLong wavelength tau tPeak cep t := by
  constructor
  · unfold superGaussianTrans gaussianTrans diffractFactor
    simp
    congr 1
    ring
  · unfold superGaussianLong gaussianLong
    simp

/-- **C138 (Laguerre and Hermite modes).** Every Laguerre-Gauss mode is, at every defocus, a combination of the
Hermite-Gauss modes of the same waist and the same order, `n_x + n_y = 2 p + |m|`, and of no others; the coefficients are
the same at all defocus, up to the common factor by which this code's Laguerre-Gauss modes differ from paraxial ones. -/
theorem C138_laguerre_hermite (w0 : ℝ) (hw : 0 < w0) (p : ℕ) (m : ℤ) : ∃ c : ℕ → ℂ, ∀ ζ x y : ℝ,
    laguerreGaussianTrans w0 p m ζ x y =
      (‖diffractFactor ζ‖ : ℂ) ^ m.natAbs * exp (I * ((m.natAbs : ℂ) - m) * arg (diffractFactor ζ)) *
      ∑ k ∈ Finset.range (2 * p + m.natAbs + 1), c k * hermiteGaussianTrans w0 (2 * p + m.natAbs - k) k ζ x y := by
  set N := 2 * p + m.natAbs with hN
  obtain ⟨c, hc⟩ := inHermite_laguerre (lgSign m) (lgSign_sq m) p m.natAbs
  set nrm : ℕ → ℂ := fun k => (Real.sqrt (2 / Real.pi) : ℂ) * (Real.sqrt (1 / (2 ^ (N - k) * (N - k).factorial * w0)) : ℂ) *
    (Real.sqrt (1 / (2 ^ k * k.factorial * w0)) : ℂ) with hnrm
  have hn0 : ∀ k, nrm k ≠ 0 := by
    intro k
    have h1 : (0 : ℝ) < Real.sqrt (2 / Real.pi) := Real.sqrt_pos.2 (by positivity)
    have h2 : (0 : ℝ) < Real.sqrt (1 / (2 ^ (N - k) * (N - k).factorial * w0)) := Real.sqrt_pos.2 (by positivity)
    have h3 : (0 : ℝ) < Real.sqrt (1 / (2 ^ k * k.factorial * w0)) := Real.sqrt_pos.2 (by positivity)
    simp only [hnrm]
    exact mul_ne_zero (mul_ne_zero (by exact_mod_cast h1.ne') (by exact_mod_cast h2.ne')) (by exact_mod_cast h3.ne')
  refine ⟨fun k => ((w0 / Real.sqrt 2 : ℝ) : ℂ) ^ m.natAbs * c k / nrm k, fun ζ x y => ?_⟩
  set q := diffractFactor ζ with hq
  have hqn : 0 < ‖q‖ := by
    rw [norm_pos_iff, hq]
    intro h0
    have := congrArg Complex.re h0
    simp [diffractFactor] at this
  have h2 : (0 : ℝ) < Real.sqrt 2 := by positivity
  have hpos : (if m > 0 then (x : ℂ) - I * y else x + I * y) = x + lgSign m * y := by
    unfold lgSign
    split_ifs <;> ring
  -- scaled coordinates
  have hz : (x : ℂ) + lgSign m * y = (‖q‖ : ℂ) * ((w0 / Real.sqrt 2 : ℝ) : ℂ) *
      (((Real.sqrt 2 * x / (w0 * ‖q‖) : ℝ) : ℂ) + lgSign m * ((Real.sqrt 2 * y / (w0 * ‖q‖) : ℝ) : ℂ)) := by
    have a1 : (Real.sqrt 2 : ℂ) ≠ 0 := by exact_mod_cast h2.ne'
    have a2 : (w0 : ℂ) ≠ 0 := by exact_mod_cast hw.ne'
    have a3 : (‖q‖ : ℂ) ≠ 0 := by exact_mod_cast hqn.ne'
    push_cast
    field_simp
  have hs : 2 * (x ^ 2 + y ^ 2) / (w0 * ‖q‖) ^ 2 =
      (Real.sqrt 2 * x / (w0 * ‖q‖)) ^ 2 + (Real.sqrt 2 * y / (w0 * ‖q‖)) ^ 2 := by
    have h22 : Real.sqrt 2 ^ 2 = 2 := Real.sq_sqrt (by norm_num)
    simp only [div_pow, mul_pow, h22]
    ring
  have hcc := hc (Real.sqrt 2 * x / (w0 * ‖q‖)) (Real.sqrt 2 * y / (w0 * ‖q‖))
  simp only [laguerreGaussianTrans, hpos]
  rw [← hq, norm_pos_sq _ (lgSign_or m), hs]
  have hlhs : ((x : ℂ) + lgSign m * y) ^ m.natAbs * (((laguerreL p m.natAbs).eval
      ((Real.sqrt 2 * x / (w0 * ‖q‖)) ^ 2 + (Real.sqrt 2 * y / (w0 * ‖q‖)) ^ 2) : ℝ) : ℂ) =
      (‖q‖ : ℂ) ^ m.natAbs * ((w0 / Real.sqrt 2 : ℝ) : ℂ) ^ m.natAbs * ∑ k ∈ Finset.range (N + 1),
        c k * (((hermiteH (N - k)).eval (Real.sqrt 2 * x / (w0 * ‖q‖)) * (hermiteH k).eval (Real.sqrt 2 * y / (w0 * ‖q‖)) : ℝ) : ℂ) := by
    rw [← hcc, hz, mul_pow, mul_pow]
    simp only [mul_assoc]
  rw [hlhs]
  have hexp : exp (-((x ^ 2 + y ^ 2 : ℝ) : ℂ) / ((w0 ^ 2 : ℝ) * q) - I * ((2 * (p : ℤ) + m : ℤ) : ℂ) * arg q) =
      exp (I * ((m.natAbs : ℂ) - m) * arg q) *
        exp (-((x ^ 2 + y ^ 2 : ℝ) : ℂ) / ((w0 ^ 2 : ℝ) * q) - I * ((N : ℕ) : ℂ) * arg q) := by
    rw [← Complex.exp_add]
    congr 1
    rw [hN]
    push_cast
    ring
  rw [hexp]
  rw [Finset.mul_sum, Finset.sum_mul, Finset.sum_mul, Finset.mul_sum]
  refine Finset.sum_congr rfl fun k hk => ?_
  rw [Finset.mem_range] at hk
  simp only [hermiteGaussianTrans]
  rw [← hq, show N - k + k = N by omega]
  have := hn0 k
  have e : ∀ A B : ℂ, A / nrm k * ((Real.sqrt (2 / Real.pi) : ℂ) * (Real.sqrt (1 / (2 ^ (N - k) * (N - k).factorial * w0)) : ℂ) *
    (Real.sqrt (1 / (2 ^ k * k.factorial * w0)) : ℂ) * B) = A * B := by
    intro A B
    rw [← mul_assoc]
    exact congrArg (· * B) (div_mul_cancel₀ A this)
  simp only [mul_assoc] at e ⊢
  rw [e]
  push_cast
  ring

/-- the doughnut modes `p = 0`, `m = ±1` in terms of the first Hermite-Gauss modes, at focus: `C138_laguerre_hermite` is
not trivial -/
example (w0 : ℝ) (hw : 0 < w0) : ∃ c : ℕ → ℂ, ∀ x y : ℝ, laguerreGaussianTrans w0 0 1 0 x y =
    c 0 * hermiteGaussianTrans w0 1 0 0 x y + c 1 * hermiteGaussianTrans w0 0 1 0 x y := by
  obtain ⟨c, hc⟩ := C138_laguerre_hermite w0 hw 0 1
  refine ⟨c, fun x y => ?_⟩
  have h := hc 0 x y
  rw [show (2 * 0 + (1 : ℤ).natAbs + 1) = 2 from rfl, Finset.sum_range_succ, Finset.sum_range_one] at h
  simp [diffractFactor] at h
  exact h

end Lasy
