import Verif.Model.Insight
import Verif.Props.FromArray
import Verif.Props.OpenPMDFull
import Verif.Lemmas.NpInterp
import Verif.Props.Frequency
import Mathlib.Analysis.Real.Pi.Bounds

/-!
# Properties C107-C109: profiles made from INSIGHT measurements
-/

namespace Lasy
open Complex Phys

theorem gradient1_ok {n : ℕ} (f : Fin n → ℝ) (x : Fin n → ℝ) (hn : 2 ≤ n) :
    ∃ g, gradient1 f ⟨n, x⟩ = .ok g := by
  unfold gradient1
  rw [dif_pos ⟨rfl, hn⟩]
  exact ⟨_, rfl⟩

/-- `np.gradient` with one-sided ends is exact on affine functions -/
theorem gradient1_affine {n : ℕ} (x : Fin n → ℝ) (hn : 2 ≤ n) (hx : Ascending x) (a b : ℝ) :
    gradient1 (fun k => a * x k + b) ⟨n, x⟩ = .ok fun _ => a := by
  unfold gradient1
  rw [dif_pos ⟨rfl, hn⟩]
  show Except.ok _ = Except.ok _
  congr 1
  funext k
  obtain ⟨k, hk⟩ := k
  dsimp only [Fin.cast_mk]
  have hlt : ∀ (i j : ℕ) (hi : i < n) (hj : j < n), i < j → x ⟨i, hi⟩ < x ⟨j, hj⟩ := fun i j hi hj h => hx _ _ h
  split
  · have h1 := hlt 0 1 (by omega) (by omega) (by omega)
    have : x ⟨1, by omega⟩ - x ⟨0, by omega⟩ ≠ 0 := by linarith
    field_simp
    ring
  · split
    · have h1 := hlt (n - 2) (n - 1) (by omega) (by omega) (by omega)
      have : x ⟨n - 1, by omega⟩ - x ⟨n - 2, by omega⟩ ≠ 0 := by linarith
      field_simp
      ring
    · have h1 := hlt (k - 1) k (by omega) (by omega) (by omega)
      have h2 := hlt k (k + 1) (by omega) (by omega) (by omega)
      generalize x ⟨k - 1, by omega⟩ = x0 at *
      generalize x ⟨k, by omega⟩ = x1 at *
      generalize x ⟨k + 1, by omega⟩ = x2 at *
      have p1 : 0 < x1 - x0 := by linarith
      have p2 : 0 < x2 - x1 := by linarith
      have p3 : (0 : ℝ) < x1 - x0 + (x2 - x1) := by linarith
      field_simp
      ring

theorem Ascending.scale {n : ℕ} {x : Fin n → ℝ} (hx : Ascending x) {a : ℝ} (ha : 0 < a) : Ascending fun k => x k * a :=
  fun i j h => mul_lt_mul_of_pos_right (hx i j h) ha

variable [Phys]

/-- the field that is turned into an envelope: the data, or their conjugate if the frequency is negative -/
noncomputable def orient (w : ℝ) (z : ℂ) : ℂ := open Classical in if w < 0 then (starRingEnd ℂ) z else z

theorem fromInsight_ok {a b n : ℕ} (data : Fin a → Fin b → Fin n → ℂ) {t : Fin n → ℝ} {x : Fin a → ℝ} {y : Fin b → ℝ}
    (ha : 2 ≤ a) (hb : 2 ≤ b) (hn : 2 ≤ n) (hx : Ascending x) (hy : Ascending y) (ht : Ascending t) (p q : ℂ)
    {omega0 : InsightOmega} {w : ℝ}
    (hw : insightOmega (data ⟨a / 2, by omega⟩ ⟨b / 2, by omega⟩) ⟨n, fun k => t k * 1e-15⟩ omega0 = .ok w) (h0 : w ≠ 0) :
    ∃ P f, fromInsight data ⟨n, t⟩ ⟨a, x⟩ ⟨b, y⟩ [p, q] omega0 = .ok P ∧ P.omega0 = |w| ∧ P.lambda0 = 2 * Real.pi * c / |w| ∧
      P.Pointwise f ∧
      (∀ i j k, f (x i * 1e-3) (y j * 1e-3) (t k * 1e-15) =
        orient w (data i j k) * exp (I * (|w| : ℝ) * (t k * 1e-15 : ℝ))) ∧
      ∀ px py pt : ℝ, (∀ i, px < x i * 1e-3) ∨ (∀ i, x i * 1e-3 < px) ∨ (∀ j, py < y j * 1e-3) ∨ (∀ j, y j * 1e-3 < py) ∨
        (∀ k, pt < t k * 1e-15) ∨ (∀ k, t k * 1e-15 < pt) → f px py pt = 0 := by
  have e3 : (0 : ℝ) < 1e-3 := by norm_num
  have e15 : (0 : ℝ) < 1e-15 := by norm_num
  have habs : (if w < 0 then -w else w) = |w| := by
    split
    · rw [abs_of_neg (by assumption)]
    · rw [abs_of_nonneg (by linarith)]
  have hwne : |w| ≠ 0 := abs_ne_zero.2 h0
  obtain ⟨fa, efa, hnode, hout⟩ := C46_nodes_xyt (fun i => x i * 1e-3) (fun j => y j * 1e-3) (fun k => t k * 1e-15) ha hb hn
    (hx.scale e3) (hy.scale e3) (ht.scale e15)
    (fun i j k => orient w (data i j k) * exp (I * (|w| : ℝ) * (t k * 1e-15 : ℝ)))
  have hdata : (fun (i : Fin a) (j : Fin b) (k : Fin n) => (if w < 0 then fun i j k => (starRingEnd ℂ) (data i j k) else data) i j k *
      exp (I * (|w| : ℝ) * (t k * 1e-15 : ℝ))) = fun i j k => orient w (data i j k) * exp (I * (|w| : ℝ) * (t k * 1e-15 : ℝ)) := by
    funext i j k
    unfold orient
    split <;> rfl
  refine ⟨{ omega0 := 2 * Real.pi * c / (2 * Real.pi * c / |w|), lambda0 := 2 * Real.pi * c / |w|, pol := polNormalised (p, q), laserEnergy := none, dtype := .c128, evaluate := fun X Y T i j k => fa.evaluate (X i j k) (Y i j k) (T i j k) }, fa.evaluate, ?_, ?_, rfl, fun _ _ _ _ _ _ _ _ _ => rfl, hnode, hout⟩
  · unfold fromInsight
    simp only [Vec.scale]
    rw [dif_pos ⟨by omega, by omega⟩, hw]
    simp only [bind, Except.bind]
    refine (dif_pos (rfl : n = n)).trans ?_
    simp only [habs, if_neg hwne, Fin.cast_eq_self]
    simp only [profileInit]
    have e : FromArray.init "xyt" (Arr.toNd (s := ⟨a, b, n⟩) ⟨.c128, fun (i : Fin a) (j : Fin b) (k : Fin n) =>
        (if w < 0 then fun i j k => (starRingEnd ℂ) (data i j k) else data) i j k * exp (I * (|w| : ℝ) * (t k * 1e-15 : ℝ))⟩)
        { x := some ⟨a, fun k => x k * 1e-3⟩, y := some ⟨b, fun k => y k * 1e-3⟩, t := some ⟨n, fun k => t k * 1e-15⟩ }
        ["x", "y", "t"] = .ok fa := by
      rw [hdata]; exact efa
    rw [e]
    rfl
  · have := c_pos
    have := Real.pi_pos
    simp only
    field_simp

theorem fromInsight_inv {a b n : ℕ} {data : Fin a → Fin b → Fin n → ℂ} {t x y : Vec} {pol : List ℂ} {omega0 : InsightOmega}
    {P : ProfileObj} (h : fromInsight data t x y pol omega0 = .ok P) :
    ∃ (ha : 0 < a) (hb : 0 < b) (w : ℝ), insightOmega (data ⟨a / 2, by omega⟩ ⟨b / 2, by omega⟩) (t.scale 1e-15) omega0 = .ok w ∧
      w ≠ 0 := by
  unfold fromInsight at h
  dsimp only at h
  split at h
  · rename_i hab
    obtain ⟨w, hw, h⟩ := bind_ok_inv h
    refine ⟨hab.1, hab.2, w, hw, ?_⟩
    rintro rfl
    simp only [lt_self_iff_false, if_false] at h
    split at h
    · simp at h
    · cases h
  · cases h

omit [Phys] in
theorem exp_carrier_cancel (w s : ℝ) : exp (I * (w : ℝ) * (s : ℝ)) * exp (-I * (w : ℝ) * (s : ℝ)) = 1 := by
  rw [← Complex.exp_add, show I * (w : ℂ) * s + -I * w * s = 0 by ring, Complex.exp_zero]

omit [Phys] in
theorem orient_re (w : ℝ) (z : ℂ) : (orient w z).re = z.re := by
  unfold orient; split <;> simp

omit [Phys] in
theorem orient_norm (w : ℝ) (z : ℂ) : ‖orient w z‖ = ‖z‖ := by
  unfold orient; split <;> simp

/-- **C107.** Whenever a profile can be made from a measurement (any of the settings of `omega0`), it describes the measured
field: the carrier frequency is positive, and at every node of the measurement (millimetres and femtoseconds converted to
SI units) the real field `Re(envelope * exp(-i ω0 t))` is the real part of the data, and the modulus of the envelope is the
modulus of the data. Outside the measured volume the envelope is zero. -/
theorem C107_field {a b n : ℕ} (data : Fin a → Fin b → Fin n → ℂ) {t : Fin n → ℝ} {x : Fin a → ℝ} {y : Fin b → ℝ}
    (ha : 2 ≤ a) (hb : 2 ≤ b) (hn : 2 ≤ n) (hx : Ascending x) (hy : Ascending y) (ht : Ascending t) (p q : ℂ)
    (omega0 : InsightOmega) {P : ProfileObj} (h : fromInsight data ⟨n, t⟩ ⟨a, x⟩ ⟨b, y⟩ [p, q] omega0 = .ok P) :
    0 < P.omega0 ∧ P.omega0 * P.lambda0 = 2 * Real.pi * c ∧ ∃ f, P.Pointwise f ∧
      (∀ i j k, (f (x i * 1e-3) (y j * 1e-3) (t k * 1e-15) * exp (-I * P.omega0 * (t k * 1e-15 : ℝ))).re = (data i j k).re ∧
        ‖f (x i * 1e-3) (y j * 1e-3) (t k * 1e-15)‖ = ‖data i j k‖) ∧
      ∀ px py pt : ℝ, (∀ i, px < x i * 1e-3) ∨ (∀ i, x i * 1e-3 < px) ∨ (∀ j, py < y j * 1e-3) ∨ (∀ j, y j * 1e-3 < py) ∨
        (∀ k, pt < t k * 1e-15) ∨ (∀ k, t k * 1e-15 < pt) → f px py pt = 0 := by
  obtain ⟨_, _, w, hw, h0⟩ := fromInsight_inv h
  obtain ⟨P', f, e, h1, h2, h3, h4, h5⟩ := fromInsight_ok data ha hb hn hx hy ht p q hw h0
  rw [h] at e
  injection e with e
  subst e
  have hpos : 0 < |w| := abs_pos.2 h0
  refine ⟨h1 ▸ hpos, by rw [h1, h2]; field_simp, f, h3, fun i j k => ⟨?_, ?_⟩, h5⟩
  · rw [h4, h1, mul_assoc, exp_carrier_cancel, mul_one, orient_re]
  · rw [h4, norm_mul, orient_norm, show I * ((|w| : ℝ) : ℂ) * ((t k * 1e-15 : ℝ) : ℂ) = ((|w| * (t k * 1e-15) : ℝ) : ℂ) * I by push_cast; ring,
      Complex.norm_exp_ofReal_mul_I, mul_one]

/-- ... and it can be made for every float other than zero, whatever the data: a negative one is taken as positive for
the conjugate data. Anything else than a float or one of the two names (an `int`, say) is rejected. -/
theorem C107_float {a b n : ℕ} (data : Fin a → Fin b → Fin n → ℂ) {t : Fin n → ℝ} {x : Fin a → ℝ} {y : Fin b → ℝ}
    (ha : 2 ≤ a) (hb : 2 ≤ b) (hn : 2 ≤ n) (hx : Ascending x) (hy : Ascending y) (ht : Ascending t) (p q : ℂ) {w : ℝ} (h0 : w ≠ 0) :
    (∃ P, fromInsight data ⟨n, t⟩ ⟨a, x⟩ ⟨b, y⟩ [p, q] (.float w) = .ok P ∧ P.omega0 = |w|) ∧
      fromInsight data ⟨n, t⟩ ⟨a, x⟩ ⟨b, y⟩ [p, q] .other = .error .assertion := by
  obtain ⟨g, hg⟩ := gradient1_ok (unwrap fun k => angle (data ⟨a / 2, by omega⟩ ⟨b / 2, by omega⟩ k)) (fun k => t k * 1e-15) hn
  constructor
  · have hw : insightOmega (data ⟨a / 2, by omega⟩ ⟨b / 2, by omega⟩) ⟨n, fun k => t k * 1e-15⟩ (.float w) = .ok w := by
      unfold insightOmega
      rw [hg]
      rfl
    obtain ⟨P, f, e, h1, -⟩ := fromInsight_ok data ha hb hn hx hy ht p q hw h0
    exact ⟨P, e, h1⟩
  · unfold fromInsight
    simp only [Vec.scale]
    rw [dif_pos ⟨by omega, by omega⟩]
    unfold insightOmega
    rw [hg]
    rfl

omit [Phys] in
/-- the frequency found for a field with a fixed carrier and a fixed phase on the axis -/
theorem insightOmega_carrier {n : ℕ} {t : Fin n → ℝ} (hn : 2 ≤ n) (ht : Ascending t) {A : Fin n → ℝ} (hA : ∀ k, 0 < A k)
    (φ ω : ℝ) (hs : ∀ (k : ℕ) (hk : k + 1 < n), |ω * (t ⟨k + 1, hk⟩ - t ⟨k, by omega⟩)| < Real.pi)
    {m : InsightOmega} (hm : m = .peak ∨ m = .barycenter) :
    insightOmega (fun k => A k * exp (I * φ) * exp (-I * ω * t k)) ⟨n, t⟩ m = .ok ω := by
  have hang : ∀ k, ∃ j : ℤ, angle (A k * exp (I * φ) * exp (-I * ω * t k)) = (φ - ω * t k) + 2 * Real.pi * j := by
    intro k
    exact angle_polar (hA k) (by rw [mul_assoc, ← Complex.exp_add]; congr 2; push_cast; ring)
  have hu : (unwrap fun k => angle (A k * exp (I * φ) * exp (-I * ω * t k))) = fun k => -ω * t k +
      (φ + (angle (A ⟨0, by omega⟩ * exp (I * φ) * exp (-I * ω * t ⟨0, by omega⟩)) - (φ - ω * t ⟨0, by omega⟩))) := by
    funext k
    rw [unwrap_unique _ (fun k => φ - ω * t k) hang (fun k hk => by
      have := hs k hk
      rwa [show φ - ω * t ⟨k + 1, hk⟩ - (φ - ω * t ⟨k, by omega⟩) = -(ω * (t ⟨k + 1, hk⟩ - t ⟨k, by omega⟩)) by ring, abs_neg]) (by omega) k]
    ring
  unfold insightOmega
  rw [hu, gradient1_affine t hn ht]
  rcases hm with rfl | rfl
  · obtain ⟨k, hk, -⟩ := argmin_ok (by omega : 0 < n) fun k => -‖(A k * exp (I * φ) * exp (-I * ω * t k) : ℂ)‖
    simp only [bind, Except.bind, argmax, hk, neg_neg]
    rfl
  · simp only [bind, Except.bind, neg_neg]
    apply average_const
    apply ne_of_gt
    apply Finset.sum_pos
    · intro k _
      have : (A k : ℂ) * exp (I * φ) * exp (-I * ω * t k) ≠ 0 :=
        mul_ne_zero (mul_ne_zero (by exact_mod_cast (hA k).ne') (Complex.exp_ne_zero _)) (Complex.exp_ne_zero _)
      have := norm_pos_iff.2 this
      positivity
    · exact ⟨⟨0, by omega⟩, Finset.mem_univ _⟩

/-- **C108.** The carrier is found: if the data are `A(x,y,t) exp(-i ω t)`, `A` has positive modulus and a fixed phase on
the axis, and the carrier turns by less than `π` between samples, then "peak" and "barycenter" both give the frequency
`|ω|`, and the envelope at the nodes is `A` itself (its conjugate, if the measurement uses the opposite sign convention
`ω < 0`). -/
theorem C108_carrier {a b n : ℕ} {t : Fin n → ℝ} {x : Fin a → ℝ} {y : Fin b → ℝ}
    (ha : 2 ≤ a) (hb : 2 ≤ b) (hn : 2 ≤ n) (hx : Ascending x) (hy : Ascending y) (ht : Ascending t) (p q : ℂ)
    (A : Fin a → Fin b → Fin n → ℂ) {ω φ : ℝ} (hω : ω ≠ 0)
    (hA : ∀ k, ∃ r : ℝ, 0 < r ∧ A ⟨a / 2, by omega⟩ ⟨b / 2, by omega⟩ k = r * exp (I * φ))
    (hs : ∀ (k : ℕ) (hk : k + 1 < n), |ω * (t ⟨k + 1, hk⟩ * 1e-15 - t ⟨k, by omega⟩ * 1e-15)| < Real.pi)
    {m : InsightOmega} (hm : m = .peak ∨ m = .barycenter) :
    ∃ P f, fromInsight (fun i j k => A i j k * exp (-I * ω * (t k * 1e-15 : ℝ))) ⟨n, t⟩ ⟨a, x⟩ ⟨b, y⟩ [p, q] m = .ok P ∧
      P.omega0 = |ω| ∧ P.Pointwise f ∧
      ∀ i j k, f (x i * 1e-3) (y j * 1e-3) (t k * 1e-15) = if 0 < ω then A i j k else (starRingEnd ℂ) (A i j k) := by
  choose r hr hAr using hA
  have hw : insightOmega ((fun i j k => A i j k * exp (-I * ω * (t k * 1e-15 : ℝ))) (⟨a / 2, by omega⟩ : Fin a) (⟨b / 2, by omega⟩ : Fin b))
      ⟨n, fun k => t k * 1e-15⟩ m = .ok ω := by
    rw [← insightOmega_carrier hn (ht.scale (by norm_num)) hr φ ω hs hm]
    congr 1
    funext k
    simp only [hAr]
  obtain ⟨P, f, e, h1, -, h3, h4, -⟩ := fromInsight_ok (fun i j k => A i j k * exp (-I * ω * (t k * 1e-15 : ℝ))) ha hb hn hx hy ht p q hw hω
  refine ⟨P, f, e, h1, h3, fun i j k => ?_⟩
  rw [h4]
  rcases lt_or_gt_of_ne hω with h | h
  · rw [if_neg (by linarith), orient, if_pos h, map_mul, mul_assoc, ← Complex.exp_conj, ← Complex.exp_add, abs_of_neg h]
    rw [show (starRingEnd ℂ) (-I * ω * (t k * 1e-15 : ℝ)) + I * ((-ω : ℝ) : ℂ) * (t k * 1e-15 : ℝ) = 0 by
      simp only [map_mul, map_neg, conj_I, conj_ofReal]; push_cast; ring, Complex.exp_zero, mul_one]
  · rw [if_pos h, orient, if_neg (by linarith), mul_assoc, mul_comm (exp _), abs_of_pos h, exp_carrier_cancel, mul_one]

/-- **C109** (what "peak" is): the local frequency of the *time-domain* field on the axis at its strongest sample. If the
field on the axis is `A_k exp(-i q_k)`, `A_k > 0`, the phase `q` moves by less than `π` between samples, and the first
strongest sample `k` is not at an end of a uniform time axis, the frequency is `|q_{k+1} - q_{k-1}| / (2 dt)`. -/
theorem C109_peak_partial {a b n : ℕ} {t : Fin n → ℝ} {x : Fin a → ℝ} {y : Fin b → ℝ}
    (ha : 2 ≤ a) (hb : 2 ≤ b) (hx : Ascending x) (hy : Ascending y) (p q : ℂ) {t0 dt : ℝ} (hdt : 0 < dt)
    (ht : ∀ k : Fin n, t k = t0 + (k : ℕ) * dt) {data : Fin a → Fin b → Fin n → ℂ} {A ph : Fin n → ℝ} (hA : ∀ k, 0 < A k)
    (hdata : ∀ k, data ⟨a / 2, by omega⟩ ⟨b / 2, by omega⟩ k = A k * exp (-I * ph k))
    (hs : ∀ (k : ℕ) (hk : k + 1 < n), |ph ⟨k + 1, hk⟩ - ph ⟨k, by omega⟩| < Real.pi)
    {k : ℕ} (hk0 : 0 < k) (hk : k + 1 < n) (hmax : ∀ j, A j ≤ A ⟨k, by omega⟩)
    (hfirst : ∀ j : Fin n, (j : ℕ) < k → A j < A ⟨k, by omega⟩) (hne : ph ⟨k + 1, hk⟩ ≠ ph ⟨k - 1, by omega⟩) :
    ∃ P, fromInsight data ⟨n, t⟩ ⟨a, x⟩ ⟨b, y⟩ [p, q] .peak = .ok P ∧
      P.omega0 = |ph ⟨k + 1, hk⟩ - ph ⟨k - 1, by omega⟩| / (2 * (dt * 1e-15)) := by
  have htasc : Ascending t := by
    intro i j hij
    rw [ht, ht]
    have : ((i : ℕ) : ℝ) < (j : ℕ) := by exact_mod_cast hij
    nlinarith
  have hnorm : ∀ k, ‖data ⟨a / 2, by omega⟩ ⟨b / 2, by omega⟩ k‖ = A k := by
    intro k
    rw [hdata, norm_mul, norm_real, Real.norm_of_nonneg (hA k).le, show -I * (ph k : ℂ) = ((-ph k : ℝ) : ℂ) * I by push_cast; ring,
      Complex.norm_exp_ofReal_mul_I, mul_one]
  have hu : (unwrap fun k => angle (data ⟨a / 2, by omega⟩ ⟨b / 2, by omega⟩ k)) = fun k => -ph k +
      (angle (data ⟨a / 2, by omega⟩ ⟨b / 2, by omega⟩ ⟨0, by omega⟩) - -ph ⟨0, by omega⟩) := by
    funext k
    rw [unwrap_unique _ (fun k => -ph k) (fun k => angle_polar (hA k) (by rw [hdata]; congr 2; push_cast; ring)) (fun k hk => by
      have := hs k hk
      rwa [show -ph ⟨k + 1, hk⟩ - -ph ⟨k, by omega⟩ = -(ph ⟨k + 1, hk⟩ - ph ⟨k, by omega⟩) by ring, abs_neg]) (by omega) k]
  have hw : insightOmega (data ⟨a / 2, by omega⟩ ⟨b / 2, by omega⟩) ⟨n, fun k => t k * 1e-15⟩ .peak =
      .ok ((ph ⟨k + 1, hk⟩ - ph ⟨k - 1, by omega⟩) / (2 * (dt * 1e-15))) := by
    unfold insightOmega
    rw [hu]
    unfold gradient1
    rw [dif_pos ⟨rfl, by omega⟩]
    simp only [bind, Except.bind, argmax, hnorm]
    rw [argmin_eq (k := (⟨k, by omega⟩ : Fin n)) (fun j => by simpa using hmax j) (fun j hj => by simpa using hfirst j hj)]
    simp only [Fin.cast_mk]
    rw [dif_neg (by omega), dif_neg (by omega), ht, ht, ht]
    simp only
    rw [show (t0 + ((k : ℕ) : ℝ) * dt) * 1e-15 - (t0 + ((k - 1 : ℕ) : ℝ) * dt) * 1e-15 = dt * 1e-15 by
        rw [Nat.cast_sub (by omega)]; push_cast; ring,
      show (t0 + ((k + 1 : ℕ) : ℝ) * dt) * 1e-15 - (t0 + ((k : ℕ) : ℝ) * dt) * 1e-15 = dt * 1e-15 by push_cast; ring]
    show Except.ok _ = Except.ok _
    congr 1
    field_simp
    ring
  obtain ⟨P, f, e, h1, -⟩ := fromInsight_ok data ha hb (by omega) hx hy htasc p q hw (by
    have := sub_ne_zero.2 hne
    positivity)
  refine ⟨P, e, ?_⟩
  rw [h1, abs_div, abs_of_pos (show 0 < 2 * (dt * 1e-15) by positivity)]

/-- the phases of the example: the strongest sample is the second one -/
noncomputable def chirpPhase (Ω : ℝ) (k : Fin 8) : ℝ :=
  Ω * ((k : ℕ) * 1e-15) + (if (k : ℕ) = 0 then -(Real.pi / 2) else if (k : ℕ) = 2 then Real.pi / 2 else 0)

/-- the amplitudes of the example -/
noncomputable def chirpAmp (k : Fin 8) : ℝ := if (k : ℕ) = 1 then 2 else 1

/-- **C109 is false of the code**: `omega0="peak"` is documented as the frequency of the maximum of the on-axis spectrum.
For every carrier `Ω` slow enough to be resolved there are data whose on-axis spectrum is greater at `Ω` than at the
frequency that the code chooses. -/
theorem C109_peak_refuted {Ω : ℝ} (h0 : 0 < Ω) (h1 : Ω * 1e-15 < Real.pi / 2) :
    ∃ (data : Fin 2 → Fin 2 → Fin 8 → ℂ) (t : Fin 8 → ℝ) (x : Fin 2 → ℝ) (P : ProfileObj),
      fromInsight data ⟨8, t⟩ ⟨2, x⟩ ⟨2, x⟩ [1, 0] .peak = .ok P ∧ (∀ k, t k = (k : ℕ)) ∧
      ‖∑ k, data 1 1 k * exp (I * P.omega0 * (t k * 1e-15 : ℝ))‖ < ‖∑ k, data 1 1 k * exp (I * Ω * (t k * 1e-15 : ℝ))‖ := by
  have hpi := Real.pi_pos
  obtain ⟨P, e, hP⟩ := C109_peak_partial (a := 2) (b := 2) (n := 8) (t := fun k => (k : ℕ)) (x := fun k => (k : ℕ)) (y := fun k => (k : ℕ))
    (t0 := 0) (dt := 1) (data := fun _ _ k => chirpAmp k * exp (-I * chirpPhase Ω k)) (A := chirpAmp) (ph := chirpPhase Ω) (k := 1)
    le_rfl le_rfl (fun i j h => by simpa using h) (fun i j h => by simpa using h) 1 0 one_pos (fun k => by simp)
    (fun k => by unfold chirpAmp; split <;> norm_num) (fun k => rfl) (by
      intro k hk
      have : k = 0 ∨ k = 1 ∨ k = 2 ∨ k = 3 ∨ k = 4 ∨ k = 5 ∨ k = 6 := by omega
      unfold chirpPhase
      rw [abs_lt]
      rcases this with rfl | rfl | rfl | rfl | rfl | rfl | rfl <;> norm_num <;> constructor <;> nlinarith) one_pos (by omega)
    (fun j => by unfold chirpAmp; split <;> norm_num) (fun j hj => by
      unfold chirpAmp; rw [if_neg (by omega)]; norm_num) (by
      unfold chirpPhase
      norm_num
      intro h
      nlinarith)
  have hw : P.omega0 = Ω + Real.pi / 2 / 1e-15 := by
    rw [hP]
    unfold chirpPhase
    norm_num
    rw [abs_of_pos (by nlinarith)]
    ring
  refine ⟨_, _, _, P, e, fun k => rfl, ?_⟩
  have hexp : ∀ (w : ℝ) (k : Fin 8), (chirpAmp k : ℂ) * exp (-I * chirpPhase Ω k) * exp (I * w * ((((k : ℕ) : ℝ) * 1e-15 : ℝ) : ℂ)) =
      chirpAmp k * (exp (I * ((w - Ω) * 1e-15 : ℝ)) ^ (k : ℕ) *
        (if (k : ℕ) = 0 then I else if (k : ℕ) = 2 then -I else 1)) := by
    intro w k
    have e1 : (if (k : ℕ) = 0 then I else if (k : ℕ) = 2 then -I else (1 : ℂ)) =
        exp (-I * ((if (k : ℕ) = 0 then -(Real.pi / 2) else if (k : ℕ) = 2 then Real.pi / 2 else 0 : ℝ) : ℂ)) := by
      split_ifs
      · rw [show -I * ((-(Real.pi / 2) : ℝ) : ℂ) = (Real.pi / 2) * I by push_cast; ring, Complex.exp_pi_div_two_mul_I]
      · rw [show -I * ((Real.pi / 2 : ℝ) : ℂ) = -(Real.pi / 2 * I) by push_cast; ring, Complex.exp_neg, Complex.exp_pi_div_two_mul_I, inv_I]
      · simp
    rw [e1, ← Complex.exp_nat_mul, mul_assoc, ← Complex.exp_add, ← Complex.exp_add]
    congr 2
    unfold chirpPhase
    push_cast
    ring
  simp only [hexp]
  rw [hw, show ((Ω + Real.pi / 2 / 1e-15 - Ω) * 1e-15 : ℝ) = Real.pi / 2 by ring, show ((Ω - Ω) * 1e-15 : ℝ) = 0 by ring]
  rw [show I * ((Real.pi / 2 : ℝ) : ℂ) = Real.pi / 2 * I by push_cast; ring, Complex.exp_pi_div_two_mul_I]
  simp only [Fin.sum_univ_eight, chirpAmp]
  norm_num
  rw [show (I : ℂ) + 2 * I + 1 + I ^ 5 + I ^ 6 + I ^ 7 = 3 * I by
    rw [show I ^ 5 = I ^ 4 * I by ring, show I ^ 6 = I ^ 4 * I ^ 2 by ring, show I ^ 7 = I ^ 4 * I ^ 2 * I by ring, I_pow_four, I_sq]
    ring]
  norm_num

/-- C107, C108 speak about something: a plane carrier of 1 rad/fs -/
example : ∃ P : ProfileObj, fromInsight (a := 2) (b := 2) (n := 2) (fun _ _ k => exp (-I * (1e15 : ℝ) * (((k : ℕ) : ℝ) * 1e-15 : ℝ)))
    ⟨2, fun k => (k : ℕ)⟩ ⟨2, fun k => (k : ℕ)⟩ ⟨2, fun k => (k : ℕ)⟩ [1, 0] .barycenter = .ok P ∧ P.omega0 = 1e15 := by
  obtain ⟨P, f, e, h, -⟩ := C108_carrier (a := 2) (b := 2) (n := 2) (t := fun k => (k : ℕ)) (x := fun k => (k : ℕ)) (y := fun k => (k : ℕ))
    le_rfl le_rfl le_rfl (fun i j h => by simpa using h) (fun i j h => by simpa using h) (fun i j h => by simpa using h) 1 0
    (fun _ _ _ => 1) (ω := 1e15) (φ := 0) (by norm_num) (fun k => ⟨1, one_pos, by simp⟩) (by
      intro k hk
      push_cast
      rw [show (1e15 : ℝ) * ((k + 1) * 1e-15 - k * 1e-15) = 1 by ring, abs_one]
      linarith [Real.pi_gt_three]) (m := .barycenter) (Or.inr rfl)
  refine ⟨P, ?_, by rw [h]; norm_num⟩
  rw [← e]
  simp only [one_mul]

end Lasy
