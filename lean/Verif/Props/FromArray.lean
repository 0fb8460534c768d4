import Verif.Model.FromArray
import Verif.Lemmas.Interp
import Verif.Lemmas.Signal

/-!
# Properties C46, C47: profiles made from arrays
-/

namespace Lasy
open Complex

/-- a complex array of shape `(a, b, c)` -/
def nd3 {a b c : ℕ} (f : Fin a → Fin b → Fin c → ℂ) : NdArray := Arr.toNd (s := ⟨a, b, c⟩) ⟨.c128, f⟩

/-- a complex array of shape `(a, b)` -/
def nd2 {a b : ℕ} (f : Fin a → Fin b → ℂ) : NdArray where
  shape := [a, b]
  dtype := .c128
  get := fun idx => match idx with
    | [i, j] => if h : i < a ∧ j < b then f ⟨i, h.1⟩ ⟨j, h.2⟩ else 0
    | _ => 0

@[simp] theorem nd3_shape {a b c : ℕ} (f : Fin a → Fin b → Fin c → ℂ) : (nd3 f).shape = [a, b, c] := rfl
@[simp] theorem nd3_get {a b c : ℕ} (f : Fin a → Fin b → Fin c → ℂ) (i : Fin a) (j : Fin b) (k : Fin c) :
    (nd3 f).get [i, j, k] = f i j k := by simp [nd3, Arr.toNd]
@[simp] theorem nd2_shape {a b : ℕ} (f : Fin a → Fin b → ℂ) : (nd2 f).shape = [a, b] := rfl
@[simp] theorem nd2_get {a b : ℕ} (f : Fin a → Fin b → ℂ) (i : Fin a) (j : Fin b) :
    (nd2 f).get [i, j] = f i j := by simp [nd2]

theorem rgiAxis_ok {n : ℕ} (x : Fin n → ℝ) (hn : 2 ≤ n) (hx : Ascending x) :
    rgiAxis ⟨n, x⟩ n = .ok (x, fun i => i) := by
  unfold rgiAxis
  rw [dif_pos ⟨rfl, hn⟩, if_pos hx]
  rfl

/-- an axis in either direction: the interpolator's axis ascends, and its nodes are those of the given one -/
theorem rgiAxis_mono {n : ℕ} (x : Fin n → ℝ) (hn : 2 ≤ n) (hx : Ascending x ∨ Descending x) :
    ∃ (g : Fin n → ℝ) (σ : Fin n → Fin n), rgiAxis ⟨n, x⟩ n = .ok (g, σ) ∧ Ascending g ∧ (∀ i, g (σ i) = x i) ∧
      (∀ i, σ (σ i) = i) ∧ ∀ i, g i = x (σ i) := by
  by_cases ha : Ascending x
  · exact ⟨x, fun i => i, rgiAxis_ok x hn ha, ha, fun _ => rfl, fun _ => rfl, fun _ => rfl⟩
  · have hd := hx.resolve_left ha
    refine ⟨fun i => x i.rev, Fin.rev, ?_, ?_, fun i => by simp, fun i => by simp, fun _ => rfl⟩
    · unfold rgiAxis
      rw [dif_pos ⟨rfl, hn⟩, if_neg ha, if_pos hd]
      rfl
    · intro i j hij
      exact hd _ _ (Fin.rev_lt_rev.2 hij)

/-- amplitude and unwrapped phase give back the number -/
theorem polar_unwrap {n : ℕ} (z : Fin n → ℂ) (k : Fin n) :
    (|‖z k‖| : ℝ) * exp (I * (unwrap (fun k => angle (z k)) k : ℝ)) = z k := by
  rw [abs_of_nonneg (norm_nonneg _), exp_unwrap, mul_comm I]
  exact Complex.norm_mul_exp_arg_mul_I (z k)

theorem fromArray_xyt {a b c : ℕ} (x : Fin a → ℝ) (y : Fin b → ℝ) (t : Fin c → ℝ) (ha : 2 ≤ a) (hb : 2 ≤ b)
    (hc : 2 ≤ c) (hx : Ascending x) (hy : Ascending y) (ht : Ascending t)
    (f : Fin a → Fin b → Fin c → ℂ) :
    FromArray.init "xyt" (nd3 f) { x := some ⟨a, x⟩, y := some ⟨b, y⟩, t := some ⟨c, t⟩ } =
      .ok (.xyt x y t (fun i j k => ‖f i j k‖) (fun i j => unwrap fun k => angle (f i j k))) := by
  unfold FromArray.init
  rw [if_neg (by simp), if_pos rfl, if_neg (by simp), if_neg (by simp)]
  simp only [lookup, nd3_shape]
  change (rgiAxis ⟨a, x⟩ a >>= fun x => rgiAxis ⟨b, y⟩ b >>= fun y => rgiAxis ⟨c, t⟩ c >>= fun t => _) = _
  rw [rgiAxis_ok x ha hx, rgiAxis_ok y hb hy, rgiAxis_ok t hc ht]
  simp only [nd3_get]
  rfl

/-- **C46** (Cartesian). A profile made from an array with ascending axes of two points or more evaluates, at
every node of the axes, to exactly the value in the array, whatever the phases of the data are (the
unwrapping of the phase is invisible); and it is `0` outside the axes. -/
theorem C46_nodes_xyt {a b c : ℕ} (x : Fin a → ℝ) (y : Fin b → ℝ) (t : Fin c → ℝ) (ha : 2 ≤ a) (hb : 2 ≤ b)
    (hc : 2 ≤ c) (hx : Ascending x) (hy : Ascending y) (ht : Ascending t)
    (f : Fin a → Fin b → Fin c → ℂ) :
    ∃ p, FromArray.init "xyt" (nd3 f) { x := some ⟨a, x⟩, y := some ⟨b, y⟩, t := some ⟨c, t⟩ } = .ok p ∧
      (∀ i j k, p.evaluate (x i) (y j) (t k) = f i j k) ∧
      ∀ px py pt : ℝ, (∀ i, px < x i) ∨ (∀ i, x i < px) ∨ (∀ j, py < y j) ∨ (∀ j, y j < py) ∨
        (∀ k, pt < t k) ∨ (∀ k, t k < pt) → p.evaluate px py pt = 0 := by
  refine ⟨_, fromArray_xyt x y t ha hb hc hx hy ht f, ?_, ?_⟩
  · intro i j k
    simp only [FromArray.evaluate]
    rw [interp3_node ha hb hc hx hy ht, interp3_node ha hb hc hx hy ht]
    exact polar_unwrap (f i j) k
  · intro px py pt hout
    have hne : ¬ (Inside x px ∧ Inside y py ∧ Inside t pt) := by
      rintro ⟨⟨⟨i, h1⟩, ⟨i', h2⟩⟩, ⟨⟨j, h3⟩, ⟨j', h4⟩⟩, ⟨⟨k, h5⟩, ⟨k', h6⟩⟩⟩
      rcases hout with h | h | h | h | h | h
      · linarith [h i]
      · linarith [h i']
      · linarith [h j]
      · linarith [h j']
      · linarith [h k]
      · linarith [h k']
    simp only [FromArray.evaluate, interp3, if_neg hne]
    simp

/-- **C46** (axes in either direction). Each axis may also descend: at every node the profile still evaluates to the value
which the array has there. -/
theorem C46_either_direction {a b c : ℕ} (x : Fin a → ℝ) (y : Fin b → ℝ) (t : Fin c → ℝ) (ha : 2 ≤ a) (hb : 2 ≤ b)
    (hc : 2 ≤ c) (hx : Ascending x ∨ Descending x) (hy : Ascending y ∨ Descending y) (ht : Ascending t ∨ Descending t)
    (f : Fin a → Fin b → Fin c → ℂ) :
    ∃ p, FromArray.init "xyt" (nd3 f) { x := some ⟨a, x⟩, y := some ⟨b, y⟩, t := some ⟨c, t⟩ } = .ok p ∧
      (∀ i j k, p.evaluate (x i) (y j) (t k) = f i j k) ∧
      ∀ px py pt : ℝ, (∀ i, px < x i) ∨ (∀ i, x i < px) ∨ (∀ j, py < y j) ∨ (∀ j, y j < py) ∨
        (∀ k, pt < t k) ∨ (∀ k, t k < pt) → p.evaluate px py pt = 0 := by
  obtain ⟨gx, sx, ex, ax, nx, ix, jx⟩ := rgiAxis_mono x ha hx
  obtain ⟨gy, sy, ey, ay, ny, iy, jy⟩ := rgiAxis_mono y hb hy
  obtain ⟨gt, st, et, at', nt, it, jt⟩ := rgiAxis_mono t hc ht
  have hp : FromArray.init "xyt" (nd3 f) { x := some ⟨a, x⟩, y := some ⟨b, y⟩, t := some ⟨c, t⟩ } =
      .ok (.xyt gx gy gt (fun i j k => ‖f (sx i) (sy j) (st k)‖)
        (fun i j k => unwrap (fun k => angle (f (sx i) (sy j) k)) (st k))) := by
    unfold FromArray.init
    rw [if_neg (by simp), if_pos rfl, if_neg (by simp), if_neg (by simp)]
    simp only [lookup, nd3_shape]
    change (rgiAxis ⟨a, x⟩ a >>= fun x => rgiAxis ⟨b, y⟩ b >>= fun y => rgiAxis ⟨c, t⟩ c >>= fun t => _) = _
    rw [ex, ey, et]
    simp only [bind, Except.bind, nd3_get]
  refine ⟨_, hp, ?_, ?_⟩
  · intro i j k
    simp only [FromArray.evaluate]
    rw [← nx i, ← ny j, ← nt k, interp3_node ha hb hc ax ay at', interp3_node ha hb hc ax ay at', ix, iy, it]
    exact polar_unwrap (f i j) k
  · intro px py pt hout
    have hne : ¬ (Inside gx px ∧ Inside gy py ∧ Inside gt pt) := by
      rintro ⟨⟨⟨i, h1⟩, ⟨i', h2⟩⟩, ⟨⟨j, h3⟩, ⟨j', h4⟩⟩, ⟨⟨k, h5⟩, ⟨k', h6⟩⟩⟩
      rw [jx] at h1 h2
      rw [jy] at h3 h4
      rw [jt] at h5 h6
      rcases hout with h | h | h | h | h | h
      · linarith [h (sx i)]
      · linarith [h (sx i')]
      · linarith [h (sy j)]
      · linarith [h (sy j')]
      · linarith [h (st k)]
      · linarith [h (st k')]
    simp only [FromArray.evaluate, interp3, if_neg hne]
    simp

/-- **C46** (between nodes). The modulus never exceeds a bound on the moduli of the data. -/
theorem C46_bounded_xyt {a b c : ℕ} (x : Fin a → ℝ) (y : Fin b → ℝ) (t : Fin c → ℝ) (ha : 2 ≤ a) (hb : 2 ≤ b)
    (hc : 2 ≤ c) (hx : Ascending x) (hy : Ascending y) (ht : Ascending t)
    (f : Fin a → Fin b → Fin c → ℂ) (M : ℝ) (hM : ∀ i j k, ‖f i j k‖ ≤ M) (hM0 : 0 ≤ M) (p : FromArray)
    (hp : FromArray.init "xyt" (nd3 f) { x := some ⟨a, x⟩, y := some ⟨b, y⟩, t := some ⟨c, t⟩ } = .ok p)
    (px py pt : ℝ) : ‖p.evaluate px py pt‖ ≤ M := by
  rw [fromArray_xyt x y t ha hb hc hx hy ht f] at hp
  injection hp with hp
  subst hp
  simp only [FromArray.evaluate, norm_mul, mul_comm I, Complex.norm_exp_ofReal_mul_I, mul_one,
    Complex.norm_real, Real.norm_eq_abs, abs_abs]
  unfold interp3
  split
  · rename_i hin
    obtain ⟨h1, h2, h3⟩ := hin
    have w1 := linWeight_nonneg ha hx h1
    have w2 := linWeight_nonneg hb hy h2
    have w3 := linWeight_nonneg hc ht h3
    have hsum : ∑ i, ∑ j, ∑ k, linWeight x px i * linWeight y py j * linWeight t pt k * M = M := by
      have e : ∀ i j, ∑ k, linWeight x px i * linWeight y py j * linWeight t pt k * M =
          linWeight x px i * linWeight y py j * M := by
        intro i j
        rw [← Finset.sum_mul, ← Finset.mul_sum, linWeight_sum hc, mul_one]
      simp only [e]
      have e2 : ∀ i, ∑ j, linWeight x px i * linWeight y py j * M = linWeight x px i * M := by
        intro i
        rw [← Finset.sum_mul, ← Finset.mul_sum, linWeight_sum hb, mul_one]
      simp only [e2]
      rw [← Finset.sum_mul, linWeight_sum ha, one_mul]
    rw [abs_of_nonneg (Finset.sum_nonneg fun i _ => Finset.sum_nonneg fun j _ => Finset.sum_nonneg fun k _ =>
      mul_nonneg (mul_nonneg (mul_nonneg (w1 i) (w2 j)) (w3 k)) (norm_nonneg _))]
    rw [← hsum]
    exact Finset.sum_le_sum fun i _ => Finset.sum_le_sum fun j _ => Finset.sum_le_sum fun k _ =>
      mul_le_mul_of_nonneg_left (hM i j k) (mul_nonneg (mul_nonneg (w1 i) (w2 j)) (w3 k))
  · simpa using hM0

/-! ### cylindrical geometry -/

theorem mirrorAxis_ascending {n : ℕ} {r : Fin n → ℝ} (hr : Ascending r) (h : 0 < n) (h0 : 0 < r ⟨0, h⟩) :
    Ascending (mirrorAxis r h) := by
  have hmono : ∀ i : Fin n, r ⟨0, h⟩ ≤ r i := fun i => by
    by_cases hi : i = ⟨0, h⟩
    · rw [hi]
    · exact (hr _ _ (by rw [Fin.lt_def]; rw [Fin.ext_iff] at hi; simp only at hi ⊢; omega)).le
  intro i j hij
  unfold mirrorAxis
  rcases Fin.eq_zero_or_eq_succ j with rfl | ⟨j', rfl⟩
  · exact absurd hij (by simp)
  · rcases Fin.eq_zero_or_eq_succ i with rfl | ⟨i', rfl⟩
    · simp only [Fin.cons_zero, Fin.cons_succ]
      linarith [hmono j']
    · simp only [Fin.cons_succ]
      exact hr _ _ (by simpa using hij)

/-- between the first two nodes only these two have weight -/
theorem linWeight_first {n : ℕ} (hn : 2 ≤ n) {g : Fin n → ℝ} (hg : Ascending g) {x : ℝ}
    (h0 : g ⟨0, by omega⟩ ≤ x) (h1 : x ≤ g ⟨1, by omega⟩) (i : Fin n) (hi : 2 ≤ (i : ℕ)) :
    linWeight g x i = 0 := by
  rcases h1.eq_or_lt with h | h
  · rw [h, linWeight_node hn hg]
    rw [if_neg]
    rw [Fin.ext_iff]
    simp only
    omega
  · have hs : searchRight g x = 1 := by
      have : (Finset.univ.filter fun i => g i ≤ x) = {⟨0, by omega⟩} := by
        ext j
        simp only [Finset.mem_filter, Finset.mem_univ, true_and, Finset.mem_singleton]
        constructor
        · intro hj
          by_contra hc
          have hj1 : g ⟨1, by omega⟩ ≤ g j := by
            by_cases he : j = ⟨1, by omega⟩
            · rw [he]
            · refine (hg _ _ ?_).le
              rw [Fin.lt_def]
              rw [Fin.ext_iff] at hc he
              simp only at hc he ⊢
              omega
          linarith
        · rintro rfl
          exact h0
      rw [searchRight, this]
      rfl
    have hint : interval g x = 0 := by rw [interval, hs]; simp
    unfold linWeight
    simp only [hint]
    rw [dif_pos (by omega), if_neg (by omega), if_neg (by omega)]

theorem fromArray_rt_mirror {a b : ℕ} (r : Fin a → ℝ) (t : Fin b → ℝ) (ha : 1 ≤ a) (hb : 2 ≤ b)
    (hr : Ascending r) (ht : Ascending t) (h0 : 0 < r ⟨0, ha⟩) (f : Fin a → Fin b → ℂ) :
    FromArray.init "rt" (nd2 f) { r := some ⟨a, r⟩, t := some ⟨b, t⟩ } ["r", "t"] =
      .ok (.rt (mirrorAxis r ha) t (fun i k => ‖(nd2 f).get [(i : ℕ) - 1, k]‖)
        (fun i => unwrap fun k => angle ((nd2 f).get [(i : ℕ) - 1, k]))) := by
  unfold FromArray.init
  rw [if_neg (by simp), if_neg (by simp), if_neg (by simp), if_neg (by simp)]
  simp only [lookup, nd2_shape]
  change (if h : 0 < a then _ else _) = _
  rw [dif_pos (show 0 < a from ha)]
  rw [if_pos (ne_of_gt h0), if_neg (by omega)]
  change (rgiAxis ⟨a + 1, mirrorAxis r _⟩ (a + 1) >>= fun r => rgiAxis ⟨b, t⟩ b >>= fun t => _) = _
  rw [rgiAxis_ok _ (by omega) (mirrorAxis_ascending hr ha h0), rgiAxis_ok t hb ht]
  rfl

theorem fromArray_rt_zero {a b : ℕ} (r : Fin a → ℝ) (t : Fin b → ℝ) (ha : 2 ≤ a) (hb : 2 ≤ b)
    (hr : Ascending r) (ht : Ascending t) (h0 : r ⟨0, by omega⟩ = 0) (f : Fin a → Fin b → ℂ) :
    FromArray.init "rt" (nd2 f) { r := some ⟨a, r⟩, t := some ⟨b, t⟩ } ["r", "t"] =
      .ok (.rt r t (fun i k => ‖f i k‖) (fun i => unwrap fun k => angle (f i k))) := by
  unfold FromArray.init
  rw [if_neg (by simp), if_neg (by simp), if_neg (by simp), if_neg (by simp)]
  simp only [lookup, nd2_shape]
  change (if h : 0 < a then _ else _) = _
  rw [dif_pos (show 0 < a by omega)]
  rw [if_neg (by rw [not_not]; exact h0)]
  change (rgiAxis ⟨a, r⟩ a >>= fun r => rgiAxis ⟨b, t⟩ b >>= fun t => _) = _
  rw [rgiAxis_ok _ (by omega) hr, rgiAxis_ok t hb ht]
  simp only [nd2_get]
  rfl

/-- **C46** (cylindrical). With ascending axes, `r[0] ≥ 0`, the profile evaluates, at every point whose
distance from the axis is a node `r[i]` and at every node `t[k]`, to exactly `array[i, k]`; between the axis
and the first node it returns the first row; beyond the last radius, or outside the time axis, it is `0`. -/
theorem C46_nodes_rt {a b : ℕ} (r : Fin a → ℝ) (t : Fin b → ℝ) (ha : 2 ≤ a) (hb : 2 ≤ b)
    (hr : Ascending r) (ht : Ascending t) (h0 : 0 ≤ r ⟨0, by omega⟩) (f : Fin a → Fin b → ℂ) :
    ∃ p, FromArray.init "rt" (nd2 f) { r := some ⟨a, r⟩, t := some ⟨b, t⟩ } ["r", "t"] = .ok p ∧
      (∀ i k (x y : ℝ), Real.sqrt (x ^ 2 + y ^ 2) = r i → p.evaluate x y (t k) = f i k) ∧
      (∀ k (x y : ℝ), Real.sqrt (x ^ 2 + y ^ 2) ≤ r ⟨0, by omega⟩ →
        p.evaluate x y (t k) = f ⟨0, by omega⟩ k) ∧
      ∀ px py pt : ℝ, (∀ i, r i < Real.sqrt (px ^ 2 + py ^ 2)) ∨ (∀ k, pt < t k) ∨ (∀ k, t k < pt) →
        p.evaluate px py pt = 0 := by
  rcases h0.eq_or_lt with h0 | h0
  · refine ⟨_, fromArray_rt_zero r t ha hb hr ht h0.symm f, ?_, ?_, ?_⟩
    · intro i k x y hxy
      simp only [FromArray.evaluate, hxy]
      rw [interp2_node ha hb hr ht, interp2_node ha hb hr ht]
      exact polar_unwrap (f i) k
    · intro k x y hxy
      have : Real.sqrt (x ^ 2 + y ^ 2) = r ⟨0, by omega⟩ :=
        le_antisymm hxy (by rw [← h0]; exact Real.sqrt_nonneg _)
      simp only [FromArray.evaluate, this]
      rw [interp2_node ha hb hr ht, interp2_node ha hb hr ht]
      exact polar_unwrap (f _) k
    · intro px py pt hout
      have hne : ¬ (Inside r (Real.sqrt (px ^ 2 + py ^ 2)) ∧ Inside t pt) := by
        rintro ⟨⟨⟨i, h1⟩, ⟨i', h2⟩⟩, ⟨⟨k, h5⟩, ⟨k', h6⟩⟩⟩
        rcases hout with h | h | h
        · linarith [h i']
        · linarith [h k]
        · linarith [h k']
      simp only [FromArray.evaluate, interp2, if_neg hne]
      simp
  · have hm := mirrorAxis_ascending hr (by omega : 0 < a) h0
    have hrow : ∀ (i : Fin (a + 1)) (k : Fin b), (nd2 f).get [(i : ℕ) - 1, (k : ℕ)] =
        f ⟨i - 1, by omega⟩ k := by
      intro i k
      exact nd2_get f ⟨i - 1, by omega⟩ k
    refine ⟨_, fromArray_rt_mirror r t (by omega) hb hr ht h0 f, ?_, ?_, ?_⟩
    · intro i k x y hxy
      have e : r i = mirrorAxis r (by omega) i.succ := by simp [mirrorAxis]
      simp only [FromArray.evaluate, hxy]
      rw [e, interp2_node (by omega) hb hm ht, interp2_node (by omega) hb hm ht]
      simp only [hrow]
      have := polar_unwrap (f i) k
      simpa using this
    · intro k x y hxy
      have e0 : mirrorAxis r (by omega) (⟨0, by omega⟩ : Fin (a + 1)) = -r ⟨0, by omega⟩ := by
        simp [mirrorAxis]
      have e1 : mirrorAxis r (by omega) (⟨1, by omega⟩ : Fin (a + 1)) = r ⟨0, by omega⟩ := by
        show mirrorAxis r (by omega) (Fin.succ (⟨0, by omega⟩ : Fin a)) = _
        simp only [mirrorAxis, Fin.cons_succ]
      set ρ := Real.sqrt (x ^ 2 + y ^ 2) with hρ
      have hρ0 : 0 ≤ ρ := Real.sqrt_nonneg _
      have hin : Inside (mirrorAxis r (by omega : 0 < a)) ρ :=
        ⟨⟨⟨0, by omega⟩, by rw [e0]; linarith⟩, ⟨⟨1, by omega⟩, by rw [e1]; exact hxy⟩⟩
      have key : ∀ v : Fin (a + 1) → Fin b → ℝ, v ⟨0, by omega⟩ = v ⟨1, by omega⟩ →
          interp2 (mirrorAxis r (by omega)) t v ρ (t k) = v ⟨0, by omega⟩ k := by
        intro v hv
        unfold interp2
        rw [if_pos ⟨hin, inside_node t k⟩]
        simp only [linWeight_node hb ht]
        simp only [mul_ite, mul_one, mul_zero, ite_mul, zero_mul, Finset.sum_ite_eq', Finset.mem_univ,
          if_true]
        have hsum := linWeight_sum (by omega : 2 ≤ a + 1) (mirrorAxis r (by omega)) ρ
        have : ∀ i : Fin (a + 1), linWeight (mirrorAxis r (by omega)) ρ i * v i k =
            linWeight (mirrorAxis r (by omega)) ρ i * v ⟨0, by omega⟩ k := by
          intro i
          by_cases hi : 2 ≤ (i : ℕ)
          · rw [linWeight_first (by omega) hm (by rw [e0]; linarith) (by rw [e1]; exact hxy) i hi]
            simp
          · have : i = ⟨0, by omega⟩ ∨ i = ⟨1, by omega⟩ := by
              simp only [Fin.ext_iff]; omega
            rcases this with h | h
            · rw [h]
            · rw [h, hv]
        rw [Finset.sum_congr rfl fun i _ => this i, ← Finset.sum_mul, hsum, one_mul]
      simp only [FromArray.evaluate, ← hρ]
      rw [key _ (by rfl), key _ (by rfl)]
      have h00 : ∀ k : Fin b, (nd2 f).get [0 - 1, (k : ℕ)] = f ⟨0, by omega⟩ k :=
        fun k => hrow ⟨0, by omega⟩ k
      simp only [h00]
      exact polar_unwrap (f ⟨0, by omega⟩) k
    · intro px py pt hout
      have hne : ¬ (Inside (mirrorAxis r (by omega : 0 < a)) (Real.sqrt (px ^ 2 + py ^ 2)) ∧
          Inside t pt) := by
        rintro ⟨⟨⟨i, h1⟩, ⟨i', h2⟩⟩, ⟨⟨k, h5⟩, ⟨k', h6⟩⟩⟩
        rcases hout with h | h | h
        · rcases Fin.eq_zero_or_eq_succ i' with rfl | ⟨i', rfl⟩
          · simp only [mirrorAxis, Fin.cons_zero] at h2
            linarith [Real.sqrt_nonneg (px ^ 2 + py ^ 2)]
          · simp only [mirrorAxis, Fin.cons_succ] at h2
            linarith [h i']
        · linarith [h k]
        · linarith [h k']
      simp only [FromArray.evaluate, interp2, if_neg hne]
      simp

/-- C46 is not vacuous: ascending axes exist, with a first radius off the axis -/
example : Ascending (fun i : Fin 3 => ((i : ℕ) : ℝ) + 1 / 2) ∧ (0 : ℝ) < ((0 : Fin 3) : ℕ) + 1 / 2 := by
  refine ⟨fun i j h => ?_, by norm_num⟩
  have : ((i : ℕ) : ℝ) < (j : ℕ) := by exact_mod_cast h
  simpa using this

/-! ## C47 -/

/-- **C47 is false in `rt` geometry**: the documented order `["t", "r"]` always raises, whatever the data. -/
theorem C47_rt_refuted {a b : ℕ} (f : Fin a → Fin b → ℂ) (axes : AxesDict) :
    FromArray.init "rt" (nd2 f) axes ["t", "r"] = .error .axis := by
  unfold FromArray.init
  rw [if_neg (by simp), if_neg (by simp), if_neg (by simp), if_pos (by simp)]

/-- **C47 is false in `xyt` geometry**: data of shape `(nt, ny, nx)` with the order `["t", "y", "x"]` are
rejected whenever `nt ≠ nx`. -/
theorem C47_shape_refuted {a b c : ℕ} (x : Fin a → ℝ) (y : Fin b → ℝ) (t : Fin c → ℝ) (hne : a ≠ c)
    (f : Fin c → Fin b → Fin a → ℂ) :
    FromArray.init "xyt" (nd3 f) { x := some ⟨a, x⟩, y := some ⟨b, y⟩, t := some ⟨c, t⟩ } ["t", "y", "x"] =
      .error .value := by
  unfold FromArray.init
  rw [if_neg (by simp), if_pos rfl, if_neg (by simp), if_neg (by simp)]
  simp only [lookup, nd3_shape]
  change (rgiAxis ⟨a, x⟩ c >>= fun x => rgiAxis ⟨b, y⟩ b >>= fun y => rgiAxis ⟨c, t⟩ a >>= fun t => _) = _
  have : rgiAxis ⟨a, x⟩ c = .error .value := by
    unfold rgiAxis
    rw [dif_neg (by intro h; exact hne h.1)]
  rw [this]
  rfl

/-- **C47** (what the code does with a cubic array). When `nt = nx` the call succeeds, but the order is
ignored: at the node `(x[i], y[j], t[k])` the profile is `array[i, j, k]`, which is the datum of
`(t[i], y[j], x[k])`. The claim holds only for arrays symmetric under exchange of the first and the last
index. -/
theorem C47_order_partial {a b : ℕ} (x : Fin a → ℝ) (y : Fin b → ℝ) (t : Fin a → ℝ) (ha : 2 ≤ a)
    (hb : 2 ≤ b) (hx : Ascending x) (hy : Ascending y) (ht : Ascending t) (f : Fin a → Fin b → Fin a → ℂ) :
    ∃ p, FromArray.init "xyt" (nd3 f) { x := some ⟨a, x⟩, y := some ⟨b, y⟩, t := some ⟨a, t⟩ }
        ["t", "y", "x"] = .ok p ∧
      (∀ i j k, p.evaluate (x i) (y j) (t k) = f i j k) ∧
      ((∀ i j k, p.evaluate (x i) (y j) (t k) = f k j i) ↔ ∀ i j k, f i j k = f k j i) := by
  have hp : FromArray.init "xyt" (nd3 f) { x := some ⟨a, x⟩, y := some ⟨b, y⟩, t := some ⟨a, t⟩ }
      ["t", "y", "x"] =
      .ok (.xyt x y t (fun i j k => ‖f i j k‖) (fun i j => unwrap fun k => angle (f i j k))) := by
    unfold FromArray.init
    rw [if_neg (by simp), if_pos rfl, if_neg (by simp), if_neg (by simp)]
    simp only [lookup, nd3_shape]
    change (rgiAxis ⟨a, x⟩ a >>= fun x => rgiAxis ⟨b, y⟩ b >>= fun y => rgiAxis ⟨a, t⟩ a >>= fun t => _) = _
    rw [rgiAxis_ok x ha hx, rgiAxis_ok y hb hy, rgiAxis_ok t ha ht]
    simp only [nd3_get]
    rfl
  have hv : ∀ i j k, FromArray.evaluate (.xyt x y t (fun i j k => ‖f i j k‖)
      (fun i j => unwrap fun k => angle (f i j k))) (x i) (y j) (t k) = f i j k := by
    intro i j k
    simp only [FromArray.evaluate]
    rw [interp3_node ha hb ha hx hy ht, interp3_node ha hb ha hx hy ht]
    exact polar_unwrap (f i j) k
  exact ⟨_, hp, hv, by simp only [hv]⟩

/-! ## C140: what the constructor refuses -/

/-- one axis that the interpolator cannot use: its length is not that of the data, or it has two points or more and is
neither strictly ascending nor strictly descending -/
def BadAxis (v : Vec) (n : ℕ) : Prop := v.1 ≠ n ∨ (¬ Ascending v.2 ∧ ¬ Descending v.2)

theorem rgiAxis_bad {v : Vec} {n : ℕ} (h : BadAxis v n) : rgiAxis v n = .error .value := by
  unfold rgiAxis
  rcases h with h | ⟨h1, h2⟩
  · rw [dif_neg (fun q => h q.1)]
  · simp only [if_neg h1, if_neg h2, dite_eq_ite, ite_self]

theorem rgiAxis_value {v : Vec} {n : ℕ} {e : PyErr} (h : rgiAxis v n = .error e) : e = .value := by
  unfold rgiAxis at h
  split at h
  · split at h
    · cases h
    · split at h
      · cases h
      · exact (Except.error.inj h).symm
  · exact (Except.error.inj h).symm

/-- **C140** (dimensions and orders). An unknown `dim`, or an order that does not belong to it, is an `AssertionError`. -/
theorem C140_assertions (dim : String) (array : NdArray) (axes : AxesDict) (order : List String) :
    (dim ≠ "xyt" → dim ≠ "rt" → FromArray.init dim array axes order = .error .assertion) ∧
    (order ≠ ["x", "y", "t"] → order ≠ ["t", "y", "x"] → FromArray.init "xyt" array axes order = .error .assertion) ∧
    (order ≠ ["r", "t"] → order ≠ ["t", "r"] → FromArray.init "rt" array axes order = .error .assertion) := by
  refine ⟨?_, ?_, ?_⟩
  · intro h1 h2
    unfold FromArray.init
    rw [if_pos (by simp [h1, h2])]
  · intro h1 h2
    unfold FromArray.init
    rw [if_neg (by simp), if_pos rfl, if_pos (by simp [h1, h2])]
  · intro h1 h2
    unfold FromArray.init
    rw [if_neg (by simp), if_neg (by decide), if_pos (by simp [h1, h2])]

/-- **C140** (missing axes). If an axis of the geometry is not in the dictionary, the constructor raises `KeyError`: in
Cartesian geometry whatever the array and the other axes are, in cylindrical geometry for arrays with two dimensions and
at least one row, and a non-empty radial axis. -/
theorem C140_missing_axis (array : NdArray) (axes : AxesDict) :
    (axes.x = none ∨ axes.y = none ∨ axes.t = none → FromArray.init "xyt" array axes = .error .key) ∧
    (axes.r = none → FromArray.init "rt" array axes ["r", "t"] = .error .key) ∧
    (∀ r : Vec, axes.r = some r → 0 < r.1 → axes.t = none → ∀ a b, array.shape = [a + 1, b] →
      FromArray.init "rt" array axes ["r", "t"] = .error .key) := by
  refine ⟨?_, ?_, ?_⟩
  · intro h
    unfold FromArray.init
    rw [if_neg (by simp), if_pos rfl, if_neg (by simp), if_neg (by simp)]
    rcases hx : axes.x with _ | x
    · rfl
    rcases hy : axes.y with _ | y
    · rfl
    rcases ht : axes.t with _ | t
    · rfl
    rw [hx, hy, ht] at h
    simp at h
  · intro h
    unfold FromArray.init
    rw [if_neg (by simp), if_neg (by simp), if_neg (by simp), if_neg (by simp), h]
    rfl
  · intro r hr h0 ht a b hs
    unfold FromArray.init
    rw [if_neg (by simp), if_neg (by simp), if_neg (by simp), if_neg (by simp), hr, ht]
    simp only [lookup, bind, Except.bind, h0, dif_pos, hs]
    split
    · rw [if_neg (by omega)]
    · rfl

/-- **C140** (axes that do not fit). If all axes are given but one of them has not the length of the data, or is neither
ascending nor descending, the constructor raises `ValueError`; so it does if the array has fewer dimensions than the
geometry has axes. -/
theorem C140_bad_axis (array : NdArray) (_h1 : 1 ≤ array.shape.length) (x y t : Vec) :
    (array.shape.length ≤ 3 → (∀ a b c, array.shape = [a, b, c] → BadAxis x a ∨ BadAxis y b ∨ BadAxis t c) →
      FromArray.init "xyt" array { x := some x, y := some y, t := some t } = .error .value) ∧
    ∀ r : Vec, array.shape.length ≤ 2 → (∃ h : 0 < r.1, r.2 ⟨0, h⟩ = 0) → (∀ a b, array.shape = [a, b] → BadAxis r a ∨ BadAxis t b) →
      FromArray.init "rt" array { r := some r, t := some t } ["r", "t"] = .error .value := by
  constructor
  · intro _ h
    unfold FromArray.init
    rw [if_neg (by simp), if_pos rfl, if_neg (by simp), if_neg (by simp)]
    simp only [lookup, bind, Except.bind]
    split
    · rename_i a b c hs
      rcases hx : rgiAxis x a with e | X
      · rw [rgiAxis_value hx]
      rcases hy : rgiAxis y b with e | Y
      · simp only; rw [rgiAxis_value hy]
      rcases ht : rgiAxis t c with e | T
      · simp only; rw [rgiAxis_value ht]
      rcases h a b c hs with q | q | q
      · rw [rgiAxis_bad q] at hx; cases hx
      · rw [rgiAxis_bad q] at hy; cases hy
      · rw [rgiAxis_bad q] at ht; cases ht
    · rfl
  · rintro r _ ⟨h0, h00⟩ h
    unfold FromArray.init
    rw [if_neg (by simp), if_neg (by simp), if_neg (by simp), if_neg (by simp)]
    simp only [lookup, bind, Except.bind, h0, dif_pos]
    split
    · rename_i a b hs
      rw [if_neg (by rw [not_not]; exact h00)]
      rcases hx : rgiAxis r a with e | X
      · rw [rgiAxis_value hx]
      rcases ht : rgiAxis t b with e | T
      · simp only; rw [rgiAxis_value ht]
      rcases h a b hs with q | q
      · rw [rgiAxis_bad q] at hx; cases hx
      · rw [rgiAxis_bad q] at ht; cases ht
    · rfl

/-- the hypotheses of C140 and of `C46_either_direction` are met -/
example : Descending (fun i : Fin 3 => -(i : ℝ)) ∧ BadAxis ⟨3, fun i => ((i : ℕ) : ℝ)⟩ 2 ∧
    BadAxis ⟨3, fun _ => 1⟩ 3 := by
  refine ⟨?_, .inl (by norm_num), .inr ⟨?_, ?_⟩⟩
  · intro i j h
    have : ((i : ℕ) : ℝ) < (j : ℕ) := by exact_mod_cast h
    simpa using this
  · intro h; exact lt_irrefl _ (h 0 1 (by decide))
  · intro h; exact lt_irrefl _ (h 0 1 (by decide))

end Lasy
