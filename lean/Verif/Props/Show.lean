import Verif.Model.Show
import Verif.Props.FullField
import Verif.Props.OpenPMD

/-!
# Properties C98, C101: what the images of `get_full_field` and `Laser.show` are labelled with
-/

namespace Lasy
open Spec Phys Complex

variable {s : Shape}

/-- the position of row `q`, if the first and the last row of the image are at the ends of the extent -/
noncomputable def Image.rowAt (img : Image) (q : Fin img.rows) : ℝ :=
  img.ext.2.2.1 + (q : ℝ) * ((img.ext.2.2.2 - img.ext.2.2.1) / ((img.rows : ℝ) - 1))

/-- the time of column `k`, if the first and the last column of the image are at the ends of the extent -/
noncomputable def Image.colAt (img : Image) (k : Fin img.cols) : ℝ :=
  img.ext.1 + (k : ℝ) * ((img.ext.2.1 - img.ext.1) / ((img.cols : ℝ) - 1))

/-- **C98.** On a regular `rt` grid (every constructed laser after any propagations, `C34_premises`) whose
radial axis starts at the axis of symmetry, the extent of the image of `get_full_field` labels every row and
column: column `k` is at the time of the grid, row `nr - 1 + j` at `r_j` and row `nr - 1 - j` at `-r_j`. -/
theorem C98_labels_partial (l : Laser s) (f : Field s) (h : l.Has f) (hr : l.grid.Regular) {n : ℕ}
    {hn : 1 ≤ n ∧ s.n0 = 2 * n - 1} {r : Axis s.n1} (hg : l.grid.geom = .rt n hn r) (h0 : r.lo = 0)
    (hnr : 2 ≤ s.n1) (θ slice : ℝ) (ax : String) :
    ∃ (l' : Laser s) (img : Image), getFullField θ slice ax none l = (.ok (some img), l') ∧
      ∃ (hrow : img.rows = 2 * s.n1 - 1) (hc : img.cols = s.nt),
        (∀ k, img.colAt (Fin.cast hc.symm k) = l.grid.t.pts k) ∧
        ∀ j : Fin s.n1, img.rowAt ⟨s.n1 - 1 + j, by omega⟩ = r.pts j ∧
          img.rowAt ⟨s.n1 - 1 - j, by omega⟩ = -r.pts j := by
  obtain ⟨l', e, h'⟩ := getFullField_rt l f h hg θ slice ax
  have hreg := hr.1
  rw [hg] at hreg
  have hreg : r.Regular := hreg
  refine ⟨l', _, e, rfl, rfl, ?_, ?_⟩
  · intro k
    rw [hr.2 k]
    simp [Image.colAt, imageExtent, hg, linspace]
  · intro j
    have hj := j.2
    have hN : (1 : ℝ) ≤ (s.n1 : ℝ) - 1 := by
      have : (2 : ℝ) ≤ s.n1 := by exact_mod_cast hnr
      linarith
    have e1 : ((2 * s.n1 - 1 : ℕ) : ℝ) - 1 = 2 * ((s.n1 : ℝ) - 1) := by
      push_cast [Nat.cast_sub (show 1 ≤ 2 * s.n1 by omega)]; ring
    have e2 : ((s.n1 - 1 : ℕ) : ℝ) = (s.n1 : ℝ) - 1 := by push_cast [Nat.cast_sub (show 1 ≤ s.n1 by omega)]; ring
    have e3 : ((s.n1 - 1 - j : ℕ) : ℝ) = (s.n1 : ℝ) - 1 - (j : ℕ) := by
      rw [Nat.cast_sub (by omega), e2]
    rw [hreg j]
    simp only [Image.rowAt, imageExtent, hg, linspace, h0, Nat.cast_add, e1, e2, e3]
    constructor
    · field_simp; ring
    · field_simp; ring

/-- **C98 is false of the code if the radial axis starts elsewhere**: for `lo ≠ 0` no row is labelled with its
radius, except the outermost ones. -/
theorem C98_refuted (l : Laser s) (f : Field s) (h : l.Has f) (hr : l.grid.Regular) {n : ℕ}
    {hn : 1 ≤ n ∧ s.n0 = 2 * n - 1} {r : Axis s.n1} (hg : l.grid.geom = .rt n hn r) (h0 : r.lo ≠ 0)
    (hnr : 2 ≤ s.n1) (θ slice : ℝ) (ax : String) :
    ∃ (l' : Laser s) (img : Image), getFullField θ slice ax none l = (.ok (some img), l') ∧
      ∃ (hrow : img.rows = 2 * s.n1 - 1), ∀ j : Fin s.n1, (j : ℕ) + 1 < s.n1 →
        img.rowAt ⟨s.n1 - 1 + j, by omega⟩ ≠ r.pts j ∧ img.rowAt ⟨s.n1 - 1 - j, by omega⟩ ≠ -r.pts j := by
  obtain ⟨l', e, h'⟩ := getFullField_rt l f h hg θ slice ax
  have hreg := hr.1
  rw [hg] at hreg
  have hreg : r.Regular := hreg
  refine ⟨l', _, e, rfl, ?_⟩
  intro j hj1
  have hj := j.2
  have hN : (0 : ℝ) < (s.n1 : ℝ) - 1 := by
    have : (2 : ℝ) ≤ s.n1 := by exact_mod_cast hnr
    linarith
  have hjN : ((j : ℕ) : ℝ) < (s.n1 : ℝ) - 1 := by
    have : ((j : ℕ) : ℝ) + 1 < s.n1 := by exact_mod_cast hj1
    linarith
  have e1 : ((2 * s.n1 - 1 : ℕ) : ℝ) - 1 = 2 * ((s.n1 : ℝ) - 1) := by
    push_cast [Nat.cast_sub (show 1 ≤ 2 * s.n1 by omega)]; ring
  have e2 : ((s.n1 - 1 : ℕ) : ℝ) = (s.n1 : ℝ) - 1 := by push_cast [Nat.cast_sub (show 1 ≤ s.n1 by omega)]; ring
  have e3 : ((s.n1 - 1 - j : ℕ) : ℝ) = (s.n1 : ℝ) - 1 - (j : ℕ) := by
    rw [Nat.cast_sub (by omega), e2]
  have hne : r.lo * ((s.n1 : ℝ) - 1 - (j : ℕ)) ≠ 0 := mul_ne_zero h0 (by linarith)
  rw [hreg j]
  simp only [Image.rowAt, imageExtent, hg, linspace, Nat.cast_add, e1, e2, e3]
  constructor
  · intro hh
    apply hne
    field_simp at hh
    linear_combination -hh / 2
  · intro hh
    apply hne
    field_simp at hh
    linear_combination hh / 2

/-! ## C101 -/

theorem azimuthalModes_ofFn (n : ℕ) (hn : 1 ≤ n) : azimuthalModes n = List.ofFn (modeAt n) := by
  apply List.ext_getElem?
  intro i
  by_cases hi : i < 2 * n - 1
  · have h := (modeAt_iff hn ⟨i, hi⟩ (modeAt n ⟨i, hi⟩)).1 rfl
    rw [((C10_mode_layout n hn).2.2.2 ⟨i, hi⟩ _).2 h, List.getElem?_ofFn, dif_pos hi]
  · rw [List.getElem?_eq_none (by rw [(C10_mode_layout n hn).2.2.1]; omega),
      List.getElem?_eq_none (by simpa using hi)]

theorem mapM_ok {α β : Type} (F : α → Except PyErr β) (G : α → β) (l : List α) (h : ∀ x ∈ l, F x = .ok (G x)) :
    l.mapM F = .ok (l.map G) := by
  induction l with
  | nil => rfl
  | cons a l ih =>
    rw [List.mapM_cons, h a (by simp), ih fun x hx => h x (by simp [hx])]
    rfl

/-- the centre of the pixels of row `q`, as `imshow` draws `rows` equal rows in the extent -/
noncomputable def Image.pixelRow (img : Image) (q : Fin img.rows) : ℝ :=
  img.ext.2.2.1 + ((q : ℝ) + 1 / 2) * ((img.ext.2.2.2 - img.ext.2.2.1) / img.rows)

theorem show_ok {l : Laser s} {f : Field s} (h : l.Has f) :
    ∃ l', l.show = (showArray l.grid f, l') ∧ l'.Has f := by
  obtain ⟨g', e, h', hgeo, ht⟩ := Grid.Holds.getT h
  refine ⟨{ l with grid := g' }, ?_, h'⟩
  unfold Laser.show
  rw [Py.bind_ok (onGrid_eq e), Py.bind_ok (Py.get_apply _)]
  have : showArray g' f = showArray l.grid f := by unfold showArray; rw [hgeo, ht]
  simp only [this]
  cases showArray l.grid f <;> rfl

/-- **C101** in `rt`: the image of `Laser.show` has `2 nr` rows; row `nr + j` is the modulus of the envelope at
radius `r_j` and angle `0`, row `nr - 1 - j` the one at radius `r_j` and angle `π`. If the radial axis starts at
`0`, these rows are drawn at `r_j` and `-r_j` up to half the height of a pixel. The laser keeps its field. -/
theorem C101_rt (l : Laser s) (f : Field s) (h : l.Has f) (hr : l.grid.Regular) {n : ℕ}
    {hn : 1 ≤ n ∧ s.n0 = 2 * n - 1} {r : Axis s.n1} (hg : l.grid.geom = .rt n hn r) (h2 : 2 ≤ s.n1) :
    ∃ (l' : Laser s) (img : Image), l.show = (.ok img, l') ∧ l'.Has f ∧
      img.ext = (l.grid.t.lo, l.grid.t.hi, -r.hi, r.hi) ∧
      ∃ (hrow : img.rows = 2 * s.n1) (hc : img.cols = s.nt),
        (∀ (j : Fin s.n1) (k : Fin s.nt),
          img.val ⟨s.n1 + j, by omega⟩ (Fin.cast hc.symm k) = ‖envelopeAt hn f 0 j k‖ ∧
          img.val ⟨s.n1 - 1 - j, by omega⟩ (Fin.cast hc.symm k) = ‖envelopeAt hn f Real.pi j k‖) ∧
        (r.lo = 0 → ∀ j : Fin s.n1,
          |img.pixelRow ⟨s.n1 + j, by omega⟩ - r.pts j| ≤ |r.hi| / s.n1 / 2 ∧
          |img.pixelRow ⟨s.n1 - 1 - j, by omega⟩ - -r.pts j| ≤ |r.hi| / s.n1 / 2) := by
  obtain ⟨l', e, h'⟩ := show_ok h
  obtain ⟨n0, n1, nt⟩ := s
  obtain ⟨hn1, hn2⟩ := hn
  dsimp only at hn2
  subst hn2
  have hmode : ∀ i : Fin (2 * n - 1), showMode f (modeAt n i) = .ok (showStack ((-1) ^ modeAt n i) (f i)) := by
    intro i
    unfold showMode
    rw [((modeAt_iff hn1 i (modeAt n i)).1 rfl).2]
    rfl
  have hM : (azimuthalModes n).mapM (showMode f) =
      .ok (List.ofFn fun i : Fin (2 * n - 1) => showStack ((-1) ^ modeAt n i) (f i)) := by
    rw [azimuthalModes_ofFn n hn1]
    have : ∀ l : List (Fin (2 * n - 1)), (l.map (modeAt n)).mapM (showMode f) =
        .ok (l.map fun i => showStack ((-1) ^ modeAt n i) (f i)) := by
      intro l
      rw [List.mapM_map]
      exact mapM_ok _ _ _ fun i _ => hmode i
    rw [List.ofFn_eq_map, this, List.ofFn_eq_map]
  have hshow : showArray l.grid f = .ok ⟨2 * n1, nt, fun q k => ‖∑ i, showStack ((-1) ^ modeAt n i) (f i) q k‖,
      (l.grid.t.lo, l.grid.t.hi, -r.hi, r.hi)⟩ := by
    unfold showArray
    rw [hg]
    dsimp only
    rw [hM]
    simp only [bind, Except.bind, pure, Except.pure, List.map_ofFn, List.sum_ofFn, Function.comp_def]
  rw [hshow] at e
  refine ⟨l', _, e, h', rfl, rfl, rfl, ?_, ?_⟩
  · intro j k
    have hj := j.2
    dsimp only at hj ⊢
    constructor
    · congr 1
      refine Finset.sum_congr rfl fun i _ => ?_
      rw [showStack, dif_neg (by simp)]
      simp
    · congr 1
      refine Finset.sum_congr rfl fun i _ => ?_
      rw [showStack, dif_pos (by simp; omega)]
      have hjj : (⟨n1 - 1 - (n1 - 1 - j), by omega⟩ : Fin n1) = j := by ext; simp; omega
      rw [hjj, mul_comm]
      congr 1
      have : -I * (modeAt n (Fin.cast rfl i) : ℂ) * (Real.pi : ℂ) = (modeAt n i : ℂ) * (-(Real.pi * I)) := by
        simp; ring
      rw [this, Complex.exp_int_mul, Complex.exp_neg, Complex.exp_pi_mul_I]
      norm_num
  · intro h0 j
    have hreg := hr.1
    rw [hg] at hreg
    have hreg : r.Regular := hreg
    have hj := j.2
    dsimp only at hj h2 ⊢
    have hN2 : (2 : ℝ) ≤ n1 := by exact_mod_cast h2
    have hN : (0 : ℝ) < (n1 : ℝ) - 1 := by linarith
    have e2 : ((n1 - 1 - j : ℕ) : ℝ) = (n1 : ℝ) - 1 - (j : ℕ) := by
      rw [Nat.cast_sub (by omega), Nat.cast_sub (by omega)]; simp
    have hjN : ((j : ℕ) : ℝ) ≤ (n1 : ℝ) - 1 := by
      have : ((j : ℕ) : ℝ) + 1 ≤ n1 := by exact_mod_cast hj
      linarith
    have hj0 : (0 : ℝ) ≤ (j : ℕ) := Nat.cast_nonneg _
    have key : |r.hi * (((n1 : ℝ) - 1 - 2 * (j : ℕ)) / (2 * n1 * ((n1 : ℝ) - 1)))| ≤ |r.hi| / n1 / 2 := by
      rw [abs_mul, div_div, div_eq_mul_inv |r.hi|]
      refine mul_le_mul_of_nonneg_left ?_ (abs_nonneg _)
      rw [abs_le]
      constructor
      · rw [← one_div, ← neg_div, div_le_div_iff₀ (by positivity) (by positivity)]
        nlinarith [mul_nonneg hj0 (by linarith : (0 : ℝ) ≤ n1)]
      · rw [← one_div, div_le_div_iff₀ (by positivity) (by positivity)]
        nlinarith [mul_nonneg hj0 (by linarith : (0 : ℝ) ≤ n1)]
    rw [hreg j]
    simp only [Image.pixelRow, linspace, h0, Nat.cast_add, Nat.cast_mul, Nat.cast_ofNat, e2]
    constructor
    · refine le_trans (le_of_eq ?_) key
      congr 1
      field_simp
      ring
    · refine le_trans (le_of_eq ?_) key
      rw [← abs_neg]
      congr 1
      field_simp
      ring

/-- **C101** on Cartesian grids: row `i` of the image is the modulus of the envelope at `x_i`, in the plane of
constant `y` with number `ny // 2`, which is at most half a cell away from the middle of the `y` axis; the rows
are drawn at `x_i` up to half the height of a pixel. The laser keeps its field. -/
theorem C101_xyt (l : Laser s) (f : Field s) (h : l.Has f) (hr : l.grid.Regular) {x : Axis s.n0} {y : Axis s.n1}
    (hg : l.grid.geom = .xyt x y) (h2 : 2 ≤ s.n0 ∧ 2 ≤ s.n1) (hxy : x.lo ≤ x.hi ∧ y.lo ≤ y.hi) :
    ∃ (l' : Laser s) (img : Image), l.show = (.ok img, l') ∧ l'.Has f ∧
      img.ext = (l.grid.t.lo, l.grid.t.hi, x.lo, x.hi) ∧
      ∃ (hrow : img.rows = s.n0) (hc : img.cols = s.nt) (j : Fin s.n1),
        |y.pts j - (y.lo + y.hi) / 2| ≤ (y.hi - y.lo) / (s.n1 - 1) / 2 ∧
        ∀ i : Fin s.n0, (∀ k, img.val (Fin.cast hrow.symm i) (Fin.cast hc.symm k) = ‖f i j k‖) ∧
          |img.pixelRow (Fin.cast hrow.symm i) - x.pts i| ≤ (x.hi - x.lo) / s.n0 / 2 := by
  obtain ⟨l', e, h'⟩ := show_ok h
  have hreg := hr.1
  rw [hg] at hreg
  obtain ⟨hx, hy⟩ : x.Regular ∧ y.Regular := hreg
  have hpi : pyIndex s.n1 ((s.n1 / 2 : ℕ) : ℤ) = .ok ⟨s.n1 / 2, by omega⟩ := by
    unfold pyIndex
    rw [dif_pos (by omega)]
    rfl
  have hshow : showArray l.grid f = .ok ⟨s.n0, s.nt, fun i k => ‖f i ⟨s.n1 / 2, by omega⟩ k‖,
      (l.grid.t.lo, l.grid.t.hi, x.lo, x.hi)⟩ := by
    unfold showArray
    rw [hg]
    dsimp only
    rw [hpi]
    rfl
  rw [hshow] at e
  have hN1 : (0 : ℝ) < (s.n1 : ℝ) - 1 := by
    have : (2 : ℝ) ≤ s.n1 := by exact_mod_cast h2.2
    linarith
  have hN0' : (2 : ℝ) ≤ s.n0 := by exact_mod_cast h2.1
  have hN0 : (0 : ℝ) < (s.n0 : ℝ) - 1 := by linarith
  refine ⟨l', _, e, h', rfl, rfl, rfl, ⟨s.n1 / 2, by omega⟩, ?_, ?_⟩
  · rw [hy]
    simp only [linspace]
    have h0 : 0 ≤ (y.hi - y.lo) / ((s.n1 : ℝ) - 1) := div_nonneg (by linarith [hxy.2]) hN1.le
    have e0 : y.lo + ((s.n1 / 2 : ℕ) : ℝ) * ((y.hi - y.lo) / ((s.n1 : ℝ) - 1)) - (y.lo + y.hi) / 2 =
        (y.hi - y.lo) / ((s.n1 : ℝ) - 1) * (((s.n1 / 2 : ℕ) : ℝ) - (s.n1 - 1) / 2) := by
      field_simp
      ring
    rw [e0, abs_mul, abs_of_nonneg h0, div_eq_mul_one_div ((y.hi - y.lo) / ((s.n1 : ℝ) - 1)) 2]
    refine mul_le_mul_of_nonneg_left ?_ h0
    have hdm : ((2 * (s.n1 / 2) + s.n1 % 2 : ℕ) : ℝ) = s.n1 := by exact_mod_cast Nat.div_add_mod s.n1 2
    push_cast at hdm
    have hm1 : ((s.n1 % 2 : ℕ) : ℝ) ≤ 1 := by exact_mod_cast (by omega : s.n1 % 2 ≤ 1)
    have hm0 : (0 : ℝ) ≤ ((s.n1 % 2 : ℕ) : ℝ) := Nat.cast_nonneg _
    rw [abs_le]
    constructor <;> linarith
  · intro i
    refine ⟨fun k => rfl, ?_⟩
    have hi := i.2
    have hiN : ((i : ℕ) : ℝ) ≤ (s.n0 : ℝ) - 1 := by
      have : ((i : ℕ) : ℝ) + 1 ≤ s.n0 := by exact_mod_cast hi
      linarith
    have hi0 : (0 : ℝ) ≤ (i : ℕ) := Nat.cast_nonneg _
    rw [hx i]
    simp only [Image.pixelRow, linspace, Fin.val_cast]
    have e0 : x.lo + ((i : ℕ) + 1 / 2 : ℝ) * ((x.hi - x.lo) / s.n0) - (x.lo + (i : ℕ) * ((x.hi - x.lo) / ((s.n0 : ℝ) - 1))) =
        (x.hi - x.lo) * (((s.n0 : ℝ) - 1 - 2 * (i : ℕ)) / (2 * s.n0 * ((s.n0 : ℝ) - 1))) := by
      field_simp
      ring
    rw [e0, abs_mul, abs_of_nonneg (by linarith [hxy.1]), div_div, div_eq_mul_inv (x.hi - x.lo)]
    refine mul_le_mul_of_nonneg_left ?_ (by linarith [hxy.1])
    rw [abs_le]
    constructor
    · rw [← one_div, ← neg_div, div_le_div_iff₀ (by positivity) (by positivity)]
      nlinarith [mul_nonneg hi0 (by linarith : (0 : ℝ) ≤ s.n0)]
    · rw [← one_div, div_le_div_iff₀ (by positivity) (by positivity)]
      nlinarith [mul_nonneg hi0 (by linarith : (0 : ℝ) ≤ s.n0)]

/-- not vacuous: the laser made from the profile `E = x` with two modes, shown by both functions -/
example [Phys] : ∃ (l l1 l2 : Laser ⟨3, 2, 2⟩) (img : Image) (img2 : Image),
    Laser.init "rt" [0, 0] [1, 1] [2, 2] tiltProfile (some 2) none = .ok ⟨_, l⟩ ∧
    l.show = (.ok img, l1) ∧ img.rows = 4 ∧
    getFullField 0 0 "x" none l = (.ok (some img2), l2) ∧ img2.rows = 3 := by
  obtain ⟨l, l', img, f, hn, r, hr, hc, hl, hg, -, -, hf, -, e, -⟩ := C57_refuted
  have hreg := Laser.regular_of_init hl
  obtain ⟨l1, img1, e1, -, -, hrow, -⟩ := C101_rt l f hf hreg hg (by norm_num)
  exact ⟨l, l1, l', img1, img, hl, e1, hrow, e, hr⟩

end Lasy
