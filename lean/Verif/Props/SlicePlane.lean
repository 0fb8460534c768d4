import Verif.Props.FullField
import Verif.Lemmas.Utils

/-!
# Property C159: the plane that `get_full_field` cuts out of a Cartesian laser, for every `slice`
-/

namespace Lasy
open Spec Phys Complex

variable [Phys] {s : Shape}

/-- `q` is `v` without its fractional part -/
def WholePart (v : ℝ) (q : ℤ) : Prop :=
  (0 ≤ v ∧ (q : ℝ) ≤ v ∧ v < q + 1) ∨ (v ≤ 0 ∧ (q : ℝ) - 1 < v ∧ v ≤ q)

/-- counting `q` from the start of `N` planes (`q >= 0`) or from their end (`q < 0`) gives plane `i` -/
def Counts (N : ℕ) (q : ℤ) (i : Fin N) : Prop := q = (i : ℕ) ∨ q = (i : ℕ) - (N : ℤ)

omit [Phys] in
theorem pyInt_whole {v : ℝ} {q : ℤ} (h : WholePart v q) : pyInt v = q := by
  unfold pyInt
  rcases h with ⟨h0, h1, h2⟩ | ⟨h0, h1, h2⟩
  · rw [if_pos h0]
    exact Int.floor_eq_iff.2 ⟨h1, h2⟩
  · rcases h0.lt_or_eq with h | h
    · rw [if_neg (not_le.2 h)]
      exact Int.ceil_eq_iff.2 ⟨h1, h2⟩
    · subst h
      rw [if_pos le_rfl, Int.floor_zero]
      have a : (q : ℝ) < 1 := by linarith
      have b : (-1 : ℝ) < q := by linarith
      have a' : q < 1 := by exact_mod_cast a
      have b' : -1 < q := by exact_mod_cast b
      omega

omit [Phys] in
theorem whole_exists (v : ℝ) : ∃ q, WholePart v q := by
  rcases le_total 0 v with h | h
  · exact ⟨⌊v⌋, Or.inl ⟨h, Int.floor_le v, Int.lt_floor_add_one v⟩⟩
  · exact ⟨⌈v⌉, Or.inr ⟨h, by linarith [Int.ceil_lt_add_one v], Int.le_ceil v⟩⟩

omit [Phys] in
theorem pyIndex_counts {N : ℕ} {q : ℤ} {i : Fin N} (h : Counts N q i) : pyIndex N q = .ok i := by
  have hi := i.2
  unfold pyIndex
  rcases h with h | h
  · rw [dif_pos ⟨by omega, by omega⟩]
    congr 1
    exact Fin.ext (by simp [h])
  · rw [dif_neg (by omega), dif_pos ⟨by omega, by omega⟩]
    congr 1
    refine Fin.ext ?_
    show (N + q).toNat = (i : ℕ)
    omega

omit [Phys] in
theorem pyIndex_none {N : ℕ} {q : ℤ} (h : ∀ i : Fin N, ¬ Counts N q i) : pyIndex N q = .error .index := by
  unfold pyIndex
  rw [dif_neg, dif_neg]
  · rintro ⟨h1, h2⟩
    exact h ⟨(N + q).toNat, by omega⟩ (Or.inr (by simp only; omega))
  · rintro ⟨h1, h2⟩
    exact h ⟨q.toNat, by omega⟩ (Or.inl (by simp only; omega))

omit [Phys] in
theorem sliceIndex_whole {N : ℕ} {slice : ℝ} {q : ℤ} (h : WholePart ((1 + slice) * ((N / 2 : ℕ) - 1)) q) :
    sliceIndex N slice = q := by
  unfold sliceIndex
  refine pyInt_whole ?_
  push_cast
  exact h

omit [Phys] in
/-- **C159.** On a Cartesian laser, for every real number `slice`: with `v = (1 + slice) (floor(N/2) - 1)` and `q` the whole
part of `v`, `get_full_field` shows the plane with index `q`, counted from the end if `q` is negative, multiplied by the
carrier; it raises `IndexError` if there is no such plane. With a `slice_axis` other than `"x"` and `"y"` it returns
`None`. The laser keeps its field in all cases. -/
theorem C159_plane (l : Laser s) (f : Field s) (h : l.Has f) {x : Axis s.n0} {y : Axis s.n1} (hg : l.grid.geom = .xyt x y)
    (theta slice : ℝ) : ∃ l' : Laser s, l'.Has f ∧
    (∀ q, WholePart ((1 + slice) * ((s.n0 / 2 : ℕ) - 1)) q →
      (∀ i, Counts s.n0 q i → getFullField theta slice "x" none l = (.ok (some ⟨s.n1, s.nt,
        fun j k => (f i j k * exp (-I * l.profile.omega0 * l.grid.t.pts k)).re, (l.grid.t.lo, l.grid.t.hi, x.lo, x.hi)⟩), l')) ∧
      ((∀ i, ¬ Counts s.n0 q i) → getFullField theta slice "x" none l = (.error .index, l'))) ∧
    (∀ q, WholePart ((1 + slice) * ((s.n1 / 2 : ℕ) - 1)) q →
      (∀ j, Counts s.n1 q j → getFullField theta slice "y" none l = (.ok (some ⟨s.n0, s.nt,
        fun i k => (f i j k * exp (-I * l.profile.omega0 * l.grid.t.pts k)).re, (l.grid.t.lo, l.grid.t.hi, x.lo, x.hi)⟩), l')) ∧
      ((∀ j, ¬ Counts s.n1 q j) → getFullField theta slice "y" none l = (.error .index, l'))) ∧
    ∀ (ax : String) (Nt : Option ℕ), ax ≠ "x" → ax ≠ "y" → getFullField theta slice ax Nt l = (.ok none, l') := by
  obtain ⟨g', e, h', hgeo, ht⟩ := Grid.Holds.getT h
  refine ⟨{ l with grid := g' }, h', fun q hq => ⟨fun i hi => ?_, fun hi => ?_⟩, fun q hq => ⟨fun j hj => ?_, fun hj => ?_⟩,
    fun ax Nt h1 h2 => ?_⟩
  · rw [getFullField_eq h e h']
    simp only [cutPlane, hgeo, hg, imageExtent, ht, sliceIndex_whole hq, pyIndex_counts hi, showPlane, if_pos]
    rfl
  · rw [getFullField_eq h e h']
    simp only [cutPlane, hgeo, hg, sliceIndex_whole hq, pyIndex_none hi, showPlane, if_pos]
  · rw [getFullField_eq h e h']
    simp only [cutPlane, hgeo, hg, imageExtent, ht, sliceIndex_whole hq, pyIndex_counts hj, showPlane,
      if_neg (show ¬ ("y" = "x") by decide), if_pos]
    rfl
  · rw [getFullField_eq h e h']
    simp only [cutPlane, hgeo, hg, sliceIndex_whole hq, pyIndex_none hj, showPlane,
      if_neg (show ¬ ("y" = "x") by decide), if_pos]
  · rw [getFullField_eq h e h']
    simp only [cutPlane, hgeo, hg, showPlane, if_neg h1, if_neg h2]

omit [Phys] in
/-- **C159.** Which planes these are, for an axis of `N` points. The documented range is `-1/2 .. 1/2`; the planes that can
be reached by `-1 <= slice <= 1` are those from `0` to `2 floor(N/2) - 2`, so that the last plane never is; on an axis with
two or three points it is always plane 0; on an axis with one point it is that point, by way of index `-1`, for `slice`
between `-2` and `1` only. Just below `-1` the planes wrap around to the other side of the box. -/
theorem C159_index (N : ℕ) (slice : ℝ) (q : ℤ) (hq : WholePart ((1 + slice) * ((N / 2 : ℕ) - 1)) q) :
    (2 ≤ N → -1 ≤ slice → slice ≤ 1 → ∃ i : Fin N, Counts N q i ∧ (i : ℕ) + 2 ≤ N ∧
      ((i : ℕ) : ℝ) ≤ (1 + slice) * ((N / 2 : ℕ) - 1) ∧ (1 + slice) * ((N / 2 : ℕ) - 1) < (i : ℕ) + 1) ∧
    (N = 2 ∨ N = 3 → ∃ i : Fin N, (i : ℕ) = 0 ∧ Counts N q i) ∧
    (N = 1 → ((∃ i : Fin N, Counts N q i) ↔ -2 < slice ∧ slice < 1)) ∧
    (4 ≤ N → -1 - 2 / ((N / 2 : ℕ) - 1) < slice → slice ≤ -1 - 1 / ((N / 2 : ℕ) - 1) →
      ∃ i : Fin N, (i : ℕ) = N - 1 ∧ Counts N q i) := by
  refine ⟨fun hN h1 h2 => ?_, fun hN => ?_, ?_, fun hN h1 h2 => ?_⟩
  · obtain ⟨M, hM⟩ : ∃ M, N / 2 = M + 1 := ⟨N / 2 - 1, by omega⟩
    have hM' : ((N / 2 : ℕ) : ℝ) - 1 = M := by rw [hM]; push_cast; ring
    rw [hM'] at hq ⊢
    have hM0 : (0 : ℝ) ≤ M := Nat.cast_nonneg _
    have hv : 0 ≤ (1 + slice) * (M : ℝ) := mul_nonneg (by linarith) hM0
    have hv2 : (1 + slice) * (M : ℝ) ≤ 2 * M := by nlinarith
    have hq' : (q : ℝ) ≤ (1 + slice) * M ∧ (1 + slice) * M < q + 1 := by
      rcases hq with ⟨-, h3, h4⟩ | ⟨h3, h4, h5⟩
      · exact ⟨h3, h4⟩
      · have h6 : (1 + slice) * (M : ℝ) = 0 := le_antisymm h3 hv
        rw [h6] at h4 h5 ⊢
        have a : (q : ℝ) < 1 := by linarith
        have a' : q < 1 := by exact_mod_cast a
        have b' : 0 ≤ q := by exact_mod_cast h5
        have : q = 0 := by omega
        subst this
        norm_num
    have h3 : (0 : ℝ) < q + 1 := by linarith
    have h3' : 0 ≤ q := by
      have : (0 : ℤ) < q + 1 := by exact_mod_cast h3
      omega
    obtain ⟨n, rfl⟩ := Int.eq_ofNat_of_zero_le h3'
    have h4 : (n : ℝ) ≤ 2 * M := by
      have := hq'.1
      push_cast at this
      linarith
    have h4' : n ≤ 2 * M := by exact_mod_cast h4
    refine ⟨⟨n, by omega⟩, Or.inl rfl, ?_, by simpa using hq'.1, by simpa using hq'.2⟩
    simp only
    omega
  · have h0 : ((N / 2 : ℕ) : ℝ) - 1 = 0 := by
      have : N / 2 = 1 := by omega
      rw [this]
      norm_num
    rw [h0, mul_zero] at hq
    have hq0 : q = 0 := by
      rcases hq with ⟨-, h3, h4⟩ | ⟨-, h3, h4⟩
      · have a : q ≤ 0 := by exact_mod_cast h3
        have b : (0 : ℤ) < q + 1 := by exact_mod_cast h4
        omega
      · have a : q - 1 < 0 := by exact_mod_cast h3
        have b : 0 ≤ q := by exact_mod_cast h4
        omega
    exact ⟨⟨0, by omega⟩, rfl, Or.inl (by simp [hq0])⟩
  · rintro rfl
    simp only [show (1 / 2 : ℕ) = 0 by norm_num, Nat.cast_zero, zero_sub, mul_neg, mul_one] at hq
    constructor
    · rintro ⟨i, hi⟩
      have hi0 : (i : ℕ) = 0 := by omega
      have : q = 0 ∨ q = -1 := by
        rcases hi with hi | hi <;> omega
      rcases this with rfl | rfl
      · rcases hq with ⟨h3, h4, h5⟩ | ⟨h3, h4, h5⟩ <;> push_cast at * <;> constructor <;> linarith
      · rcases hq with ⟨h3, h4, h5⟩ | ⟨h3, h4, h5⟩ <;> push_cast at * <;> constructor <;> linarith
    · rintro ⟨h1, h2⟩
      have : q = 0 ∨ q = -1 := by
        rcases hq with ⟨h3, h4, h5⟩ | ⟨h3, h4, h5⟩
        · have a : (q : ℝ) < 1 := by linarith
          have b : (-1 : ℝ) < q := by linarith
          have a' : q < 1 := by exact_mod_cast a
          have b' : -1 < q := by exact_mod_cast b
          omega
        · have a : (q : ℝ) < 1 := by linarith
          have b : (-2 : ℝ) < q := by linarith
          have a' : q < 1 := by exact_mod_cast a
          have b' : -2 < q := by exact_mod_cast b
          omega
      rcases this with rfl | rfl
      · exact ⟨0, Or.inl (by simp)⟩
      · exact ⟨0, Or.inr (by simp)⟩
  · obtain ⟨M, hM⟩ : ∃ M, N / 2 = M + 1 := ⟨N / 2 - 1, by omega⟩
    have hM' : ((N / 2 : ℕ) : ℝ) - 1 = M := by rw [hM]; push_cast; ring
    rw [hM'] at hq h1 h2
    have hM0 : (0 : ℝ) < M := by
      have : 0 < M := by omega
      exact_mod_cast this
    have hv1 : (1 + slice) * (M : ℝ) ≤ -1 := by
      have : (1 + slice) * (M : ℝ) ≤ -(1 / M) * M := mul_le_mul_of_nonneg_right (by linarith) hM0.le
      rwa [neg_mul, one_div, inv_mul_cancel₀ hM0.ne'] at this
    have hv2 : -2 < (1 + slice) * (M : ℝ) := by
      have : -(2 / M) * (M : ℝ) < (1 + slice) * M := mul_lt_mul_of_pos_right (by linarith) hM0
      rwa [neg_mul, div_mul_cancel₀ _ hM0.ne'] at this
    have hqe : q = -1 := by
      rcases hq with ⟨h3, -, -⟩ | ⟨-, h4, h5⟩
      · linarith
      · have a : (q : ℝ) < 0 := by linarith
        have b : (-2 : ℝ) < q := by linarith
        have a' : q < 0 := by exact_mod_cast a
        have b' : -2 < q := by exact_mod_cast b
        omega
    refine ⟨⟨N - 1, by omega⟩, rfl, Or.inr ?_⟩
    simp only [hqe]
    omega

omit [Phys] in
/-- **C159.** Re-sampling never extrapolates: with one output point or more, a laser whose time axis starts after
`grid.lo` gives a `ValueError` instead of an image, on both kinds of grids and for all planes that exist. -/
theorem C159_no_extrapolation (l : Laser s) (f : Field s) (h : l.Has f) (hlate : ∀ k, l.grid.t.lo < l.grid.t.pts k)
    (theta slice : ℝ) (ax : String) {l' : Laser s} {img : Image} (himg : getFullField theta slice ax none l = (.ok (some img), l'))
    (hrows : 0 < img.rows) (N : ℕ) (hN : 1 ≤ N) : getFullField theta slice ax (some N) l = (.error .value, l') := by
  obtain ⟨g', e, h', hgeo, ht⟩ := Grid.Holds.getT h
  rw [getFullField_eq h e h'] at himg ⊢
  rcases hcut : cutPlane g' f theta slice ax with e' | _ | ⟨rows, cut⟩
  · rw [hcut] at himg; simp [showPlane] at himg
  · rw [hcut] at himg; simp [showPlane] at himg
  · rw [hcut] at himg
    simp only [showPlane, Prod.mk.injEq, Except.ok.injEq, Option.some.injEq] at himg
    obtain ⟨rfl, rfl⟩ := himg
    have : resampleTime g'.t.pts cut (linspace g'.t.lo g'.t.hi N) = .error .value := by
      unfold resampleTime
      rw [if_neg]
      intro hall
      have := hall ⟨0, hrows⟩
      unfold resampleRow interp1 at this
      rw [if_neg] at this
      · simp [Except.isOk, Except.toBool, bind, Except.bind] at this
      · intro hin
        obtain ⟨⟨i, hi⟩, -⟩ := hin ⟨0, by omega⟩
        have h1 := hlate i
        rw [ht] at hi
        simp [linspace] at hi
        linarith
    simp only [showPlane, this]

omit [Phys] in
/-- C159 is not vacuous: `slice = -1/2` on ten planes is plane 2, `slice = -2` is plane 6 (index -4), `slice = -4` does not
exist; a laser with a late time axis -/
example : (Counts 10 2 2 ∧ WholePart ((1 + (-1 / 2)) * ((10 / 2 : ℕ) - 1)) 2) ∧
    (Counts 10 (-4) 6 ∧ WholePart ((1 + (-2)) * ((10 / 2 : ℕ) - 1)) (-4)) ∧
    ((∀ i, ¬ Counts 10 (-12) i) ∧ WholePart ((1 + (-4)) * ((10 / 2 : ℕ) - 1)) (-12)) ∧
    ∃ (l : Laser ⟨1, 1, 2⟩) (f : Field ⟨1, 1, 2⟩) (img : Image) (l' : Laser ⟨1, 1, 2⟩), l.Has f ∧ (∀ k, l.grid.t.lo < l.grid.t.pts k) ∧
      getFullField 0 0 "x" none l = (.ok (some img), l') ∧ 0 < img.rows := by
  refine ⟨⟨Or.inl rfl, Or.inl ?_⟩, ⟨Or.inr rfl, Or.inr ?_⟩, ⟨?_, Or.inr ?_⟩, ?_⟩
  · norm_num
  · norm_num
  · intro i h
    rcases h with h | h <;> omega
  · norm_num
  · let g : Grid ⟨1, 1, 2⟩ := Grid.holding (.xyt ⟨0, 1, 1, fun _ => 0⟩ ⟨0, 1, 1, fun _ => 0⟩) ⟨0, 2, 1, fun k => (k : ℕ) + 1⟩
      fun _ _ _ => 1
    let l : Laser ⟨1, 1, 2⟩ := ⟨g, constProfile none, 0, fun _ => 0, .absent⟩
    have hh : l.Has fun _ _ _ => 1 := Grid.holding_holds _ _ _
    obtain ⟨l', h', hx, -⟩ := C159_plane l _ hh rfl 0 0
    refine ⟨l, _, _, l', hh, fun k => ?_, (hx (-1) (Or.inr ⟨by norm_num, by norm_num, by norm_num⟩)).1 0 (Or.inr (by norm_num)), ?_⟩
    · show (0 : ℝ) < (k : ℕ) + 1
      positivity
    · norm_num

end Lasy
