import Verif.Props.SpectrumFull

/-!
# Properties C104-C106: `get_spectrum` on the axis, in a frequency range, and the energy of a full field
-/

namespace Lasy
open Spec Phys Complex

variable {s : Shape} [Phys]

/-! ## C104: `method="on_axis"` -/

/-- the cell is on the axis: `x = y = 0`, or mode `0` at `r = 0` -/
def OnAxis : {n0 n1 : ℕ} → Geom n0 n1 → Fin n0 → Fin n1 → Prop
  | _, _, .xyt x y, i, j => x.pts i = 0 ∧ y.pts j = 0
  | _, _, .rt _ _ r, i, j => (i : ℕ) = 0 ∧ r.pts j = 0

/-- a grid with samples on the axis: odd numbers of points between `-L` and `L`, or radii from `0` -/
def CentredGrid : {n0 n1 : ℕ} → Geom n0 n1 → Prop
  | n0, n1, .xyt x y => Odd n0 ∧ Odd n1 ∧ 2 ≤ n0 ∧ 2 ≤ n1 ∧
      (∃ X, x.pts = linspace (-X) X n0) ∧ ∃ Y, y.pts = linspace (-Y) Y n1
  | _, n1, .rt _ _ r => ∃ R, r.pts = linspace 0 R n1 ∧ 0 < n1

omit [Phys] in
theorem linspace_middle {n : ℕ} (hn : Odd n) (h2 : 2 ≤ n) (X : ℝ) (h : n / 2 < n) : linspace (-X) X n ⟨n / 2, h⟩ = 0 := by
  obtain ⟨p, rfl⟩ := hn
  have e : (2 * p + 1) / 2 = p := by omega
  unfold linspace
  simp only [e]
  have : (p : ℝ) ≠ 0 := by
    have : 0 < p := by omega
    positivity
  push_cast
  field_simp
  ring

omit [Phys] in
theorem linspace_middle_even {n : ℕ} (hn : Even n) (h2 : 2 ≤ n) (X : ℝ) (h : n / 2 < n) :
    linspace (-X) X n ⟨n / 2, h⟩ = (linspace (-X) X n ⟨1, by omega⟩ - linspace (-X) X n ⟨0, by omega⟩) / 2 := by
  obtain ⟨p, rfl⟩ := hn
  have e : (p + p) / 2 = p := by omega
  have hp : (1 : ℝ) ≤ p := by exact_mod_cast (by omega : 1 ≤ p)
  unfold linspace
  simp only [e]
  push_cast
  obtain ⟨D, hD⟩ : ∃ D : ℝ, D = (p : ℝ) + p - 1 := ⟨_, rfl⟩
  have hp2 : (p : ℝ) = (D + 1) / 2 := by linarith
  have hD0 : D ≠ 0 := by linarith
  rw [← hD, hp2]
  field_simp
  ring

omit [Phys] in
theorem onAxisCell_onAxis {g : Grid s} {cell : Fin s.n0 × Fin s.n1} (hc : onAxisCell g = .ok cell)
    (h : CentredGrid g.geom) : OnAxis g.geom cell.1 cell.2 := by
  unfold onAxisCell at hc
  split at hc
  · rename_i h01
    cases hg : g.geom with
    | xyt x y =>
      rw [hg] at hc h
      simp only [Except.ok.injEq] at hc
      subst hc
      obtain ⟨h1, h2, h3, h4, ⟨X, hX⟩, ⟨Y, hY⟩⟩ := h
      exact ⟨by rw [hX]; exact linspace_middle h1 h3 X _, by rw [hY]; exact linspace_middle h2 h4 Y _⟩
    | rt m hm r =>
      rw [hg] at hc h
      simp only [Except.ok.injEq] at hc
      subst hc
      obtain ⟨R, hR, -⟩ := h
      exact ⟨rfl, by rw [hR]; simp [linspace]⟩
  · exact absurd hc (by simp)

/-- the values of `method="on_axis"` for a real field, in terms of the cell used -/
theorem onAxis_values {gr : Grid s} {E : RField s} (hr : gr.HoldsReal E) {t0 dt : ℝ} (hu : UniformTime gr.t t0 dt)
    (h2 : 2 ≤ s.nt) {cell : Fin s.n0 × Fin s.n1} (hcell : onAxisCell gr = .ok cell) (bins : ℕ) (w : Option ℝ) :
    ∃ spec, getSpectrum .onAxis none bins w gr = (.ok spec, gr) ∧
      spec.map Prod.fst = (List.range (s.nt / 2)).map (fun q : ℕ => lineFreq s.nt dt q) ∧
      ∀ ω S, (ω, S) ∈ spec → S = eps0 * c / Real.pi * ‖fourierIntegral gr.t (E cell.1 cell.2) ω‖ ^ 2 := by
  have e := getSpectrumOnAxis_real hr h2 w hcell
  rw [hu.step h2, hu.dx] at e
  refine ⟨(realColumns gr E dt).map (cellDensity cell), ?_, ?_, ?_⟩
  · unfold getSpectrum SpectrumMethod.base
    rw [Py.bind_ok e]
    rfl
  · rw [List.map_map]
    unfold realColumns
    refine List.ext_getElem (by simp; omega) fun q h3 h4 => ?_
    simp only [List.getElem_map, List.getElem_take, Function.comp, cellDensity, List.getElem_range, List.getElem_finRange]
    simp only [List.length_map, List.length_take, List.length_finRange] at h3
    rw [show (Fin.cast (by simp) (⟨q, by simp; omega⟩ : Fin (List.finRange s.nt).length) : Fin s.nt) = ⟨q, by omega⟩ from rfl,
      fftfreq_line dt ⟨q, by omega⟩ (by simp only; omega)]
  · intro ω S hS
    obtain ⟨col, hcol, e2⟩ := List.mem_map.1 hS
    obtain ⟨k, hk, rfl⟩ := mem_realColumns.1 hcol
    simp only [cellDensity, Prod.mk.injEq] at e2
    obtain ⟨rfl, rfl⟩ := e2
    rw [fft_fourierIntegral hu, fftfreq_line dt k hk, norm_mul, Complex.norm_exp]
    simp
    ring

/-- **C104** (what holds): on a grid with samples on the axis, `method="on_axis"` returns, for a real field `E` and every
frequency below Nyquist, `ε₀c/π |∫ E exp(-iωt) dt|²` of the field on the axis: a one-sided density, twice the documented
`ε₀c/2π |..|²` -/
theorem C104_axis_partial {gr : Grid s} {E : RField s} (hr : gr.HoldsReal E) {t0 dt : ℝ} (hu : UniformTime gr.t t0 dt)
    (h2 : 2 ≤ s.nt) (h0 : 0 < s.n0) (h1 : 0 < s.n1) (hc : CentredGrid gr.geom) (bins : ℕ) (w : Option ℝ) :
    ∃ i j spec, OnAxis gr.geom i j ∧ getSpectrum .onAxis none bins w gr = (.ok spec, gr) ∧
      spec.map Prod.fst = (List.range (s.nt / 2)).map (fun q : ℕ => lineFreq s.nt dt q) ∧
      ∀ ω S, (ω, S) ∈ spec → S = eps0 * c / Real.pi * ‖fourierIntegral gr.t (E i j) ω‖ ^ 2 := by
  obtain ⟨cell, hcell⟩ := onAxisCell_ok gr h0 h1
  obtain ⟨spec, h⟩ := onAxis_values hr hu h2 hcell bins w
  exact ⟨cell.1, cell.2, spec, onAxisCell_onAxis hcell hc, h⟩

/-- **C104 is false of the code** with even numbers of points, as in lasy's examples: the values are then those of a line
half a step off the axis in each direction (a symmetric grid has no sample on the axis) -/
theorem C104_even_refuted {gr : Grid s} {E : RField s} (hr : gr.HoldsReal E) {t0 dt : ℝ} (hu : UniformTime gr.t t0 dt)
    (h2 : 2 ≤ s.nt) {x : Axis s.n0} {y : Axis s.n1} (hg : gr.geom = .xyt x y) {X Y : ℝ}
    (hX : x.pts = linspace (-X) X s.n0) (hY : y.pts = linspace (-Y) Y s.n1) (hx : Even s.n0) (hy : Even s.n1)
    (h0 : 2 ≤ s.n0) (h1 : 2 ≤ s.n1) (bins : ℕ) (w : Option ℝ) :
    ∃ i j spec, x.pts i = (x.pts ⟨1, by omega⟩ - x.pts ⟨0, by omega⟩) / 2 ∧
      y.pts j = (y.pts ⟨1, by omega⟩ - y.pts ⟨0, by omega⟩) / 2 ∧
      getSpectrum .onAxis none bins w gr = (.ok spec, gr) ∧
      ∀ ω S, (ω, S) ∈ spec → S = eps0 * c / Real.pi * ‖fourierIntegral gr.t (E i j) ω‖ ^ 2 := by
  have hcell : onAxisCell gr = .ok (⟨s.n0 / 2, by omega⟩, ⟨s.n1 / 2, by omega⟩) := by
    unfold onAxisCell
    rw [dif_pos ⟨by omega, by omega⟩, hg]
  obtain ⟨spec, h, -, h'⟩ := onAxis_values hr hu h2 hcell bins w
  refine ⟨⟨s.n0 / 2, by omega⟩, ⟨s.n1 / 2, by omega⟩, spec, ?_, ?_, h, h'⟩
  · rw [hX]; exact linspace_middle_even hx h0 X _
  · rw [hY]; exact linspace_middle_even hy h1 Y _

/-- an instance of the premises: 3 x 3 points between -1 and 1, field `1` -/
example : ∃ (gr : Grid ⟨3, 3, 4⟩), gr.HoldsReal (fun _ _ _ => 1) ∧ UniformTime gr.t 0 1 ∧ CentredGrid gr.geom := by
  let x : Axis 3 := ⟨-1, 1, 1, linspace (-1) 1 3⟩
  let t : Axis 4 := ⟨0, 3, 1, fun k => (k : ℕ)⟩
  exact ⟨Grid.holdingReal (s := ⟨3, 3, 4⟩) (.xyt x x) t fun _ _ _ => 1, Grid.holdingReal_holds _ _ _,
    ⟨by norm_num, rfl, fun k => by simp [Grid.holdingReal, t]⟩, ⟨1, rfl⟩, ⟨1, rfl⟩, by norm_num, by norm_num, ⟨1, rfl⟩, ⟨1, rfl⟩⟩

/-! ## C105: `range` and `bins` -/

/-- `y` is the value at `x` of the polygon through the points of `l`, constant before the first and after the last -/
def OnPolygon (l : List (ℝ × ℝ)) (x y : ℝ) : Prop :=
  (∃ h : 0 < l.length, x ≤ (l[0]).1 ∧ y = (l[0]).2) ∨
  (∃ h : 0 < l.length, (l[l.length - 1]).1 ≤ x ∧ y = (l[l.length - 1]).2) ∨
  ∃ (k : ℕ) (h : k + 1 < l.length), (l[k]).1 ≤ x ∧ x ≤ (l[k + 1]).1 ∧
    y = (l[k]).2 + (x - (l[k]).1) / ((l[k + 1]).1 - (l[k]).1) * ((l[k + 1]).2 - (l[k]).2)

omit [Phys] in
theorem between_neighbours {n : ℕ} (g : Fin n → ℝ) {x : ℝ} (h : 0 < n) (h1 : g ⟨0, h⟩ ≤ x)
    (h2 : x ≤ g ⟨n - 1, by omega⟩) (hn : 2 ≤ n) : ∃ (k : ℕ) (hk : k + 1 < n), g ⟨k, by omega⟩ ≤ x ∧ x ≤ g ⟨k + 1, hk⟩ := by
  by_contra hc
  push Not at hc
  have : ∀ k (hk : k < n), g ⟨k, hk⟩ ≤ x → k = n - 1 ∨ k < n - 1 := by omega
  have key : ∀ k (hk : k < n), g ⟨k, hk⟩ ≤ x := by
    intro k
    induction k with
    | zero => intro _; exact h1
    | succ k ih =>
      intro hk
      exact (hc k hk (ih (by omega))).le
  have h3 := hc (n - 2) (by omega) (key _ _)
  have h4 : (⟨n - 2 + 1, by omega⟩ : Fin n) = ⟨n - 1, by omega⟩ := by ext; simp; omega
  rw [h4] at h3
  linarith

omit [Phys] in
theorem ascending_list {l : List (ℝ × ℝ)} (h : (l.map Prod.fst).Pairwise (· < ·)) :
    Ascending fun k : Fin l.length => (l.get k).1 := by
  rw [List.pairwise_map, List.pairwise_iff_get] at h
  exact fun i j hij => h i j hij

omit [Phys] in
theorem npInterp_polygon {l : List (ℝ × ℝ)} (h : (l.map Prod.fst).Pairwise (· < ·)) (h0 : 0 < l.length) (x : ℝ) :
    ∃ y, npInterp (fun k : Fin l.length => (l.get k).1) (fun k => (l.get k).2) x = .ok y ∧ OnPolygon l x y := by
  have hasc := ascending_list h
  by_cases h1 : x ≤ (l[0]).1
  · exact ⟨_, npInterp_left h0 _ _ h1, .inl ⟨h0, h1, rfl⟩⟩
  by_cases h2 : (l[l.length - 1]).1 ≤ x
  · exact ⟨_, npInterp_right h0 hasc _ h2, .inr (.inl ⟨h0, h2, rfl⟩)⟩
  have hn : 2 ≤ l.length := by
    by_contra hc
    have : l.length - 1 = 0 := by omega
    simp only [this] at h2
    linarith
  obtain ⟨k, hk, h3, h4⟩ := between_neighbours (fun k : Fin l.length => (l.get k).1) h0 (not_le.1 h1).le (not_le.1 h2).le hn
  exact ⟨_, npInterp_between hasc _ hk h3 h4, .inr (.inr ⟨k, hk, h3, h4, rfl⟩)⟩

omit [Phys] in
theorem mapM_pointwise {α β : Type} {f : α → Except PyErr β} {r : α → β → Prop} (l : List α)
    (h : ∀ a ∈ l, ∃ b, f a = .ok b ∧ r a b) : ∃ l', l.mapM f = .ok l' ∧ List.Forall₂ r l l' := by
  induction l with
  | nil => exact ⟨[], rfl, .nil⟩
  | cons a l ih =>
    obtain ⟨b, e, hb⟩ := h a (by simp)
    obtain ⟨l', e', hl⟩ := ih fun a' ha => h a' (by simp [ha])
    exact ⟨b :: l', by rw [List.mapM_cons, e]; simp only [bind, Except.bind, e']; rfl, .cons hb hl⟩

/-- **C105.** `get_spectrum(range=[lo, hi], bins=bins)`: if the call without `range` returns a non-empty spectrum `l` at
ascending frequencies (`C105_ascending`), the call with `range` returns `bins` values at the frequencies
`lo + i (hi - lo)/(bins - 1)`, each on the polygon through the points of `l`. -/
theorem C105_range (method : SpectrumMethod) (lo hi : ℝ) (bins : ℕ) (w : Option ℝ) {g g' : Grid s} {l : List (ℝ × ℝ)}
    (h : getSpectrum method none bins w g = (.ok l, g')) (h0 : 0 < l.length) (hasc : (l.map Prod.fst).Pairwise (· < ·)) :
    ∃ r, getSpectrum method (some (lo, hi)) bins w g = (.ok r, g') ∧ r.length = bins ∧
      ∀ (i : ℕ) (hi' : i < r.length), (r[i]).1 = lo + i * ((hi - lo) / (bins - 1)) ∧ OnPolygon l (r[i]).1 (r[i]).2 := by
  have hb : method.base w g = (.ok l, g') := by
    unfold getSpectrum at h
    rcases hm : method.base w g with ⟨e | l', g''⟩
    · rw [Py.bind_error hm] at h; exact absurd h (by simp)
    · rw [Py.bind_ok hm] at h
      exact h
  obtain ⟨r, er, hr⟩ := mapM_pointwise (r := fun (i : Fin bins) (p : ℝ × ℝ) => p.1 = lo + (i : ℕ) * ((hi - lo) / (bins - 1)) ∧
      OnPolygon l p.1 p.2) (f := fun i : Fin bins => do
      let v ← npInterp (fun k : Fin l.length => (l.get k).1) (fun k => (l.get k).2) (linspace lo hi bins i)
      return (linspace lo hi bins i, v)) (List.finRange bins) (by
    intro i _
    obtain ⟨y, e, hy⟩ := npInterp_polygon hasc h0 (linspace lo hi bins i)
    exact ⟨(linspace lo hi bins i, y), by rw [e]; rfl, rfl, hy⟩)
  refine ⟨r, ?_, ?_, ?_⟩
  · unfold getSpectrum
    rw [Py.bind_ok hb]
    simp only [interpSpectrum, if_neg h0.ne', er]
    rfl
  · rw [← hr.length_eq]; simp
  · intro i hi'
    have hlen : r.length = bins := by rw [← hr.length_eq]; simp
    have := List.forall₂_iff_get.1 hr |>.2 i (by simp; omega) hi'
    simpa using this

/-- with no frequency to interpolate from, the call raises `ValueError` -/
theorem C105_empty (method : SpectrumMethod) (lo hi : ℝ) (bins : ℕ) (w : Option ℝ) {g g' : Grid s}
    (h : getSpectrum method none bins w g = (.ok [], g')) :
    getSpectrum method (some (lo, hi)) bins w g = (.error .value, g') := by
  have hb : method.base w g = (.ok [], g') := by
    unfold getSpectrum at h
    rcases hm : method.base w g with ⟨e | l', g''⟩
    · rw [Py.bind_error hm] at h; exact absurd h (by simp)
    · rw [Py.bind_ok hm] at h
      exact h
  unfold getSpectrum
  rw [Py.bind_ok hb]
  rfl

/-- the frequencies of a spectrum ascend: envelopes and real fields, both methods, so that `C105_range` applies -/
theorem C105_ascending (method : SpectrumMethod) (bins : ℕ) {g : Grid s} {t0 dt : ℝ} (hu : UniformTime g.t t0 dt)
    (h2 : 2 ≤ s.nt) (h0 : 0 < s.n0) (h1 : 0 < s.n1) (w0 : ℝ)
    (h : (∃ f, g.Holds (some f)) ∨ ∃ E, g.HoldsReal E) :
    ∃ l g', getSpectrum method none bins (some w0) g = (.ok l, g') ∧ (l.map Prod.fst).Pairwise (· < ·) := by
  have hstep := hu.step h2
  obtain ⟨cell, hcell⟩ := onAxisCell_ok g h0 h1
  rcases h with ⟨f, h⟩ | ⟨E, h⟩
  · have hord : ((envColumns g f w0 g.t.dx).map Column.omega).Pairwise (· < ·) := by
      obtain ⟨spec, g', e, hs, -⟩ := C55_frequencies g f h h2 w0 (by rw [hstep, hu.dx]; exact hu.pos)
      obtain ⟨g'', e'⟩ := getSpectrumSum_env h h2 w0
      rw [e] at e'
      simp only [Prod.mk.injEq, Except.ok.injEq] at e'
      rw [e'.1, hstep, List.map_map] at hs
      exact hs
    cases method with
    | sum =>
      obtain ⟨g', e⟩ := getSpectrumSum_env h h2 w0
      rw [hstep] at e
      refine ⟨(envColumns g f w0 g.t.dx).map fun col => (col.omega, spectralWeight g col), g', ?_, by rw [List.map_map]; exact hord⟩
      unfold getSpectrum SpectrumMethod.base
      rw [Py.bind_ok e]
      rfl
    | onAxis =>
      obtain ⟨g', e⟩ := getSpectrumOnAxis_env h h2 w0 hcell
      rw [hstep] at e
      refine ⟨(envColumns g f w0 g.t.dx).map (cellDensity cell), g', ?_, by rw [List.map_map]; exact hord⟩
      unfold getSpectrum SpectrumMethod.base
      rw [Py.bind_ok e]
      rfl
  · have hord : ((realColumns g E g.t.dx).map Column.omega).Pairwise (· < ·) := by
      rw [List.pairwise_iff_getElem]
      intro p q hp hq hpq
      simp only [realColumns, List.length_map, List.length_take, List.length_finRange] at hp hq
      simp only [realColumns, List.getElem_map, List.getElem_take, List.getElem_finRange]
      rw [show (Fin.cast (by simp) (⟨p, by simp; omega⟩ : Fin (List.finRange s.nt).length) : Fin s.nt) = ⟨p, by omega⟩ from rfl,
        show (Fin.cast (by simp) (⟨q, by simp; omega⟩ : Fin (List.finRange s.nt).length) : Fin s.nt) = ⟨q, by omega⟩ from rfl,
        fftfreq_line _ ⟨p, by omega⟩ (by simp only; omega), fftfreq_line _ ⟨q, by omega⟩ (by simp only; omega)]
      unfold lineFreq
      have := Real.pi_pos
      have hd := hu.pos
      rw [hu.dx]
      have hN : (0 : ℝ) < s.nt := by exact_mod_cast (by omega : 0 < s.nt)
      refine div_lt_div_of_pos_right ?_ (by positivity)
      have : (p : ℝ) < q := by exact_mod_cast hpq
      push_cast
      nlinarith
    cases method with
    | sum =>
      have e := getSpectrumSum_real h h2 (some w0)
      rw [hstep] at e
      refine ⟨(realColumns g E g.t.dx).map fun col => (col.omega, spectralWeight g col), g, ?_, by rw [List.map_map]; exact hord⟩
      unfold getSpectrum SpectrumMethod.base
      rw [Py.bind_ok e]
      rfl
    | onAxis =>
      have e := getSpectrumOnAxis_real h h2 (some w0) hcell
      rw [hstep] at e
      refine ⟨(realColumns g E g.t.dx).map (cellDensity cell), g, ?_, by rw [List.map_map]; exact hord⟩
      unfold getSpectrum SpectrumMethod.base
      rw [Py.bind_ok e]
      rfl

/-! ## C106: the energy of a full field -/

omit [Phys] in
/-- Parseval for `Re ∑ b_q exp(-2πi qk/N)` with all lines strictly between zero and Nyquist -/
theorem sum_re_sq {N : ℕ} (b : Fin N → ℂ) (hb : ∀ q, b q ≠ 0 → 0 < (q : ℕ) ∧ 2 * (q : ℕ) < N) :
    ∑ k, (fft b k).re ^ 2 = N / 2 * ∑ q, ‖b q‖ ^ 2 := by
  rcases Nat.eq_zero_or_pos N with rfl | hN
  · simp
  have h1 : ∀ z : ℂ, z.re ^ 2 = ‖z‖ ^ 2 / 2 + (z * z).re / 2 := by
    intro z
    rw [← Complex.normSq_eq_norm_sq, Complex.normSq_apply, Complex.mul_re]
    ring
  rw [Finset.sum_congr rfl fun k _ => h1 (fft b k), Finset.sum_add_distrib, ← Finset.sum_div, ← Finset.sum_div, parseval_fft]
  have h2 : ∑ k, fft b k * fft b k = 0 := by
    have e : ∀ k : Fin N, fft b k * fft b k = ∑ p, ∑ q, b p * b q * chr N ((k : ℕ) * -((p : ℕ) + (q : ℕ))) := by
      intro k
      rw [fft_eq_chr, Finset.sum_mul_sum]
      refine Finset.sum_congr rfl fun p _ => Finset.sum_congr rfl fun q _ => ?_
      rw [show ((k : ℕ) : ℤ) * -((p : ℕ) + (q : ℕ)) = -((p : ℕ) * (k : ℕ)) + -((q : ℕ) * (k : ℕ)) by ring, chr_add]
      ring
    rw [Finset.sum_congr rfl fun k _ => e k, Finset.sum_comm]
    refine Finset.sum_eq_zero fun p _ => ?_
    rw [Finset.sum_comm]
    refine Finset.sum_eq_zero fun q _ => ?_
    rw [← Finset.mul_sum, sum_chr hN.ne']
    by_cases h0 : b p * b q = 0
    · rw [h0, zero_mul]
    · obtain ⟨h3, h4⟩ := hb p (left_ne_zero_of_mul h0)
      obtain ⟨h5, h6⟩ := hb q (right_ne_zero_of_mul h0)
      rw [if_neg, mul_zero]
      rw [dvd_neg]
      intro hd
      have := Int.le_of_dvd (by omega) hd
      omega
  rw [← Complex.re_sum, h2]
  simp
  ring

omit [Phys] in
theorem sum_half {N : ℕ} (F : Fin N → ℝ) (hF : ∀ q : Fin N, N / 2 ≤ (q : ℕ) → F q = 0) :
    ∑ q : Fin (N / 2), F ⟨q, by omega⟩ = ∑ q, F q := by
  let G : ℕ → ℝ := fun n => if h : n < N then F ⟨n, h⟩ else 0
  have h1 : ∑ q, F q = ∑ n ∈ Finset.range N, G n := by
    rw [← Fin.sum_univ_eq_sum_range]
    exact Finset.sum_congr rfl fun q _ => by simp [G]
  have h2 : ∑ q : Fin (N / 2), F ⟨q, by omega⟩ = ∑ n ∈ Finset.range (N / 2), G n := by
    rw [← Fin.sum_univ_eq_sum_range]
    exact Finset.sum_congr rfl fun q _ => by
      have : (q : ℕ) < N := by omega
      simp [G, this]
  rw [h1, h2]
  refine Finset.sum_subset (fun n hn => by simp at hn ⊢; omega) fun n hn hn' => ?_
  simp only [Finset.mem_range] at hn hn'
  simp only [G, dif_pos hn]
  exact hF _ (by simp only; omega)

omit [Phys] in
theorem realColumns_sum (g : Grid s) (E : RField s) (dt : ℝ) (w : Column s → ℝ) :
    (((realColumns g E dt).map fun col => (col.omega, w col)).map Prod.snd).sum =
      ∑ q : Fin (s.nt / 2), w ⟨2 * Real.pi * fftfreq s.nt dt ⟨q, by omega⟩,
        fun i j => fft (fun k => (E i j k : ℂ)) ⟨q, by omega⟩ * g.t.dx⟩ := by
  rw [← List.sum_ofFn]
  congr 1
  refine List.ext_getElem (by simp [realColumns]; omega) fun q h3 h4 => ?_
  simp only [realColumns, List.getElem_map, List.getElem_take, List.getElem_finRange, List.getElem_ofFn]
  rfl

/-- `spectralWeight` of a family of columns, as sums over cells -/
theorem spectralWeight_sum {ι : Type} [Fintype ι] (g : Grid s) (hs : g.geom.Single) (col : ι → Column s) :
    ∑ q, spectralWeight g (col q) = ∑ i, ∑ j, (∑ q, ‖(col q).amp i j‖ ^ 2) * (eps0 * c / Real.pi * g.cellArea j) := by
  have e : ∀ (i : Fin s.n0) (j : Fin s.n1), ∑ q, ‖(col q).amp i j‖ ^ 2 * eps0 * c / Real.pi * g.cellArea j =
      (∑ q, ‖(col q).amp i j‖ ^ 2) * (eps0 * c / Real.pi * g.cellArea j) := by
    intro i j
    rw [Finset.sum_mul]
    exact Finset.sum_congr rfl fun q _ => by ring
  unfold spectralWeight
  cases hg : g.geom with
  | xyt x y =>
    simp only
    rw [Finset.sum_comm]
    refine Finset.sum_congr rfl fun i _ => ?_
    rw [Finset.sum_comm]
    exact Finset.sum_congr rfl fun j _ => e i j
  | rt m hm r =>
    simp only
    rw [hg] at hs
    have hm1 : m = 1 := hs
    have h0 : s.n0 = 1 := by omega
    have hu : (Finset.univ : Finset (Fin s.n0)) = {⟨0, by omega⟩} := by
      ext i
      simp [Fin.ext_iff]
      omega
    rw [hu, Finset.sum_singleton, Finset.sum_comm]
    exact Finset.sum_congr rfl fun j _ => e _ j

/-- **C106** (what holds): the spectrum of a real field, whose lines are all at the frequencies the call returns other
than zero, integrates to the energy of the field -/
theorem C106_energy_partial {gr : Grid s} {t0 dt : ℝ} (hu : UniformTime gr.t t0 dt) (h2 : 2 ≤ s.nt)
    (hs : gr.geom.Single) {a : Fin s.n0 → Fin s.n1 → Fin s.nt → ℂ}
    (ha : ∀ i j q, a i j q ≠ 0 → 0 < (q : ℕ) ∧ (q : ℕ) < s.nt / 2)
    (hr : gr.HoldsReal fun i j k => (∑ q, a i j q * exp (-I * (lineFreq s.nt dt (q : ℕ) : ℝ) * gr.t.pts k)).re)
    (bins : ℕ) (w : Option ℝ) :
    ∃ spec, getSpectrum .sum none bins w gr = (.ok spec, gr) ∧
      (computeLaserEnergy gr).1 = .ok ((spec.map Prod.snd).sum * (2 * Real.pi / (s.nt * dt))) := by
  have hN : s.nt ≠ 0 := by omega
  have hdt := hu.pos
  have ha' : BelowNyquist a := fun i j q h => ⟨(ha i j q h).1, by have := (ha i j q h).2; omega⟩
  have e := getSpectrumSum_real hr h2 w
  rw [hu.step h2] at e
  refine ⟨_, by unfold getSpectrum SpectrumMethod.base; rw [Py.bind_ok e]; rfl, ?_⟩
  rw [realColumns_sum, spectralWeight_sum gr hs]
  simp only [computeLaserEnergy, Py.bind_apply, hr.getT, Py.get_apply, Py.pure_apply, hr.env, Bool.false_eq_true, if_false]
  congr 1
  rw [Finset.sum_mul]
  refine Finset.sum_congr rfl fun i _ => ?_
  rw [Finset.sum_mul]
  refine Finset.sum_congr rfl fun j _ => ?_
  -- energy of the cell
  have hE : ∀ k : Fin s.nt, (∑ q, a i j q * exp (-I * (lineFreq s.nt dt (q : ℕ) : ℝ) * gr.t.pts k)) =
      fft (fun q => a i j q * exp (-I * (lineFreq s.nt dt (q : ℕ) : ℝ) * t0)) k := by
    intro k
    rw [fft_eq_chr]
    refine Finset.sum_congr rfl fun q _ => ?_
    rw [hu.pts, exp_line hN hdt.ne', show -(((q : ℕ) : ℤ) * (k : ℕ)) = (k : ℕ) * -((q : ℕ) : ℤ) by ring]
    ring
  have hn : ∀ q : Fin s.nt, ‖exp (-I * (lineFreq s.nt dt (q : ℕ) : ℝ) * t0)‖ = 1 := by
    intro q; rw [Complex.norm_exp]; simp
  have h3 : ∑ k, (∑ q, a i j q * exp (-I * (lineFreq s.nt dt (q : ℕ) : ℝ) * gr.t.pts k)).re ^ 2 =
      s.nt / 2 * ∑ q, ‖a i j q‖ ^ 2 := by
    rw [Finset.sum_congr rfl fun k _ => by rw [hE k], sum_re_sq]
    · congr 1
      refine Finset.sum_congr rfl fun q _ => ?_
      rw [norm_mul, hn, mul_one]
    · intro q hq
      exact ha' i j q (left_ne_zero_of_mul hq)
  -- spectrum of the cell
  have h4 : ∀ q : Fin (s.nt / 2), ‖fft (fun k => (((∑ q, a i j q * exp (-I * (lineFreq s.nt dt (q : ℕ) : ℝ) * gr.t.pts k)).re : ℝ) : ℂ))
      ⟨q, by omega⟩ * gr.t.dx‖ ^ 2 = (s.nt / 2 * dt) ^ 2 * ‖a i j ⟨q, by omega⟩‖ ^ 2 := by
    intro q
    have := norm_real_col hu 0 ha' i j ⟨q, by omega⟩ (by simp only; omega)
    simp only [lineEnvelope, hu.dx, sub_zero, ofReal_zero, mul_zero, zero_mul, Complex.exp_zero, mul_one] at this
    rw [hu.dx, this]
    ring
  have h5 : ∑ q : Fin (s.nt / 2), ‖a i j ⟨q, by omega⟩‖ ^ 2 = ∑ q, ‖a i j q‖ ^ 2 := by
    refine sum_half (fun q => ‖a i j q‖ ^ 2) fun q hq => ?_
    by_cases h : a i j q = 0
    · simp [h]
    · have := (ha i j q h).2; omega
  have h7 := Finset.sum_congr (rfl : (Finset.univ : Finset (Fin (s.nt / 2))) = Finset.univ) fun q _ => h4 q
  rw [← Finset.mul_sum, h5] at h7
  rw [h7]
  have h6 : ∀ k, gr.cellVolume j * eps0 * ‖(((∑ q, a i j q * exp (-I * (lineFreq s.nt dt (q : ℕ) : ℝ) * gr.t.pts k)).re : ℝ) : ℂ)‖ ^ 2 =
      gr.cellVolume j * eps0 * (∑ q, a i j q * exp (-I * (lineFreq s.nt dt (q : ℕ) : ℝ) * gr.t.pts k)).re ^ 2 := by
    intro k
    rw [norm_real, Real.norm_eq_abs, sq_abs]
  rw [Finset.sum_congr rfl fun k _ => h6 k, ← Finset.mul_sum, h3]
  unfold Grid.cellArea
  rw [hu.dx]
  have hc := c_pos.ne'
  have hpi := Real.pi_ne_zero
  have hNr : (s.nt : ℝ) ≠ 0 := by exact_mod_cast hN
  have := hdt.ne'
  field_simp

/-- **C106 is false of the code** for an odd number of samples: the highest positive frequency is not returned. A field
that consists of it alone has a spectrum that is zero everywhere, whatever its energy. -/
theorem C106_odd_refuted {gr : Grid s} {t0 dt : ℝ} (hu : UniformTime gr.t t0 dt) (h3 : 3 ≤ s.nt) (hodd : Odd s.nt)
    {b : Fin s.n0 → Fin s.n1 → ℂ}
    (hr : gr.HoldsReal fun i j k => (b i j * exp (-I * (lineFreq s.nt dt ((s.nt - 1) / 2 : ℕ) : ℝ) * gr.t.pts k)).re)
    (bins : ℕ) (w : Option ℝ) :
    ∃ spec, getSpectrum .sum none bins w gr = (.ok spec, gr) ∧ (∀ ω S, (ω, S) ∈ spec → S = 0) ∧
      (computeLaserEnergy gr).1 = .ok (∑ i, ∑ j, gr.cellVolume j * eps0 * (s.nt / 2 * ‖b i j‖ ^ 2)) := by
  have hN : s.nt ≠ 0 := by omega
  have hdt := hu.pos
  let top : Fin s.nt := ⟨(s.nt - 1) / 2, by omega⟩
  let a : Fin s.n0 → Fin s.n1 → Fin s.nt → ℂ := fun i j q => if q = top then b i j else 0
  have ha : BelowNyquist a := by
    intro i j q hq
    by_cases h : q = top
    · subst h; obtain ⟨p, hp⟩ := hodd; show 0 < (s.nt - 1) / 2 ∧ 2 * ((s.nt - 1) / 2) < s.nt; omega
    · exact absurd (by simp [a, h]) hq
  have hsum : ∀ i j k, ∑ q, a i j q * exp (-I * (lineFreq s.nt dt (q : ℕ) : ℝ) * gr.t.pts k) =
      b i j * exp (-I * (lineFreq s.nt dt ((s.nt - 1) / 2 : ℕ) : ℝ) * gr.t.pts k) := by
    intro i j k
    rw [Finset.sum_eq_single top]
    · simp only [a, if_true, top]
    · intro q _ hq; simp [a, hq]
    · simp
  have e := getSpectrumSum_real hr (by omega) w
  rw [hu.step (by omega)] at e
  refine ⟨_, by unfold getSpectrum SpectrumMethod.base; rw [Py.bind_ok e]; rfl, ?_, ?_⟩
  · intro ω S hS
    obtain ⟨col, hcol, e2⟩ := List.mem_map.1 hS
    obtain ⟨k, hk, rfl⟩ := mem_realColumns.1 hcol
    simp only [Prod.mk.injEq] at e2
    obtain ⟨-, rfl⟩ := e2
    have hz : ∀ i j, fft (fun k => (((b i j * exp (-I * (lineFreq s.nt dt ((s.nt - 1) / 2 : ℕ) : ℝ) * gr.t.pts k)).re : ℝ) : ℂ)) k *
        (gr.t.dx : ℂ) = 0 := by
      intro i j
      have := norm_real_col hu 0 ha i j k (by omega)
      simp only [lineEnvelope, hu.dx, sub_zero, ofReal_zero, mul_zero, zero_mul, Complex.exp_zero, mul_one, hsum] at this
      have hk' : k ≠ top := by
        intro h
        rw [h] at hk
        have : (s.nt - 1) / 2 < s.nt / 2 := hk
        obtain ⟨p, hp⟩ := hodd
        omega
      rw [show a i j k = 0 by simp [a, hk'], norm_zero, mul_zero, zero_mul, norm_eq_zero] at this
      rw [hu.dx]
      exact this
    unfold spectralWeight
    cases gr.geom with
    | xyt x y => simp only [hz, norm_zero]; simp
    | rt m hm r => simp only [hz, norm_zero]; simp
  · simp only [computeLaserEnergy, Py.bind_apply, hr.getT, Py.get_apply, Py.pure_apply, hr.env, Bool.false_eq_true, if_false]
    congr 1
    refine Finset.sum_congr rfl fun i _ => Finset.sum_congr rfl fun j _ => ?_
    rw [← Finset.mul_sum]
    congr 1
    have hE : ∀ k : Fin s.nt, b i j * exp (-I * (lineFreq s.nt dt ((s.nt - 1) / 2 : ℕ) : ℝ) * gr.t.pts k) =
        fft (fun q => a i j q * exp (-I * (lineFreq s.nt dt (q : ℕ) : ℝ) * t0)) k := by
      intro k
      rw [← hsum, fft_eq_chr]
      refine Finset.sum_congr rfl fun q _ => ?_
      rw [hu.pts, exp_line hN hdt.ne', show -(((q : ℕ) : ℤ) * (k : ℕ)) = (k : ℕ) * -((q : ℕ) : ℤ) by ring]
      ring
    have hn : ∀ q : Fin s.nt, ‖exp (-I * (lineFreq s.nt dt (q : ℕ) : ℝ) * t0)‖ = 1 := by
      intro q; rw [Complex.norm_exp]; simp
    have h6 : ∀ k, ‖(((b i j * exp (-I * (lineFreq s.nt dt ((s.nt - 1) / 2 : ℕ) : ℝ) * gr.t.pts k)).re : ℝ) : ℂ)‖ ^ 2 =
        (fft (fun q => a i j q * exp (-I * (lineFreq s.nt dt (q : ℕ) : ℝ) * t0)) k).re ^ 2 := by
      intro k
      rw [norm_real, Real.norm_eq_abs, sq_abs, hE]
    rw [Finset.sum_congr rfl fun k _ => h6 k, sum_re_sq]
    · congr 1
      rw [Finset.sum_eq_single top]
      · rw [norm_mul, hn, mul_one]; simp [a]
      · intro q _ hq; simp [a, hq]
      · simp
    · intro q hq
      exact ha i j q (left_ne_zero_of_mul hq)

/-- three samples of `cos(2πt/3)`: premises met, energy positive -/
example : ∃ (gr : Grid ⟨2, 2, 3⟩), UniformTime gr.t 0 1 ∧
    (gr.HoldsReal fun _ _ k => (1 * exp (-I * (lineFreq 3 1 ((3 - 1) / 2 : ℕ) : ℝ) * gr.t.pts k)).re) ∧
    0 < ∑ _i : Fin 2, ∑ j : Fin 2, gr.cellVolume j * eps0 * ((3 : ℕ) / 2 * ‖(1 : ℂ)‖ ^ 2) := by
  let x : Axis 2 := ⟨0, 1, 1, fun k => (k : ℕ)⟩
  let t : Axis 3 := ⟨0, 2, 1, fun k => (k : ℕ)⟩
  refine ⟨Grid.holdingReal (s := ⟨2, 2, 3⟩) (.xyt x x) t fun _ _ k => (1 * exp (-I * (lineFreq 3 1 ((3 - 1) / 2 : ℕ) : ℝ) * t.pts k)).re,
    ⟨by norm_num, rfl, fun k => by simp [Grid.holdingReal, t]⟩, Grid.holdingReal_holds _ _ _, ?_⟩
  have h1 := c_pos
  have h2 := eps0_pos
  simp only [Grid.cellVolume, Grid.holdingReal, cellVolumeXYT, Fin.sum_univ_two, x, t]
  norm_num
  positivity

end Lasy
