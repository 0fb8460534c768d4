import Verif.Lemmas.Grid

/-!
# Properties C01, C02, C03, C05, C06, C07, C08, C09 of `Grid`

Histories (`List Call`) may contain accepted and rejected calls in any order; `Spec.lastWrite` finds
the last accepted write in a history by looking at the calls only.
-/

namespace Lasy
open Spec

variable {s : Shape} {dim : String} {lo hi : List ℝ} {np : List ℕ} {m : Option ℕ} {g : Grid s}

/-! ## a grid to instantiate hypotheses with -/

/-- hypotheses `Grid.init .. = .ok ⟨s, g⟩` below are satisfiable for every geometry and size ≥ 2 -/
example : ∃ g : Grid ⟨3, 10, 20⟩, Grid.init "rt" [0, -1] [5, 1] [10, 20] (some 2) true = .ok ⟨_, g⟩ :=
  Grid.init_rt _ _ _ _ _ _ 2 (by norm_num) (by norm_num) (by norm_num) true

/-! ## C01 -/

/-- **C01.** After any history of calls on a fresh envelope grid, both getters return the last accepted
write (transformed if it was written in the other domain); if nothing was ever accepted they raise
`ValueError`. -/
theorem C01_read_your_writes (h : Grid.init dim lo hi np m true = .ok ⟨s, g⟩) (cs : List Call) :
    match lastWrite s cs with
    | some (.inl f) =>
        ((g.after cs).call .getTemporal).1 = .array ⟨.c128, f⟩ ∧
        ((g.after cs).call .getSpectral).1 = .array ⟨.c128, idft f⟩
    | some (.inr f) =>
        ((g.after cs).call .getTemporal).1 = .array ⟨.c128, dft f⟩ ∧
        ((g.after cs).call .getSpectral).1 = .array ⟨.c128, f⟩
    | none =>
        ((g.after cs).call .getTemporal).1 = .exception .value ∧
        ((g.after cs).call .getSpectral).1 = .exception .value := by
  have hh := (Grid.init_holds h).after cs
  rw [(hh.call .getTemporal).1, (hh.call .getSpectral).1, after_lastWrite]
  rcases lastWrite s cs with _ | w
  · simp [Spec.call]
  · rcases w with f | f <;> simp [Spec.call, idft_dft]

/-- **C01**, whole histories: all answers of the grid are those of a single register. -/
theorem C01_refines_register (h : Grid.init dim lo hi np m true = .ok ⟨s, g⟩) (cs : List Call) :
    g.answers cs = Spec.answers none cs :=
  (Grid.init_holds h).answers cs

/-- a history with two writes and a rejected one: the rejected one does not count -/
example (f f' : Field ⟨3, 10, 20⟩) (bad : NdArray) (hb : bad.shape = [1]) :
    lastWrite ⟨3, 10, 20⟩ [.setSpectral (Arr.toNd ⟨.c128, f'⟩), .getTemporal,
      .setTemporal (Arr.toNd ⟨.c128, f⟩), .getSpectral, .setSpectral bad] = some (.inl f) := by
  have h1 : ¬ fits ⟨3, 10, 20⟩ bad := by simp [fits, hb]
  have h2 : fits ⟨3, 10, 20⟩ (Arr.toNd (s := ⟨3, 10, 20⟩) ⟨.c128, f⟩) := by
    simp [fits, Shape.toList]
  have h3 : contents ⟨3, 10, 20⟩ (Arr.toNd (s := ⟨3, 10, 20⟩) ⟨.c128, f⟩) = f := by
    rw [contents_eq, Arr.toNd_content]
  simp [lastWrite, h1, h2, h3]

/-! ## C02 -/

/-- **C02.** In every reachable state, reading one view and then the other (in either order) gives a
Fourier pair, or both reads raise. -/
theorem C02_views_coherent (h : Grid.init dim lo hi np m true = .ok ⟨s, g⟩) (cs : List Call) :
    ((∃ f F : Field s,
        g.answers (cs ++ [.getTemporal, .getSpectral]) =
          g.answers cs ++ [.array ⟨.c128, f⟩, .array ⟨.c128, F⟩] ∧
        g.answers (cs ++ [.getSpectral, .getTemporal]) =
          g.answers cs ++ [.array ⟨.c128, F⟩, .array ⟨.c128, f⟩] ∧
        F = idft f ∧ f = dft F) ∨
     (g.answers (cs ++ [.getTemporal, .getSpectral]) =
          g.answers cs ++ [.exception .value, .exception .value] ∧
      g.answers (cs ++ [.getSpectral, .getTemporal]) =
          g.answers cs ++ [.exception .value, .exception .value])) := by
  simp only [(Grid.init_holds h).answers, spec_answers_append]
  rcases Spec.after (none : Option (Field s)) cs with _ | f
  · right; simp [Spec.answers, Spec.call]
  · left
    exact ⟨f, idft f, by simp [Spec.answers, Spec.call], by simp [Spec.answers, Spec.call], rfl,
      (dft_idft f).symm⟩

/-! ## C03 -/

/-- **C03.** Getter calls inserted anywhere in a history do not change any other answer: cutting the
answers to the inserted getters out of the longer history gives the answers of the shorter one. -/
theorem C03_getters_unobservable (h : Grid.init dim lo hi np m true = .ok ⟨s, g⟩)
    (a gets b : List Call) (hg : ∀ c ∈ gets, c = .getTemporal ∨ c = .getSpectral) :
    (g.answers (a ++ gets ++ b)).take a.length ++
      (g.answers (a ++ gets ++ b)).drop (a.length + gets.length) = g.answers (a ++ b) := by
  simp only [(Grid.init_holds h).answers, spec_answers_append, List.append_assoc,
    spec_after_gets _ _ hg, List.take_append, List.drop_append, spec_answers_length]
  have e1 : List.drop (a.length + gets.length) (Spec.answers (none : Option (Field s)) a) = [] :=
    List.drop_eq_nil_of_le (by simp [spec_answers_length])
  have e2 : List.take a.length (Spec.answers (none : Option (Field s)) a) =
      Spec.answers (none : Option (Field s)) a := List.take_of_length_le (by simp [spec_answers_length])
  have e3 : List.drop gets.length (Spec.answers (Spec.after (none : Option (Field s)) a) gets) = [] :=
    List.drop_eq_nil_of_le (by simp [spec_answers_length])
  simp [e1, e2, e3]

example : ∀ c ∈ ([.getTemporal, .getSpectral, .getTemporal] : List Call),
    c = .getTemporal ∨ c = .getSpectral := by simp

/-! ## C05 -/

/-- **C05**, temporal setter: a wrong shape or a wrong dtype raises `AssertionError` and the grid object
is left exactly as it was — in every state, envelope or not. -/
theorem C05_setTemporal_rejected (g : Grid s) (a : NdArray)
    (h : a.shape ≠ [s.n0, s.n1, s.nt] ∨ a.dtype ≠ (if g.isEnvelope then .c128 else .f64)) :
    Grid.setTemporalField a g = (.error .assertion, g) := by
  refine setTemporalField_err ?_
  rintro ⟨h1, h2⟩
  rcases h with h | h
  · exact h h1
  · apply h
    rw [h2]
    cases g.isEnvelope <;> rfl

/-- **C05**, spectral setter. -/
theorem C05_setSpectral_rejected (g : Grid s) (a : NdArray)
    (h : a.shape ≠ [s.n0, s.n1, s.nt] ∨ a.dtype ≠ .c128) :
    Grid.setSpectralField a g = (.error .assertion, g) := by
  refine setSpectralField_err ?_
  rintro ⟨h1, h2⟩
  rcases h with h | h
  · exact h h1
  · exact h h2

/-- **C05**: conversely an array of the right shape and dtype is always accepted. -/
theorem C05_setters_accept (g : Grid s) (a : NdArray) (h : a.shape = [s.n0, s.n1, s.nt]) :
    (a.dtype = (if g.isEnvelope then .c128 else .f64) →
      (Grid.setTemporalField a g).1 = .ok ()) ∧
    (a.dtype = .c128 → (Grid.setSpectralField a g).1 = .ok ()) := by
  refine ⟨fun hd => ?_, fun hd => ?_⟩
  · rw [setTemporalField_ok h (by rw [hd]; cases g.isEnvelope <;> rfl)]
  · rw [setSpectralField_ok h hd]

/-- **C05**: a grid on which nothing was accepted refuses reads, however often it is asked, and stays
as it was created. -/
theorem C05_unset_grid_refuses (h : Grid.init dim lo hi np m true = .ok ⟨s, g⟩) (cs : List Call)
    (hc : ∀ c ∈ cs, match c with
      | .setTemporal a => ¬ fits s a
      | .setSpectral a => ¬ fits s a
      | _ => True) :
    g.after cs = g ∧ ∀ c ∈ cs, (c = .getTemporal ∨ c = .getSpectral) →
      (g.call c).1 = .exception .value := by
  obtain ⟨h1, h2, h3, h4, -⟩ := Grid.init_ok h
  have hcall : ∀ c ∈ cs, (g.call c).2 = g := by
    intro c hm
    have := hc c hm
    cases c with
    | setTemporal a =>
      simp only at this
      have h' : ¬ (a.shape = s.toList ∧ a.dtype = dtypeOf g.isEnvelope) := by rw [h1]; exact this
      simp [Grid.call, setTemporalField_err h']
    | setSpectral a =>
      simp only at this
      simp [Grid.call, setSpectralField_err this]
    | getTemporal => simp [Grid.call, getTemporalField_none h2 h3]
    | getSpectral => simp [Grid.call, getSpectralField_none h1 h3 h2]
  constructor
  · clear hc
    induction cs with
    | nil => rfl
    | cons c cs ih =>
      simp only [Grid.after, hcall c (by simp)]
      exact ih (fun c' h' => hcall c' (by simp [h']))
  · rintro c hm (rfl | rfl)
    · simp [Grid.call, getTemporalField_none h2 h3]
    · simp [Grid.call, getSpectralField_none h1 h3 h2]

/-! ## C06 -/

/-- the two views agree: reading `temporal` then `spectral` gives a Fourier pair -/
def Coherent (g : Grid s) : Prop :=
  ∃ f F : Field s, g.answers [.getTemporal, .getSpectral] = [.array ⟨.c128, f⟩, .array ⟨.c128, F⟩] ∧
    F = idft f

/-- **C06 is false of the code.** Reading the spectral field of an envelope grid fills the second
cache; `set_is_envelope(False); set_is_envelope(True)` then drops the imaginary part of the temporal
cache only, and the grid is left with two different fields. -/
theorem C06_refuted : ∃ (g : Grid ⟨2, 2, 2⟩) (cs : List Call),
    Grid.init "xyt" [0, 0, 0] [1, 1, 1] [2, 2, 2] none true = .ok ⟨_, g⟩ ∧
    Coherent (g.after cs) ∧
    ¬ Coherent ((Grid.setIsEnvelope true (Grid.setIsEnvelope false (g.after cs)).2).2) := by
  obtain ⟨g, hg⟩ := Grid.init_xyt 0 0 0 1 1 1 2 2 2 le_rfl le_rfl le_rfl none true
  let f : Field ⟨2, 2, 2⟩ := fun _ _ _ => Complex.I
  refine ⟨g, [.setTemporal (Arr.toNd ⟨.c128, f⟩), .getSpectral], hg, ?_, ?_⟩
  · have hh := (Grid.init_holds hg).after [.setTemporal (Arr.toNd ⟨.c128, f⟩), .getSpectral]
    have hfit : fits ⟨2, 2, 2⟩ (Arr.toNd (s := ⟨2, 2, 2⟩) ⟨.c128, f⟩) := by
      simp [fits, Shape.toList]
    refine ⟨f, idft f, ?_, rfl⟩
    rw [hh.answers]
    simp [Spec.answers, Spec.after, Spec.call, hfit, contents_eq]
  · obtain ⟨h1, h2, h3, h4, -⟩ := Grid.init_ok hg
    have e1 := setTemporalField_ok (g := g) (a := Arr.toNd ⟨.c128, f⟩) (by simp) (by simp [h1, dtypeOf])
    simp only [Grid.after, Grid.call, e1, Arr.toNd_content]
    rw [getSpectralField_temp (by simp [h1]) (by simp) (by simp)]
    simp only [Grid.setIsEnvelope, Py.modify_apply]
    rintro ⟨f', F, ha, hF⟩
    rw [Grid.answers, Grid.call, getTemporalField_valid (by simp)] at ha
    simp only [Grid.answers, Grid.call] at ha
    rw [getSpectralField_valid (by simp) (by simp)] at ha
    simp only [dtypeOf, Grid.astype, List.cons.injEq, Answer.array.injEq, Arr.mk.injEq, true_and,
      and_true] at ha
    obtain ⟨hf, hF'⟩ := ha
    have : idft f = idft f' := by rw [hF', hF]
    have : f = f' := by rw [← dft_idft f, this, dft_idft]
    have h0 := congrFun (congrFun (congrFun (this.trans hf.symm) 0) 0) 0
    simp [f] at h0

/-- **C06, the part that holds.** If the call just before the switches was an accepted write, then any
number of `set_is_envelope` calls ending in envelope mode leaves the two views coherent.
Missing: histories where both views were read since the last write, see `C06_refuted`. -/
theorem C06_coherent_after_write_partial (h : Grid.init dim lo hi np m true = .ok ⟨s, g⟩)
    (cs : List Call) (w : Call) (bs : List Bool)
    (hw : match w with
      | .setTemporal a => fits s a
      | .setSpectral a => fits s a
      | _ => False) :
    Coherent ((Grid.setIsEnvelope true
      (bs.foldl (fun g' b => (Grid.setIsEnvelope b g').2) (g.after (cs ++ [w])))).2) := by
  have hh := (Grid.init_holds h).after cs
  rw [Grid.after_append]
  set g1 := g.after cs with hg1
  have key : (((g1.after [w]).temporalValid = true ∧ (g1.after [w]).spectralValid = false) ∨
      ((g1.after [w]).temporalValid = false ∧ (g1.after [w]).spectralValid = true)) := by
    cases w with
    | setTemporal a =>
      simp only at hw
      have hf' : a.shape = s.toList ∧ a.dtype = dtypeOf g1.isEnvelope := by rw [hh.env]; exact hw
      left; simp [Grid.after, Grid.call, setTemporalField_ok hf'.1 hf'.2]
    | setSpectral a =>
      simp only at hw
      right; simp [Grid.after, Grid.call, setSpectralField_ok hw.1 hw.2]
    | getTemporal => exact hw.elim
    | getSpectral => exact hw.elim
  generalize g1.after [w] = g2 at key
  have key2 : ∀ (bs : List Bool) (g2 : Grid s),
      ((g2.temporalValid = true ∧ g2.spectralValid = false) ∨
        (g2.temporalValid = false ∧ g2.spectralValid = true)) →
      let g3 := bs.foldl (fun g' b => (Grid.setIsEnvelope b g').2) g2
      ((g3.temporalValid = true ∧ g3.spectralValid = false) ∨
        (g3.temporalValid = false ∧ g3.spectralValid = true)) := by
    intro bs
    induction bs with
    | nil => intro g2 hk; exact hk
    | cons b bs ih =>
      intro g2 hk
      simp only [List.foldl_cons]
      exact ih _ (by simpa [Grid.setIsEnvelope] using hk)
  have k3 := key2 bs g2 key
  simp only at k3
  generalize bs.foldl (fun g' b => (Grid.setIsEnvelope b g').2) g2 = g3 at k3
  simp only [Grid.setIsEnvelope, Py.modify_apply, dtypeOf, Grid.astype]
  rcases k3 with ⟨k1, k2⟩ | ⟨k1, k2⟩
  · refine ⟨g3.temporal.val, _, ?_, rfl⟩
    rw [Grid.answers, Grid.call, getTemporalField_valid (by simpa using k1)]
    simp only [Grid.answers, Grid.call]
    rw [getSpectralField_temp (by simp) (by simpa using k2) (by simpa using k1)]
  · refine ⟨dft g3.spectral, _, ?_, rfl⟩
    rw [Grid.answers, Grid.call, getTemporalField_spec (by simpa using k1) (by simpa using k2)]
    simp only [Grid.answers, Grid.call]
    rw [getSpectralField_valid (by simp) (by simpa using k2)]
    simp [idft_dft]

/-! ## C07 -/

/-- **C07.** Writing a spectral field, reading it as a temporal field, writing that back and reading
the spectral field returns the original; and symmetrically. For every state of the grid and every
number of time points. -/
theorem C07_lossless (h : Grid.init dim lo hi np m true = .ok ⟨s, g⟩) (cs : List Call) (F : Field s) :
    (∃ f : Field s,
      (g.after (cs ++ [.setSpectral (Arr.toNd ⟨.c128, F⟩)])).answers
        [.getTemporal, .setTemporal (Arr.toNd ⟨.c128, f⟩), .getSpectral] =
        [.array ⟨.c128, f⟩, .done, .array ⟨.c128, F⟩]) ∧
    (∃ f : Field s,
      (g.after (cs ++ [.setTemporal (Arr.toNd ⟨.c128, F⟩)])).answers
        [.getSpectral, .setSpectral (Arr.toNd ⟨.c128, f⟩), .getTemporal] =
        [.array ⟨.c128, f⟩, .done, .array ⟨.c128, F⟩]) := by
  have hfit : ∀ F : Field s, fits s (Arr.toNd (s := s) ⟨.c128, F⟩) := by
    intro F; simp [fits, Shape.toList]
  refine ⟨⟨dft F, ?_⟩, ⟨idft F, ?_⟩⟩
  · rw [((Grid.init_holds h).after _).answers, spec_after_append]
    simp [Spec.after, Spec.answers, Spec.call, hfit, contents_eq, idft_dft]
  · rw [((Grid.init_holds h).after _).answers, spec_after_append]
    simp [Spec.after, Spec.answers, Spec.call, hfit, contents_eq, dft_idft]

/-! ## C08 -/

/-- **C08 (Parseval).** For the pair of fields returned by the two getters in any reachable state, at
every transverse point, `∑_t |temporal|² = Nt ∑_ω |spectral|²`. -/
theorem C08_parseval (h : Grid.init dim lo hi np m true = .ok ⟨s, g⟩) (cs : List Call)
    (f F : Field s) (ht : ((g.after cs).call .getTemporal).1 = .array ⟨.c128, f⟩)
    (hs : ((g.after cs).call .getSpectral).1 = .array ⟨.c128, F⟩) (i : Fin s.n0) (j : Fin s.n1) :
    ∑ k, ‖f i j k‖ ^ 2 = s.nt * ∑ k, ‖F i j k‖ ^ 2 := by
  have hh := (Grid.init_holds h).after cs
  rw [(hh.call _).1] at ht hs
  rcases hst : Spec.after (none : Option (Field s)) cs with _ | f'
  · rw [hst] at ht; simp [Spec.call] at ht
  · rw [hst] at ht hs
    simp only [Spec.call, Answer.array.injEq, Arr.mk.injEq, true_and] at ht hs
    subst ht hs
    rw [← dft_idft f', dft_eq]
    simp only [idft_dft, ← dft_eq]
    simpa [dft_eq] using parseval_fft (idft f' i j)

/-- the hypotheses of C08 hold after any accepted write -/
example (h : Grid.init dim lo hi np m true = .ok ⟨s, g⟩) (f : Field s) :
    ((g.after [.setTemporal (Arr.toNd ⟨.c128, f⟩)]).call .getTemporal).1 = .array ⟨.c128, f⟩ := by
  have hfit : fits s (Arr.toNd (s := s) ⟨.c128, f⟩) := by simp [fits, Shape.toList]
  have := C01_read_your_writes h [.setTemporal (Arr.toNd ⟨.c128, f⟩)]
  simp [lastWrite, hfit, contents_eq] at this
  exact this.1

/-! ## C09 -/

/-- what C09 asks of one axis -/
def UniformAxis (lo hi : ℝ) {n : ℕ} (a : Axis n) : Prop :=
  a.lo = lo ∧ a.hi = hi ∧ ∃ h : 2 ≤ n,
    a.pts ⟨0, by omega⟩ = lo ∧ a.pts ⟨n - 1, by omega⟩ = hi ∧
    a.dx = (hi - lo) / ((n : ℝ) - 1) ∧
    (∀ i : ℕ, ∀ hi' : i + 1 < n, a.pts ⟨i + 1, hi'⟩ - a.pts ⟨i, by omega⟩ = a.dx) ∧
    (lo < hi → StrictMono a.pts)

/-- **C09.** Every axis of a new grid is uniform, has the requested end points and number of points
(the number of points of an axis is its type), and is ascending if `lo < hi`. -/
theorem C09_axes {b : Bool} (h : Grid.init dim lo hi np m b = .ok ⟨s, g⟩) :
    match g.geom with
    | .rt _ _ r => ∃ l0 l1 h0 h1 rest, lo = [l0, l1] ∧ hi = [h0, h1] ∧ np = s.n1 :: s.nt :: rest ∧
        UniformAxis l0 h0 r ∧ UniformAxis l1 h1 g.t
    | .xyt x y => ∃ l0 l1 l2 h0 h1 h2, lo = [l0, l1, l2] ∧ hi = [h0, h1, h2] ∧
        np = [s.n0, s.n1, s.nt] ∧
        UniformAxis l0 h0 x ∧ UniformAxis l1 h1 y ∧ UniformAxis l2 h2 g.t := by
  have ha : ∀ {l h : ℝ} {n : ℕ} {a : Axis n}, mkAxis l h n = .ok a → UniformAxis l h a := by
    intro l h n a e
    obtain ⟨h2, rfl⟩ := mkAxis_ok e
    have hn : ((n : ℝ) - 1) ≠ 0 := by
      have : (2 : ℝ) ≤ n := by exact_mod_cast h2
      linarith
    have hn' : (0 : ℝ) < (n : ℝ) - 1 := by
      have : (2 : ℝ) ≤ n := by exact_mod_cast h2
      linarith
    refine ⟨rfl, rfl, h2, ?_, ?_, ?_, ?_, ?_⟩
    · simp [linspace]
    · simp only [linspace]
      rw [Nat.cast_sub (by omega)]
      field_simp
      simp only [Nat.cast_one]
      ring
    · simp [linspace]
    · intro i hi'
      simp only [linspace]
      push_cast
      ring
    · intro hlt i j hij
      simp only [linspace]
      have : ((i : ℕ) : ℝ) < ((j : ℕ) : ℝ) := by exact_mod_cast hij
      have hpos : 0 < (h - l) / ((n : ℝ) - 1) := div_pos (by linarith) hn'
      nlinarith
  obtain ⟨-, -, -, -, hc⟩ := Grid.init_ok h
  rcases hc with ⟨lo0, lo1, hi0, hi1, m', r, t, rest, h1, h2, h3, h4, h5, h6, h7, h8, hm, h9⟩ |
    ⟨lo0, lo1, lo2, hi0, hi1, hi2, x, y, t, h1, h2, h3, h4, h5, h6, h7, h8, h9⟩
  · simp only [h9]
    exact ⟨lo0, lo1, hi0, hi1, rest, h2, h3, h4, ha h6, h8 ▸ ha h7⟩
  · simp only [h9]
    exact ⟨lo0, lo1, lo2, hi0, hi1, hi2, h2, h3, h4, ha h5, ha h6, h8 ▸ ha h7⟩

/-- **C09**: a direction with fewer than two points is rejected, whatever the other arguments. -/
theorem C09_rejects_short_axis (b : Bool) (i : ℕ) (hi2 : i < (if dim = "rt" then 2 else 3))
    (hn : ∃ n, np[i]? = some n ∧ n < 2) :
    ∃ e, Grid.init dim lo hi np m b = .error e := by
  obtain ⟨n, hn, hlt⟩ := hn
  rcases hr : Grid.init dim lo hi np m b with e | ⟨s, g⟩
  · exact ⟨e, rfl⟩
  · exfalso
    obtain ⟨-, -, -, -, hc⟩ := Grid.init_ok hr
    rcases hc with ⟨lo0, lo1, hi0, hi1, m', r, t, rest, h1, h2, h3, h4, h5, h6, h7, h8, hm, h9⟩ |
      ⟨lo0, lo1, lo2, hi0, hi1, hi2, x, y, t, h1, h2, h3, h4, h5, h6, h7, h8, h9⟩
    · obtain ⟨h6, -⟩ := mkAxis_ok h6
      obtain ⟨h7, -⟩ := mkAxis_ok h7
      simp only [h1, if_true] at hi2
      interval_cases i <;> simp [h4] at hn <;> omega
    · obtain ⟨h5, -⟩ := mkAxis_ok h5
      obtain ⟨h6, -⟩ := mkAxis_ok h6
      obtain ⟨h7, -⟩ := mkAxis_ok h7
      subst h1
      have : ¬ ("xyt" = "rt") := by decide
      rw [if_neg this] at hi2
      interval_cases i <;> simp [h4] at hn <;> omega

/-- an instance of the hypotheses of `C09_rejects_short_axis` -/
example : ∃ e, Grid.init "rt" [0, 0] [1, 1] [10, 1] (some 1) true = .error e :=
  C09_rejects_short_axis true 1 (by norm_num) ⟨1, rfl, by norm_num⟩

end Lasy
