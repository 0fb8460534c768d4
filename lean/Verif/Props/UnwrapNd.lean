import Verif.Model.UnwrapNd
import Verif.Props.OpenPMDFull

/-!
# Property C149: n-dimensional phase unwrapping

`skimage.restoration.unwrap_phase` is universally quantified in every theorem.
-/

namespace Lasy
open Spec Phys Complex

variable {s : Shape}

/-- with `phase_unwrap_nd=False` this is the model used elsewhere -/
theorem getFrequencyNd_off (isHilbert : Bool) (w0 : Option ℝ) (lower upper : ℝ) :
    getFrequencyNd (s := s) .off isHilbert w0 lower upper = getFrequency isHilbert w0 lower upper := rfl

theorem fieldToEnvelopeNd_off : fieldToEnvelopeNd (s := s) .off = fieldToEnvelope := rfl

/-- the local frequency computed from a real field with an n-d unwrapper -/
theorem getFrequencyNd_real {g : Grid s} {E : RField s} (h : g.HoldsReal E) {nd : UnwrapNd s} {w : RField s}
    (hw : phaseRateNd nd (fun i j k => (E i j k : ℂ)) g.t.pts = .ok w)
    (hsum : ∑ p : Fin s.n0 × Fin s.n1 × Fin s.nt, fullFieldWeights g (fun i j k => (E i j k : ℂ)) p.1 p.2.1 p.2.2 ≠ 0)
    (w0 : Option ℝ) (lower upper : ℝ) :
    ∃ (o : RField s) (v : ℝ), getFrequencyNd nd true w0 lower upper g = (.ok (o, v), g) := by
  unfold getFrequencyNd
  rw [Py.bind_ok h.getT, Py.bind_ok (Py.get_apply g), if_neg (by rw [h.env]; simp), if_neg (by simp)]
  have ha : average3 w (fullFieldWeights g (fun i j k => (E i j k : ℂ))) = .ok _ := average_ok hsum
  simp only [hw, ha, Py.pure_apply]
  exact ⟨_, _, rfl⟩

theorem fieldToEnvelopeNd_real {g : Grid s} {E : RField s} (h : g.HoldsReal E) {nd : UnwrapNd s} {o : RField s} {w : ℝ}
    (hf : getFrequencyNd nd true none 0.2 5.0 g = (.ok (o, w), g)) :
    ∃ g', fieldToEnvelopeNd nd g = (.ok w, g') ∧ g'.Holds (some fun i j k => hilbertTransform (E i j) k *
      exp (I * w * g.t.pts k)) ∧ g'.geom = g.geom ∧ g'.t = g.t := by
  let F : Field s := fun i j k => hilbertTransform (E i j) k * exp (I * w * g.t.pts k)
  refine ⟨{ g with isEnvelope := true, temporal := ⟨.c128, F⟩, temporalValid := true, spectralValid := false },
    ?_, ?_, rfl, rfl⟩
  · unfold fieldToEnvelopeNd
    rw [Py.bind_ok (Py.get_apply _), Py.bind_ok (Py.require_pos h.env _), Py.bind_ok h.getT, if_neg (by simp),
      Py.bind_ok hf]
    dsimp only
    rw [Py.bind_ok (Py.get_apply _)]
    simp only [ofReal_re]
    have e1 : Grid.setIsEnvelope true g = (.ok (), { g with temporal := Grid.astype .c128 g.temporal, isEnvelope := true }) :=
      rfl
    rw [Py.bind_ok e1, Py.bind_ok (setTemporalField_ok rfl rfl)]
    simp [Grid.astype, F]
  · exact ⟨rfl, rfl, by simp, by rintro f' hf'; injection hf' with hf'; subst hf'; simp [F]⟩

theorem phaseRateNd_skimage (hn : 3 ≤ s.nt) (U : RField s → RField s) (h : Field s) (t : Fin s.nt → ℝ) :
    ∃ w, phaseRateNd (.skimage U) h t = .ok w := by
  choose r hr using fun i j => gradient_ok hn (fun k => -(U fun i j k => angle (h i j k)) i j k) t
  exact ⟨r, alongT_of (f := fun p : Fin s.nt → ℝ => gradient (fun k => -p k) t)
    (a := U fun i j k => angle (h i j k)) hr⟩

theorem norm_carrier (z : ℂ) (w t : ℝ) : ‖z * exp (I * w * t)‖ = ‖z‖ := by
  rw [norm_mul, show I * (w : ℂ) * (t : ℂ) = ((w * t : ℝ) : ℂ) * I by push_cast; ring,
    Complex.norm_exp_ofReal_mul_I, mul_one]

/-- **C149.** Whatever function scikit-image's `unwrap_phase` is, `field_to_envelope(grid, dim, phase_unwrap_nd=True)`
succeeds on a real field with at least three samples in time and some (weighted) amplitude, and leaves an envelope on
the same axes that represents exactly the original field with the returned carrier frequency `w`:
`Re(envelope * exp(-i w t)) = E` at every sample. -/
theorem C149_represents (U : RField s → RField s) {g : Grid s} {E : RField s} (h : g.HoldsReal E) (hn : 3 ≤ s.nt)
    (hw : ∑ p : Fin s.n0 × Fin s.n1 × Fin s.nt,
      fullFieldWeights g (fun i j k => (E i j k : ℂ)) p.1 p.2.1 p.2.2 ≠ 0) :
    ∃ (w : ℝ) (g' : Grid s) (F : Field s), fieldToEnvelopeNd (.skimage U) g = (.ok w, g') ∧ g'.Holds (some F) ∧
      g'.geom = g.geom ∧ g'.t = g.t ∧ ∀ i j k, (F i j k * exp (-I * w * g.t.pts k)).re = E i j k := by
  obtain ⟨r, hr⟩ := phaseRateNd_skimage hn U (fun i j k => (E i j k : ℂ)) g.t.pts
  obtain ⟨o, v, hf⟩ := getFrequencyNd_real h hr hw none 0.2 5.0
  obtain ⟨g', e, h1, h2, h3⟩ := fieldToEnvelopeNd_real h hf
  refine ⟨_, g', _, e, h1, h2, h3, fun i j k => ?_⟩
  rw [exp_cancel, hilbertTransform_re]

/-- **C149.** The choice of the unwrapping changes only the carrier: with the envelopes `F` and `F'` obtained with and
without `phase_unwrap_nd`, `|F| = |F'|` and `F * exp(-i w t) = F' * exp(-i w' t)` at every sample. -/
theorem C149_same_signal (U : RField s → RField s) {g : Grid s} {E : RField s} (h : g.HoldsReal E) (hn : 3 ≤ s.nt)
    (hw : ∑ p : Fin s.n0 × Fin s.n1 × Fin s.nt,
      fullFieldWeights g (fun i j k => (E i j k : ℂ)) p.1 p.2.1 p.2.2 ≠ 0) :
    ∃ (w w' : ℝ) (g₁ g₂ : Grid s) (F F' : Field s), fieldToEnvelopeNd (.skimage U) g = (.ok w, g₁) ∧
      fieldToEnvelope g = (.ok w', g₂) ∧ g₁.Holds (some F) ∧ g₂.Holds (some F') ∧
      (∀ i j k, ‖F i j k‖ = ‖F' i j k‖) ∧
      ∀ i j k, F i j k * exp (-I * w * g.t.pts k) = F' i j k * exp (-I * w' * g.t.pts k) := by
  obtain ⟨r, hr⟩ := phaseRateNd_skimage hn U (fun i j k => (E i j k : ℂ)) g.t.pts
  obtain ⟨o, v, hf⟩ := getFrequencyNd_real h hr hw none 0.2 5.0
  obtain ⟨g₁, e, h1, -, -⟩ := fieldToEnvelopeNd_real h hf
  obtain ⟨r', hr'⟩ := realRate_exists hn g.t.pts E
  obtain ⟨g₂, e', h1', -, -⟩ := fieldToEnvelope_real h (getFrequency_real h hr' hw none 0.2 5.0)
  refine ⟨_, _, g₁, g₂, _, _, e, e', h1, h1', fun i j k => ?_, fun i j k => ?_⟩
  · rw [norm_carrier, norm_carrier]
  · rw [exp_cancel, exp_cancel]

/-- **C149.** Without scikit-image, `phase_unwrap_nd=True` is an `AssertionError` for every grid that holds a real field,
and the grid is left as it was (still the same real field, still not an envelope). -/
theorem C149_missing {g : Grid s} {E : RField s} (h : g.HoldsReal E) :
    fieldToEnvelopeNd .missing g = (.error .assertion, g) := by
  have hf : getFrequencyNd .missing true none 0.2 5.0 g = (.error .assertion, g) := by
    unfold getFrequencyNd
    rw [Py.bind_ok h.getT, Py.bind_ok (Py.get_apply g), if_neg (by rw [h.env]; simp), if_neg (by simp)]
    rfl
  unfold fieldToEnvelopeNd
  rw [Py.bind_ok (Py.get_apply _), Py.bind_ok (Py.require_pos h.env _), Py.bind_ok h.getT, if_neg (by simp),
    Py.bind_error hf]

theorem getTemporalField_keeps (g : Grid s) : (Grid.getTemporalField g).2.isEnvelope = g.isEnvelope ∧
    (Grid.getTemporalField g).2.t = g.t := by
  by_cases h1 : g.temporalValid = true
  · rw [getTemporalField_valid h1]; exact ⟨rfl, rfl⟩
  · by_cases h2 : g.spectralValid = true
    · rw [getTemporalField_spec (by simpa using h1) h2]; exact ⟨rfl, rfl⟩
    · rw [getTemporalField_none (by simpa using h1) (by simpa using h2)]; exact ⟨rfl, rfl⟩

/-- **C149.** For an envelope, `phase_unwrap_nd` changes nothing: neither the result of `get_frequency`, nor the need
for scikit-image, for any state of the grid. -/
theorem C149_envelope (nd : UnwrapNd s) (g : Grid s) (hg : g.isEnvelope = true) (isHilbert : Bool) (w0 : Option ℝ)
    (lower upper : ℝ) :
    getFrequencyNd nd isHilbert w0 lower upper g = getFrequency isHilbert w0 lower upper g := by
  rcases ht : Grid.getTemporalField g with ⟨r | f, g'⟩
  · unfold getFrequencyNd getFrequency
    rw [Py.bind_error ht, Py.bind_error ht]
  · have hg' : g'.isEnvelope = true := by
      rw [← hg]
      have := (getTemporalField_keeps g).1
      rw [ht] at this
      exact this
    unfold getFrequencyNd getFrequency
    rw [Py.bind_ok ht, Py.bind_ok ht, Py.bind_ok (Py.get_apply _), Py.bind_ok (Py.get_apply _), if_pos hg', if_pos hg']
    rfl

/-- **C149.** The unwrapped phase matters only up to a constant in each transverse cell: two unwrappers whose results
differ, for every array, by a function of the transverse cell alone (in particular by a global multiple of `2π`) give
the same frequencies, and the same `field_to_envelope`, for every state of the grid with an increasing time axis. -/
theorem C149_offset (U V : RField s → RField s) (hUV : ∀ p, ∃ b : Fin s.n0 → Fin s.n1 → ℝ, ∀ i j k,
      V p i j k = U p i j k + b i j) (g : Grid s) (ht : Increasing g.t.pts) :
    (∀ isHilbert w0 lower upper, getFrequencyNd (.skimage U) isHilbert w0 lower upper g =
      getFrequencyNd (.skimage V) isHilbert w0 lower upper g) ∧
    fieldToEnvelopeNd (.skimage U) g = fieldToEnvelopeNd (.skimage V) g := by
  have key : ∀ h t, Increasing t → phaseRateNd (.skimage U) h t = phaseRateNd (s := s) (.skimage V) h t := by
    intro h t ht
    obtain ⟨b, hb⟩ := hUV fun i j k => angle (h i j k)
    have : ∀ i j, gradient (fun k => -(V fun i j k => angle (h i j k)) i j k) t =
        gradient (fun k => -(U fun i j k => angle (h i j k)) i j k) t := by
      intro i j
      rw [← gradient_add_const t ht (fun k => -(U fun i j k => angle (h i j k)) i j k) (-b i j)]
      congr 1
      funext k
      rw [hb]; ring
    simp only [phaseRateNd, alongT, this]
  have hfreq : ∀ g' : Grid s, Increasing g'.t.pts → ∀ isHilbert w0 lower upper,
      getFrequencyNd (.skimage U) isHilbert w0 lower upper g' =
      getFrequencyNd (.skimage V) isHilbert w0 lower upper g' := by
    intro g' hg' isHilbert w0 lower upper
    unfold getFrequencyNd
    rcases hgt : Grid.getTemporalField g' with ⟨r | f, gB⟩
    · rw [Py.bind_error hgt, Py.bind_error hgt]
    · have h2 : gB.t = g'.t := by
        have := (getTemporalField_keeps g').2
        rw [hgt] at this
        exact this
      rw [Py.bind_ok hgt, Py.bind_ok hgt, Py.bind_ok (Py.get_apply _), Py.bind_ok (Py.get_apply _),
        key f.val gB.t.pts (by rw [h2]; exact hg')]
  refine ⟨hfreq g ht, ?_⟩
  unfold fieldToEnvelopeNd
  rw [Py.bind_ok (Py.get_apply _), Py.bind_ok (Py.get_apply _)]
  by_cases he : g.isEnvelope = false
  · rw [Py.bind_ok (Py.require_pos he _), Py.bind_ok (Py.require_pos he _)]
    rcases hgt : Grid.getTemporalField g with ⟨r | f, gB⟩
    · rw [Py.bind_error hgt, Py.bind_error hgt]
    · have h2 : gB.t = g.t := by
        have := (getTemporalField_keeps g).2
        rw [hgt] at this
        exact this
      rw [Py.bind_ok hgt, Py.bind_ok hgt]
      split
      · rfl
      · have h3 := hfreq gB (by rw [h2]; exact ht) true none 0.2 5.0
        rcases hfr : getFrequencyNd (.skimage U) true none 0.2 5.0 gB with ⟨r | v, g3⟩
        · rw [Py.bind_error hfr, Py.bind_error (h3 ▸ hfr)]
        · rw [Py.bind_ok hfr, Py.bind_ok (h3 ▸ hfr)]
  · rw [Py.bind_error (Py.require_neg he _), Py.bind_error (Py.require_neg he _)]

/-- **C149.** With `phase_unwrap_nd=False` (the default) nothing depends on scikit-image: `get_frequency`,
`field_to_envelope` and `FromOpenPMDProfile` are, on every grid, the functions of C83 and C84 that unwrap along time. -/
theorem C149_off [Phys] :
    (∀ (s : Shape) (isHilbert : Bool) (w0 : Option ℝ) (lower upper : ℝ),
      getFrequencyNd (s := s) .off isHilbert w0 lower upper = getFrequency isHilbert w0 lower upper) ∧
    (∀ s : Shape, fieldToEnvelopeNd (s := s) .off = fieldToEnvelope) ∧
    ∀ (F : NdArray) (md : FieldMeta) (rt : Bool), fromOpenPMDFullNd (fun _ => .off) F md rt = fromOpenPMDFull F md rt :=
  ⟨fun _ _ _ _ _ => rfl, fun _ => rfl, fun _ _ _ => rfl⟩

/-- **C59 is false also with `phase_unwrap_nd=True`**: whatever scikit-image does, the constructor of
`FromOpenPMDProfile` raises an exception for every array and metadata that are not an envelope. -/
theorem C59_nd_refuted [Phys] (nd : ∀ s : Shape, UnwrapNd s) (F : NdArray) (md : FieldMeta) (rt : Bool) :
    ∃ e, fromOpenPMDFullNd nd F md rt = .error e := by
  rcases h : fromOpenPMDFullNd nd F md rt with e | v
  · exact ⟨e, rfl⟩
  exfalso
  unfold fromOpenPMDFullNd at h
  obtain ⟨⟨array, axes⟩, h1, h⟩ := bind_ok_inv h
  obtain ⟨sg, h2, h⟩ := bind_ok_inv h
  cases rt with
  | true =>
    have := createGrid_shape h2
    simp only [if_true, reorderArray] at h1
    rw [if_neg (by decide)] at h1
    rw [reorderRT_shape h1] at this
    omega
  | false =>
    simp only [Bool.false_eq_true, if_false] at h
    obtain ⟨e, he⟩ := envelopeProfile_xyt axes ["x", "y", "t"] (fieldToEnvelopeNd (nd sg.1) sg.2)
    rw [he] at h
    cases h

/-- the hypotheses of `C149_represents` and `C149_same_signal` are met: the field `(1, 1, -1)` in every cell -/
example (U : RField ⟨2, 2, 3⟩ → RField ⟨2, 2, 3⟩) : ∃ (g : Grid ⟨2, 2, 3⟩) (E : RField ⟨2, 2, 3⟩) (w : ℝ)
    (g' : Grid ⟨2, 2, 3⟩), g.HoldsReal E ∧ E 0 1 2 = -1 ∧ Increasing g.t.pts ∧
    fieldToEnvelopeNd (.skimage U) g = (.ok w, g') := by
  let E : RField ⟨2, 2, 3⟩ := fun _ _ => ![1, 1, -1]
  let g := Grid.holdingReal (s := ⟨2, 2, 3⟩) (.xyt axis01 axis01) axis012 E
  obtain ⟨w, g', -, h, -⟩ := C149_represents U (Grid.holdingReal_holds (.xyt axis01 axis01) axis012 E) (by simp) (by
    simp only [fullFieldWeights, Grid.holdingReal, Fintype.sum_prod_type, Fin.sum_univ_succ]
    simp [E]
    norm_num)
  exact ⟨g, E, w, g', Grid.holdingReal_holds _ _ _, rfl, by intro k hk; simp [g, Grid.holdingReal, axis012], h⟩

end Lasy
