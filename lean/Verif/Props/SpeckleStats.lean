import Verif.Props.Speckle
import Verif.Lemmas.Phasors
import Mathlib.MeasureTheory.Constructions.BorelSpace.Order
import Mathlib.MeasureTheory.Function.Floor

/-!
# Properties C135, C136: the power of a speckle pattern and its statistics
-/

namespace Lasy
open Spec Phys Complex MeasureTheory ProbabilityTheory

/-! ## What `evaluate` computes on a mesh -/

/-- the pattern is a number only if all beamlets are -/
theorem pattern_some (p : Speckle) (d : Draws) {bca : Fin p.n0 → Fin p.n1 → Option ℂ} {xi yj xij yij : ℝ} {z : ℂ}
    (h : p.pattern d bca xi yj xij yij = some z) :
    (p.withEnvelope = true → 0 < p.n0 ∧ 0 < p.n1) ∧ ∃ b : Fin p.n0 → Fin p.n1 → ℂ, ∀ m l, bca m l = some (b m l) := by
  have key : ∀ f : Fin p.n0 → Fin p.n1 → ℂ → ℂ, ∀ w, Speckle.nanSum (fun m l => (bca m l).map (f m l)) = some w →
      ∀ m l, (bca m l).isSome := by
    intro f w hw m l
    unfold Speckle.nanSum at hw
    split at hw
    · rename_i hall
      simpa using hall m l
    · cases hw
  unfold Speckle.pattern at h
  simp only at h
  split at h
  · cases h
  rename_i hN
  refine ⟨fun h1 => by by_contra h2; exact hN ⟨h1, by omega⟩, ?_⟩
  have hall : ∀ m l, (bca m l).isSome := by
    split at h
    · rw [Option.map_eq_some_iff] at h
      obtain ⟨w, hw, -⟩ := h
      exact key _ w hw
    · exact key _ z h
  exact ⟨fun m l => (bca m l).get (hall m l), fun m l => (Option.some_get _).symm⟩

variable [Phys]

/-- the draws used for anything but the phase plate -/
def Draws.SameSmoothing (d d' : Draws) : Prop := d.dephasing = d'.dephasing ∧ d.pm0 = d'.pm0 ∧ d.pm1 = d'.pm1

omit [Phys] in
theorem series_congr (p : Speckle) (hp : p.smoothing ≠ .gpISI) {d d' : Draws} (h : d.SameSmoothing d') (n : ℕ) :
    p.series d n = p.series d' n := by
  unfold Speckle.series
  split
  · simp only [Speckle.ssdSeries, h.2.1, h.2.2]
  · exact absurd (by assumption) hp
  · rfl

omit [Phys] in
theorem beamlet_congr (p : Speckle) {d d' : Draws} (h : d.SameSmoothing d') (s : p.Series) (t : ℝ) (m : Fin p.n0)
    (l : Fin p.n1) : p.beamlet d s t m l = p.beamlet d' s t m l := by
  unfold Speckle.beamlet
  rw [h.1]

/-- a successful `evaluate` on a mesh, without ISI: at each time the field is the documented sum over beamlets of modulus
1, which do not depend on the phase plate -/
theorem evaluate_mesh_inv (p : Speckle) (hp : p.smoothing ≠ .gpISI) (d : Draws) {a b c' : ℕ} (xg : Fin a → ℝ)
    (yg : Fin b → ℝ) (tg : Fin c' → ℝ) (e : Fin a → Fin b → Fin c' → ℂ)
    (h : p.evaluate d (fun i (_ : Fin b) (_ : Fin c') => xg i) (fun (_ : Fin a) j _ => yg j) (fun _ _ k => tg k) =
      .ok fun i j k => some (e i j k)) :
    ∃ bc : Fin c' → Fin p.n0 → Fin p.n1 → ℂ, (∀ k m l, ‖bc k m l‖ = 1) ∧
      (∀ i j k, e i j k = speckleField p.lambda0 p.focalLength p.aperture.1 p.aperture.2 p.withEnvelope (bc k)
        (p.phasePlate d) (fun _ _ => 0) (xg i) (yg j)) ∧
      ∀ d' : Draws, d.SameSmoothing d' →
        p.evaluate d' (fun i (_ : Fin b) (_ : Fin c') => xg i) (fun (_ : Fin a) j _ => yg j) (fun _ _ k => tg k) =
          .ok fun i j k => some (speckleField p.lambda0 p.focalLength p.aperture.1 p.aperture.2 p.withEnvelope (bc k)
            (p.phasePlate d') (fun _ _ => 0) (xg i) (yg j)) := by
  obtain ⟨h0, s, bc, hs, hbc, hE⟩ := evaluate_inv p d h
  obtain ⟨ha, hb, hc⟩ := h0
  have hsome : ∀ k, ∃ bk : Fin p.n0 → Fin p.n1 → ℂ, ∀ m l, bc k m l = some (bk m l) := fun k =>
    (pattern_some p d (hE ⟨0, ha⟩ ⟨0, hb⟩ k).symm).2
  have hN := (pattern_some p d (hE ⟨0, ha⟩ ⟨0, hb⟩ ⟨0, hc⟩).symm).1
  choose bk hbk using hsome
  refine ⟨bk, ?_, ?_, ?_⟩
  · intro k m l
    exact beamlet_norm p hp d s _ m l ((hbc k m l).trans (congrArg Except.ok (hbk k m l)))
  · intro i j k
    have := hE i j k
    rw [show bc k = fun m l => some (bk k m l) from funext fun m => funext fun l => hbk k m l, pattern_eq p hN] at this
    exact Option.some.inj this
  · intro d' hd
    obtain ⟨n, rfl⟩ : ∃ n, c' = n + 1 := ⟨c' - 1, by omega⟩
    refine evaluate_mesh p hN d' ha hb xg yg tg (s := s) ?_ (bc := bk) ?_
    · rw [← series_congr p hp hd]
      exact hs
    · intro k m l
      rw [← beamlet_congr p hd, ← hbk]
      exact hbc k m l

omit [Phys] in
/-- the wave numbers of the beamlets, at a distance `q λ f / D` from the point `x` -/
theorem focusK_step {lam f D : ℝ} (hl : lam ≠ 0) (hf : f ≠ 0) (hD : D ≠ 0) {N : ℕ} (hN : N ≠ 0) (m : ℕ) (x q : ℝ) :
    focusK lam f (beamletCentre D N m) * (x + q * (lam * f / D)) =
      focusK lam f (beamletCentre D N m) * x + -(2 * Real.pi * q * (m + 1 / 2 - (N : ℝ) / 2) / N) := by
  have hN' : (N : ℝ) ≠ 0 := by exact_mod_cast hN
  unfold focusK beamletCentre
  field_simp
  ring

/-! ## C135: one period of the pattern -/

omit [Phys] in
/-- an orthogonal matrix of phase factors keeps the sum of squares -/
theorem unitary_sum {N : ℕ} (V : Fin N → Fin N → ℂ)
    (hV : ∀ m m', ∑ i, V i m * (starRingEnd ℂ) (V i m') = if m = m' then (N : ℂ) else 0) (w : Fin N → ℂ) :
    ∑ i, ‖∑ m, V i m * w m‖ ^ 2 = N * ∑ m, ‖w m‖ ^ 2 := by
  have e : ∀ z : ℂ, ((‖z‖ ^ 2 : ℝ) : ℂ) = z * (starRingEnd ℂ) z := fun z => by
    rw [Complex.mul_conj, Complex.normSq_eq_norm_sq]
  have : ((∑ i, ‖∑ m, V i m * w m‖ ^ 2 : ℝ) : ℂ) = ((N * ∑ m, ‖w m‖ ^ 2 : ℝ) : ℂ) := by
    rw [Complex.ofReal_sum]
    simp only [e]
    have h1 : ∀ i, (∑ m, V i m * w m) * (starRingEnd ℂ) (∑ m, V i m * w m) =
        ∑ m, ∑ m', (w m * (starRingEnd ℂ) (w m')) * (V i m * (starRingEnd ℂ) (V i m')) := fun i => by
      rw [map_sum, Finset.sum_mul_sum]
      refine Finset.sum_congr rfl fun m _ => Finset.sum_congr rfl fun m' _ => ?_
      rw [map_mul]; ring
    simp only [h1]
    rw [Finset.sum_comm]
    simp only [Finset.sum_comm (s := Finset.univ (α := Fin N)) (t := Finset.univ) (f := fun i m' =>
      (w _ * (starRingEnd ℂ) (w m')) * (V i _ * (starRingEnd ℂ) (V i m'))), ← Finset.mul_sum, hV]
    simp only [mul_ite, mul_zero, Finset.sum_ite_eq, Finset.mem_univ, if_true]
    rw [← Finset.sum_mul]
    simp only [← e]
    push_cast
    ring
  exact_mod_cast this

omit [Phys] in
/-- the phase factors of the beamlets at points `λ f / D` apart are orthogonal -/
theorem focus_orthogonal {lam f D : ℝ} (hl : lam ≠ 0) (hf : f ≠ 0) (hD : D ≠ 0) {N : ℕ} (x : ℝ) (m m' : Fin N) :
    ∑ i : Fin N, exp (I * ((focusK lam f (beamletCentre D N m) * (x + (i : ℕ) * (lam * f / D)) : ℝ) : ℂ)) *
      (starRingEnd ℂ) (exp (I * ((focusK lam f (beamletCentre D N m') * (x + (i : ℕ) * (lam * f / D)) : ℝ) : ℂ))) =
      if m = m' then (N : ℂ) else 0 := by
  have hN : N ≠ 0 := by have := m.2; omega
  have hN' : (N : ℂ) ≠ 0 := by exact_mod_cast hN
  have hterm : ∀ i : Fin N, exp (I * ((focusK lam f (beamletCentre D N m) * (x + (i : ℕ) * (lam * f / D)) : ℝ) : ℂ)) *
      (starRingEnd ℂ) (exp (I * ((focusK lam f (beamletCentre D N m') * (x + (i : ℕ) * (lam * f / D)) : ℝ) : ℂ))) =
      exp (I * ((focusK lam f (beamletCentre D N m) * x - focusK lam f (beamletCentre D N m') * x : ℝ) : ℂ)) *
        chr N ((i : ℕ) * ((m' : ℕ) - (m : ℕ) : ℤ)) := by
    intro i
    rw [focusK_step hl hf hD hN, focusK_step hl hf hD hN, ← Complex.exp_conj, ← Complex.exp_add, chr, ← Complex.exp_add]
    congr 1
    simp only [map_mul, Complex.conj_I, Complex.conj_ofReal]
    push_cast
    field_simp
    ring
  simp only [hterm]
  rw [← Finset.mul_sum, sum_chr hN]
  have hdvd := Fin.dvd_sub_iff m' m
  by_cases h : m = m'
  · subst h
    simp
  · rw [if_neg h, if_neg (fun h' => h (hdvd.1 h').symm), mul_zero]

omit [Phys] in
/-- the sum over beamlets at a grid of points `λ f / D` apart -/
theorem speckleSum_parseval {lam f D0 D1 : ℝ} (hl : lam ≠ 0) (hf : f ≠ 0) (hD : D0 ≠ 0 ∧ D1 ≠ 0) {N0 N1 : ℕ}
    (A : Fin N0 → Fin N1 → ℂ) (φ ψ : Fin N0 → Fin N1 → ℝ) (x y : ℝ) :
    ∑ i : Fin N0, ∑ j : Fin N1, ‖speckleSum lam f D0 D1 A φ ψ (x + (i : ℕ) * (lam * f / D0)) (y + (j : ℕ) * (lam * f / D1))‖ ^ 2 =
      N0 * N1 * ∑ m, ∑ l, ‖A m l‖ ^ 2 := by
  set V : Fin N0 → Fin N0 → ℂ := fun i m =>
    exp (I * ((focusK lam f (beamletCentre D0 N0 m) * (x + (i : ℕ) * (lam * f / D0)) : ℝ) : ℂ)) with hV
  set W : Fin N1 → Fin N1 → ℂ := fun j l =>
    exp (I * ((focusK lam f (beamletCentre D1 N1 l) * (y + (j : ℕ) * (lam * f / D1)) : ℝ) : ℂ)) with hW
  set B : Fin N0 → Fin N1 → ℂ := fun m l => A m l * exp (I * ((φ m l + ψ m l : ℝ) : ℂ)) with hB
  have hs : ∀ (i : Fin N0) (j : Fin N1), speckleSum lam f D0 D1 A φ ψ (x + (i : ℕ) * (lam * f / D0)) (y + (j : ℕ) * (lam * f / D1)) =
      ∑ m, V i m * ∑ l, W j l * B m l := by
    intro i j
    unfold speckleSum
    refine Finset.sum_congr rfl fun m _ => ?_
    rw [Finset.mul_sum]
    refine Finset.sum_congr rfl fun l _ => ?_
    have : ∀ a b c d : ℝ, exp (I * ((a + b + c + d : ℝ) : ℂ)) =
        exp (I * (a : ℂ)) * (exp (I * (b : ℂ)) * exp (I * ((c + d : ℝ) : ℂ))) := by
      intro a b c d
      rw [← Complex.exp_add, ← Complex.exp_add]
      congr 1
      push_cast
      ring
    rw [this]
    simp only [hV, hW, hB]
    ring
  simp only [hs]
  rw [Finset.sum_comm]
  simp only [unitary_sum V (fun m m' => focus_orthogonal hl hf hD.1 x m m')]
  rw [← Finset.mul_sum, Finset.sum_comm]
  simp only [unitary_sum W (fun m m' => focus_orthogonal hl hf hD.2 y m m')]
  rw [← Finset.mul_sum, ← mul_assoc]
  congr 1
  refine Finset.sum_congr rfl fun m _ => Finset.sum_congr rfl fun l _ => ?_
  rw [hB, norm_mul, mul_comm I, Complex.norm_exp_ofReal_mul_I, mul_one]

/-- **C135 (power).** Without the transverse envelope and for every smoothing without amplitude modulation: whatever was
drawn and at every time, the intensity summed over `n0 × n1` points which are `λ f / D` apart, wherever they start, is the
square of the number of beamlets; that is, the mean intensity over one period is the number of beamlets. -/
theorem C135_power (p : Speckle) (hp : p.smoothing ≠ .gpISI) (henv : p.withEnvelope = false)
    (hl : p.lambda0 ≠ 0) (hf : p.focalLength ≠ 0) (hD : p.aperture.1 ≠ 0 ∧ p.aperture.2 ≠ 0) (d : Draws) {c' : ℕ}
    (x0 y0 : ℝ) (tg : Fin c' → ℝ) (e : Fin p.n0 → Fin p.n1 → Fin c' → ℂ)
    (h : p.evaluate d (fun i _ _ => x0 + (i : ℕ) * (p.lambda0 * p.focalLength / p.aperture.1))
      (fun _ j _ => y0 + (j : ℕ) * (p.lambda0 * p.focalLength / p.aperture.2)) (fun _ _ k => tg k) =
      .ok fun i j k => some (e i j k)) (k : Fin c') :
    ∑ i, ∑ j, ‖e i j k‖ ^ 2 = ((p.n0 * p.n1 : ℕ) : ℝ) ^ 2 := by
  obtain ⟨bc, h1, he, -⟩ := evaluate_mesh_inv p hp d _ _ tg e h
  have : ∀ i j, ‖e i j k‖ ^ 2 = ‖speckleSum p.lambda0 p.focalLength p.aperture.1 p.aperture.2 (bc k) (p.phasePlate d)
      (fun _ _ => 0) (x0 + (i : ℕ) * (p.lambda0 * p.focalLength / p.aperture.1))
      (y0 + (j : ℕ) * (p.lambda0 * p.focalLength / p.aperture.2))‖ ^ 2 := by
    intro i j
    rw [he, speckleField, henv]
    simp
  simp only [this]
  rw [speckleSum_parseval hl hf hD]
  simp only [h1, one_pow, Finset.sum_const, Finset.card_univ, Fintype.card_fin, nsmul_eq_mul, mul_one]
  push_cast
  ring

/-- **C135 (period).** Without the transverse envelope, whatever was drawn: the intensity is the same at points whose
coordinates differ by whole multiples of the documented beam widths `λ f N / D`. -/
theorem C135_period (p : Speckle) (hp : p.smoothing ≠ .gpISI) (henv : p.withEnvelope = false)
    (hl : p.lambda0 ≠ 0) (hf : p.focalLength ≠ 0) (hD : p.aperture.1 ≠ 0 ∧ p.aperture.2 ≠ 0) (d : Draws) {a b c' : ℕ}
    (xg : Fin a → ℝ) (yg : Fin b → ℝ) (tg : Fin c' → ℝ) (e : Fin a → Fin b → Fin c' → ℂ)
    (h : p.evaluate d (fun i (_ : Fin b) (_ : Fin c') => xg i) (fun (_ : Fin a) j _ => yg j) (fun _ _ k => tg k) =
      .ok fun i j k => some (e i j k)) (i i' : Fin a) (j j' : Fin b) (q q' : ℤ)
    (hx : xg i' = xg i + q * beamWidth p.lambda0 p.focalLength p.aperture.1 p.n0)
    (hy : yg j' = yg j + q' * beamWidth p.lambda0 p.focalLength p.aperture.2 p.n1) (k : Fin c') :
    ‖e i' j' k‖ = ‖e i j k‖ := by
  obtain ⟨bc, -, he, -⟩ := evaluate_mesh_inv p hp d _ _ tg e h
  have hone : ∀ (D : ℝ), D ≠ 0 → ∀ (N : ℕ) (m : Fin N) (x : ℝ) (q : ℤ),
      exp (I * ((focusK p.lambda0 p.focalLength (beamletCentre D N m) *
        (x + q * beamWidth p.lambda0 p.focalLength D N) : ℝ) : ℂ)) =
      exp (I * ((focusK p.lambda0 p.focalLength (beamletCentre D N m) * x : ℝ) : ℂ)) *
        exp (I * ((Real.pi * (q * ((N : ℝ) - 1)) : ℝ) : ℂ)) := by
    intro D hD N m x q
    have hN : N ≠ 0 := by have := m.2; omega
    have hN' : (N : ℝ) ≠ 0 := by exact_mod_cast hN
    have hw : (x + q * beamWidth p.lambda0 p.focalLength D N) =
        x + (q * N) * (p.lambda0 * p.focalLength / D) := by
      unfold beamWidth
      ring
    rw [hw, focusK_step hl hf hD hN, ← Complex.exp_add, Complex.exp_eq_exp_iff_exists_int]
    refine ⟨-(q * (m : ℕ)), ?_⟩
    have : (2 * Real.pi * (q * N) * ((m : ℕ) + 1 / 2 - (N : ℝ) / 2) / N) =
        2 * Real.pi * q * ((m : ℕ) + 1 / 2 - (N : ℝ) / 2) := by
      field_simp
    rw [this]
    push_cast
    ring
  have key : speckleSum p.lambda0 p.focalLength p.aperture.1 p.aperture.2 (bc k) (p.phasePlate d) (fun _ _ => 0)
      (xg i') (yg j') = exp (I * ((Real.pi * (q * ((p.n0 : ℝ) - 1)) : ℝ) : ℂ)) *
        exp (I * ((Real.pi * (q' * ((p.n1 : ℝ) - 1)) : ℝ) : ℂ)) *
        speckleSum p.lambda0 p.focalLength p.aperture.1 p.aperture.2 (bc k) (p.phasePlate d) (fun _ _ => 0)
          (xg i) (yg j) := by
    unfold speckleSum
    rw [Finset.mul_sum]
    refine Finset.sum_congr rfl fun m _ => ?_
    rw [Finset.mul_sum]
    refine Finset.sum_congr rfl fun l _ => ?_
    have hsplit : ∀ a b c d : ℝ, exp (I * ((a + b + c + d : ℝ) : ℂ)) =
        exp (I * (a : ℂ)) * (exp (I * (b : ℂ)) * exp (I * ((c + d : ℝ) : ℂ))) := by
      intro a b c d
      rw [← Complex.exp_add, ← Complex.exp_add]
      congr 1
      push_cast
      ring
    rw [hsplit, hsplit, hx, hy, hone _ hD.1, hone _ hD.2]
    ring
  rw [he, he]
  unfold speckleField
  rw [henv, key]
  simp only [Bool.false_eq_true, if_false, one_mul, norm_mul]
  rw [mul_comm I, mul_comm I, Complex.norm_exp_ofReal_mul_I, Complex.norm_exp_ofReal_mul_I]
  ring

/-! ## C136: statistics over the phase plates -/

variable {Ω : Type*} [MeasurableSpace Ω] {P : Measure Ω} [IsProbabilityMeasure P]

/-- The draws of a random continuous phase plate of `N0 × N1` elements: independent numbers, uniform in `[0, 1)`. Whatever
else is drawn is held fixed. -/
structure Spec.UniformPlate (P : Measure Ω) (N0 N1 : ℕ) (d : Ω → Draws) : Prop where
  measurable : ∀ m l, Measurable fun ω => (d ω).uniform m l
  uniform : ∀ (m : Fin N0) (l : Fin N1), P.map (fun ω => (d ω).uniform m l) = volume.restrict (Set.Ico 0 1)
  indep : iIndepFun (fun (q : Fin N0 × Fin N1) ω => (d ω).uniform q.1 q.2) P
  fixed : ∀ ω ω', (d ω).dephasing = (d ω').dephasing ∧ (d ω).pm0 = (d ω').pm0 ∧ (d ω).pm1 = (d ω').pm1

/-- The draws of a random phase plate of `N0 × N1` elements: independent tosses of a fair coin. Whatever else is drawn is
held fixed. -/
structure Spec.FairPlate (P : Measure Ω) (N0 N1 : ℕ) (d : Ω → Draws) : Prop where
  measurable : ∀ m l, Measurable fun ω => (d ω).choice m l
  fair : ∀ (m : Fin N0) (l : Fin N1), P.real {ω | (d ω).choice m l = true} = 1 / 2
  indep : iIndepFun (fun (q : Fin N0 × Fin N1) ω => (d ω).choice q.1 q.2) P
  fixed : ∀ ω ω', (d ω).dephasing = (d ω').dephasing ∧ (d ω).pm0 = (d ω').pm0 ∧ (d ω).pm1 = (d ω').pm1

/-- the documented transverse envelope, or 1 -/
noncomputable def Spec.speckleEnvelope (lam f D0 D1 : ℝ) (env : Bool) (N0 N1 : ℕ) (x y : ℝ) : ℝ :=
  if env then Real.sinc (Real.pi * x / beamWidth lam f D0 N0) * Real.sinc (Real.pi * y / beamWidth lam f D1 N1) else 1

/-- the phase plate as phase factors -/
noncomputable def plateFactor (p : Speckle) (d : Ω → Draws) (q : Fin p.n0 × Fin p.n1) (ω : Ω) : ℂ :=
  exp (I * (p.phasePlate (d ω) q.1 q.2 : ℝ))

omit [MeasurableSpace Ω] in
/-- the field as a weighted sum of phase factors, the weights having the modulus of the envelope -/
theorem field_phasors (p : Speckle) (hp : p.smoothing ≠ .gpISI) (d : Ω → Draws)
    (hfix : ∀ ω ω', (d ω).dephasing = (d ω').dephasing ∧ (d ω).pm0 = (d ω').pm0 ∧ (d ω).pm1 = (d ω').pm1) {a b c' : ℕ}
    (xg : Fin a → ℝ) (yg : Fin b → ℝ) (tg : Fin c' → ℝ) (e : Ω → Fin a → Fin b → Fin c' → ℂ) (ω0 : Ω)
    (h : ∀ ω, p.evaluate (d ω) (fun i (_ : Fin b) (_ : Fin c') => xg i) (fun (_ : Fin a) j _ => yg j) (fun _ _ k => tg k) =
      .ok fun i j k => some (e ω i j k)) :
    ∃ w : Fin a → Fin b → Fin c' → Fin p.n0 × Fin p.n1 → ℂ,
      (∀ ω i j k, e ω i j k = ∑ q, w i j k q * plateFactor p d q ω) ∧
      ∀ i j k i' j' q, w i j k q * (starRingEnd ℂ) (w i' j' k q) =
        ((speckleEnvelope p.lambda0 p.focalLength p.aperture.1 p.aperture.2 p.withEnvelope p.n0 p.n1 (xg i) (yg j) *
          speckleEnvelope p.lambda0 p.focalLength p.aperture.1 p.aperture.2 p.withEnvelope p.n0 p.n1 (xg i') (yg j') : ℝ) : ℂ) *
        exp (I * ((focusK p.lambda0 p.focalLength (beamletCentre p.aperture.1 p.n0 q.1) * (xg i - xg i') +
          focusK p.lambda0 p.focalLength (beamletCentre p.aperture.2 p.n1 q.2) * (yg j - yg j') : ℝ) : ℂ)) := by
  obtain ⟨bc, h1, -, hall⟩ := evaluate_mesh_inv p hp (d ω0) xg yg tg (e ω0) (h ω0)
  have he : ∀ ω i j k, e ω i j k = speckleField p.lambda0 p.focalLength p.aperture.1 p.aperture.2 p.withEnvelope (bc k)
      (p.phasePlate (d ω)) (fun _ _ => 0) (xg i) (yg j) := by
    intro ω i j k
    have h' := (h ω).symm.trans (hall (d ω) (hfix ω0 ω))
    have := congrFun (congrFun (congrFun (Except.ok.inj h') i) j) k
    exact Option.some.inj this
  refine ⟨fun i j k q => (speckleEnvelope p.lambda0 p.focalLength p.aperture.1 p.aperture.2 p.withEnvelope p.n0 p.n1
    (xg i) (yg j) : ℂ) * bc k q.1 q.2 * exp (I * ((focusK p.lambda0 p.focalLength (beamletCentre p.aperture.1 p.n0 q.1) * xg i +
      focusK p.lambda0 p.focalLength (beamletCentre p.aperture.2 p.n1 q.2) * yg j : ℝ) : ℂ)), ?_, ?_⟩
  · intro ω i j k
    rw [he, Fintype.sum_prod_type]
    unfold speckleField speckleSum speckleEnvelope plateFactor
    rw [Finset.mul_sum]
    refine Finset.sum_congr rfl fun m _ => ?_
    rw [Finset.mul_sum]
    refine Finset.sum_congr rfl fun l _ => ?_
    have hs : ∀ u v φ : ℝ, exp (I * ((u + v + φ + 0 : ℝ) : ℂ)) = exp (I * ((u + v : ℝ) : ℂ)) * exp (I * (φ : ℂ)) := by
      intro u v φ
      rw [← Complex.exp_add]
      congr 1
      push_cast
      ring
    rw [hs]
    cases p.withEnvelope <;> simp only [Bool.false_eq_true, if_false, if_true] <;> push_cast <;> ring
  · intro i j k i' j' q
    have hb : bc k q.1 q.2 * (starRingEnd ℂ) (bc k q.1 q.2) = 1 := by
      rw [Complex.mul_conj, Complex.normSq_eq_norm_sq, h1]; simp
    have hx : ∀ u v u' v' k k' : ℝ, exp (I * ((k * u + k' * v : ℝ) : ℂ)) *
        (starRingEnd ℂ) (exp (I * ((k * u' + k' * v' : ℝ) : ℂ))) = exp (I * ((k * (u - u') + k' * (v - v') : ℝ) : ℂ)) := by
      intro u v u' v' k k'
      rw [← Complex.exp_conj, ← Complex.exp_add]
      congr 1
      simp only [map_mul, Complex.conj_I, Complex.conj_ofReal]
      push_cast
      ring
    rw [← hx]
    simp only [map_mul, Complex.conj_ofReal, Complex.ofReal_mul]
    linear_combination (((speckleEnvelope p.lambda0 p.focalLength p.aperture.1 p.aperture.2 p.withEnvelope p.n0 p.n1 (xg i) (yg j) : ℝ) : ℂ) *
      ((speckleEnvelope p.lambda0 p.focalLength p.aperture.1 p.aperture.2 p.withEnvelope p.n0 p.n1 (xg i') (yg j') : ℝ) : ℂ) *
      exp (I * ((focusK p.lambda0 p.focalLength (beamletCentre p.aperture.1 p.n0 q.1) * xg i +
      focusK p.lambda0 p.focalLength (beamletCentre p.aperture.2 p.n1 q.2) * yg j : ℝ) : ℂ)) *
      (starRingEnd ℂ) (exp (I * ((focusK p.lambda0 p.focalLength (beamletCentre p.aperture.1 p.n0 q.1) * xg i' +
      focusK p.lambda0 p.focalLength (beamletCentre p.aperture.2 p.n1 q.2) * yg j' : ℝ) : ℂ)))) * hb

omit [Phys] in
/-- the random phase factors of a continuous plate -/
theorem uniform_plate (p : Speckle) (hp : p.smoothing = .cpp ∨ p.smoothing = .fmSSD ∨ p.smoothing = .gpSSD) (d : Ω → Draws)
    (hd : UniformPlate P p.n0 p.n1 d) :
    (∀ q, Measurable (plateFactor p d q)) ∧ iIndepFun (plateFactor p d) P ∧ (∀ q ω, ‖plateFactor p d q ω‖ = 1) ∧
      (∀ q, ∫ ω, plateFactor p d q ω ∂P = 0) ∧ ∀ q, ∫ ω, plateFactor p d q ω ^ 2 ∂P = 0 := by
  have heq : ∀ q ω, plateFactor p d q ω = exp (I * ((-Real.pi + 2 * Real.pi * (d ω).uniform q.1 q.2 : ℝ) : ℂ)) := by
    intro q ω
    unfold plateFactor
    rw [(C62_plate p (d ω) q.1 q.2).2.1 hp]
    congr 3
    ring
  have hg : Measurable fun x : ℝ => exp (I * ((-Real.pi + 2 * Real.pi * x : ℝ) : ℂ)) := by fun_prop
  have hfun : plateFactor p d = fun q ω => exp (I * ((-Real.pi + 2 * Real.pi * (d ω).uniform q.1 q.2 : ℝ) : ℂ)) :=
    funext fun q => funext fun ω => heq q ω
  refine ⟨fun q => ?_, ?_, fun q ω => ?_, fun q => ?_, fun q => ?_⟩
  · rw [hfun]
    exact hg.comp (hd.measurable q.1 q.2)
  · rw [hfun]
    exact hd.indep.comp (fun _ x => exp (I * ((-Real.pi + 2 * Real.pi * x : ℝ) : ℂ))) fun _ => hg
  · rw [heq, mul_comm I, Complex.norm_exp_ofReal_mul_I]
  · have := uniform_phasor (hd.measurable q.1 q.2) (hd.uniform q.1 q.2) (-Real.pi) 1 one_ne_zero
    simpa only [heq, pow_one] using this
  · have := uniform_phasor (hd.measurable q.1 q.2) (hd.uniform q.1 q.2) (-Real.pi) 2 two_ne_zero
    simpa only [heq] using this

omit [Phys] in
/-- the random phase factors of a plate with two phases -/
theorem fair_plate (p : Speckle) (hp : p.smoothing = .rpp) (d : Ω → Draws) (hd : FairPlate P p.n0 p.n1 d) :
    (∀ q, Measurable (plateFactor p d q)) ∧ iIndepFun (plateFactor p d) P ∧ (∀ q ω, ‖plateFactor p d q ω‖ = 1) ∧
      ∀ q, ∫ ω, plateFactor p d q ω ∂P = 0 := by
  have heq : ∀ q ω, plateFactor p d q ω = (fun b : Bool => if b then (-1 : ℂ) else 1) ((d ω).choice q.1 q.2) := by
    intro q ω
    unfold plateFactor Speckle.phasePlate
    rw [hp]
    cases (d ω).choice q.1 q.2
    · simp
    · simp only [if_true]
      rw [mul_comm, Complex.exp_pi_mul_I]
  have hfun : plateFactor p d = fun q ω => (fun b : Bool => if b then (-1 : ℂ) else 1) ((d ω).choice q.1 q.2) :=
    funext fun q => funext fun ω => heq q ω
  have hg : Measurable fun b : Bool => if b then (-1 : ℂ) else 1 := measurable_of_countable _
  refine ⟨fun q => ?_, ?_, fun q ω => ?_, fun q => ?_⟩
  · rw [hfun]
    exact hg.comp (hd.measurable q.1 q.2)
  · rw [hfun]
    exact hd.indep.comp (fun _ b => if b then (-1 : ℂ) else 1) fun _ => hg
  · rw [heq]
    cases (d ω).choice q.1 q.2 <;> simp
  · have hset : MeasurableSet {ω | (d ω).choice q.1 q.2 = true} := hd.measurable q.1 q.2 (MeasurableSet.singleton true)
    have e1 : ∀ ω, plateFactor p d q ω = 1 - Set.indicator {ω | (d ω).choice q.1 q.2 = true} (fun _ => (2 : ℂ)) ω := by
      intro ω
      rw [heq]
      by_cases h : (d ω).choice q.1 q.2 = true
      · simp [Set.indicator, h]; norm_num
      · simp [Set.indicator, h]
    simp only [e1]
    rw [integral_sub (integrable_const _) ((integrable_const _).indicator hset), integral_indicator_const _ hset, hd.fair]
    simp

omit [Phys] in
/-- what the theorems below need of the phase factors -/
theorem plate_moments (p : Speckle) (d : Ω → Draws)
    (hd : p.smoothing = .rpp ∧ FairPlate P p.n0 p.n1 d ∨
      (p.smoothing = .cpp ∨ p.smoothing = .fmSSD ∨ p.smoothing = .gpSSD) ∧ UniformPlate P p.n0 p.n1 d) :
    p.smoothing ≠ .gpISI ∧
    (∀ ω ω', (d ω).dephasing = (d ω').dephasing ∧ (d ω).pm0 = (d ω').pm0 ∧ (d ω).pm1 = (d ω').pm1) ∧
    (∀ q, Measurable (plateFactor p d q)) ∧ iIndepFun (plateFactor p d) P ∧ (∀ q ω, ‖plateFactor p d q ω‖ = 1) ∧
      ∀ q, ∫ ω, plateFactor p d q ω ∂P = 0 := by
  rcases hd with ⟨h, hd⟩ | ⟨h, hd⟩
  · obtain ⟨h1, h2, h3, h4⟩ := fair_plate p h d hd
    exact ⟨by simp [h], hd.fixed, h1, h2, h3, h4⟩
  · obtain ⟨h1, h2, h3, h4, -⟩ := uniform_plate p h d hd
    exact ⟨by rcases h with h | h | h <;> simp [h], hd.fixed, h1, h2, h3, h4⟩

/-- **C136 (correlation).** For random phase plates (RPP) and continuous phase plates (CPP, also under either SSD): on
average over the phase plates, at every time, the field is zero everywhere, and the product of the field at one point and
the conjugate field at another one is the product of the envelopes and of the sum over the beamlets of the phase
differences between the two points; the phases of the beamlets due to the smoothing drop out. -/
theorem C136_correlation (p : Speckle) (d : Ω → Draws)
    (hd : p.smoothing = .rpp ∧ FairPlate P p.n0 p.n1 d ∨
      (p.smoothing = .cpp ∨ p.smoothing = .fmSSD ∨ p.smoothing = .gpSSD) ∧ UniformPlate P p.n0 p.n1 d) {a b c' : ℕ}
    (xg : Fin a → ℝ) (yg : Fin b → ℝ) (tg : Fin c' → ℝ) (e : Ω → Fin a → Fin b → Fin c' → ℂ)
    (h : ∀ ω, p.evaluate (d ω) (fun i (_ : Fin b) (_ : Fin c') => xg i) (fun (_ : Fin a) j _ => yg j) (fun _ _ k => tg k) =
      .ok fun i j k => some (e ω i j k)) (i i' : Fin a) (j j' : Fin b) (k : Fin c') :
    ∫ ω, e ω i j k ∂P = 0 ∧
    ∫ ω, e ω i j k * (starRingEnd ℂ) (e ω i' j' k) ∂P =
      ((speckleEnvelope p.lambda0 p.focalLength p.aperture.1 p.aperture.2 p.withEnvelope p.n0 p.n1 (xg i) (yg j) *
        speckleEnvelope p.lambda0 p.focalLength p.aperture.1 p.aperture.2 p.withEnvelope p.n0 p.n1 (xg i') (yg j') : ℝ) : ℂ) *
      (∑ m : Fin p.n0, exp (I * ((focusK p.lambda0 p.focalLength (beamletCentre p.aperture.1 p.n0 m) * (xg i - xg i') : ℝ) : ℂ))) *
      ∑ l : Fin p.n1, exp (I * ((focusK p.lambda0 p.focalLength (beamletCentre p.aperture.2 p.n1 l) * (yg j - yg j') : ℝ) : ℂ)) := by
  obtain ⟨hp, hfix, hm, hi, h1, h0⟩ := plate_moments p d hd
  obtain ⟨w, hw, hww⟩ := field_phasors p hp d hfix xg yg tg e (Classical.choice (nonempty_of_isProbabilityMeasure P)) h
  refine ⟨?_, ?_⟩
  · simp only [hw]
    exact phasor_mean hm h1 h0 _
  · simp only [hw]
    rw [phasor_corr hm hi h1 h0]
    simp only [hww]
    rw [← Finset.mul_sum, mul_assoc, Fintype.sum_prod_type, Finset.sum_mul_sum]
    congr 1
    refine Finset.sum_congr rfl fun m _ => Finset.sum_congr rfl fun l _ => ?_
    rw [← Complex.exp_add]
    congr 1
    push_cast
    ring

/-- **C136 (mean intensity).** On average over the phase plates, at every time and place, the intensity is the number of
beamlets times the square of the documented envelope: no trace of the beamlets' interference or of the smoothing is left. -/
theorem C136_mean_intensity (p : Speckle) (d : Ω → Draws)
    (hd : p.smoothing = .rpp ∧ FairPlate P p.n0 p.n1 d ∨
      (p.smoothing = .cpp ∨ p.smoothing = .fmSSD ∨ p.smoothing = .gpSSD) ∧ UniformPlate P p.n0 p.n1 d) {a b c' : ℕ}
    (xg : Fin a → ℝ) (yg : Fin b → ℝ) (tg : Fin c' → ℝ) (e : Ω → Fin a → Fin b → Fin c' → ℂ)
    (h : ∀ ω, p.evaluate (d ω) (fun i (_ : Fin b) (_ : Fin c') => xg i) (fun (_ : Fin a) j _ => yg j) (fun _ _ k => tg k) =
      .ok fun i j k => some (e ω i j k)) (i : Fin a) (j : Fin b) (k : Fin c') :
    ∫ ω, ‖e ω i j k‖ ^ 2 ∂P = p.n0 * p.n1 *
      speckleEnvelope p.lambda0 p.focalLength p.aperture.1 p.aperture.2 p.withEnvelope p.n0 p.n1 (xg i) (yg j) ^ 2 := by
  have hc := (C136_correlation p d hd xg yg tg e h i i j j k).2
  have e2 : ∀ z : ℂ, z * (starRingEnd ℂ) z = ((‖z‖ ^ 2 : ℝ) : ℂ) := fun z => by
    rw [Complex.mul_conj, Complex.normSq_eq_norm_sq]
  simp only [e2] at hc
  rw [integral_complex_ofReal] at hc
  simp only [sub_self, mul_zero, Complex.ofReal_zero, Complex.exp_zero, Finset.sum_const, Finset.card_univ,
    Fintype.card_fin, nsmul_eq_mul, mul_one] at hc
  have : ((∫ ω, ‖e ω i j k‖ ^ 2 ∂P : ℝ) : ℂ) = ((p.n0 * p.n1 *
      speckleEnvelope p.lambda0 p.focalLength p.aperture.1 p.aperture.2 p.withEnvelope p.n0 p.n1 (xg i) (yg j) ^ 2 : ℝ) : ℂ) := by
    rw [hc]
    push_cast
    ring
  exact_mod_cast this

/-- **C136 (speckle width).** The fields at two points whose `x` coordinates differ by a whole multiple of `λ f / D`, not a
multiple of the beam width, are uncorrelated (and likewise for `y`). -/
theorem C136_width (p : Speckle) (hl : p.lambda0 ≠ 0) (hf : p.focalLength ≠ 0) (hD : p.aperture.1 ≠ 0 ∧ p.aperture.2 ≠ 0)
    (d : Ω → Draws)
    (hd : p.smoothing = .rpp ∧ FairPlate P p.n0 p.n1 d ∨
      (p.smoothing = .cpp ∨ p.smoothing = .fmSSD ∨ p.smoothing = .gpSSD) ∧ UniformPlate P p.n0 p.n1 d) {a b c' : ℕ}
    (xg : Fin a → ℝ) (yg : Fin b → ℝ) (tg : Fin c' → ℝ) (e : Ω → Fin a → Fin b → Fin c' → ℂ)
    (h : ∀ ω, p.evaluate (d ω) (fun i (_ : Fin b) (_ : Fin c') => xg i) (fun (_ : Fin a) j _ => yg j) (fun _ _ k => tg k) =
      .ok fun i j k => some (e ω i j k)) (i i' : Fin a) (j j' : Fin b) (k : Fin c') (q : ℤ)
    (hq : xg i - xg i' = q * (p.lambda0 * p.focalLength / p.aperture.1) ∧ ¬ (p.n0 : ℤ) ∣ q ∨
      yg j - yg j' = q * (p.lambda0 * p.focalLength / p.aperture.2) ∧ ¬ (p.n1 : ℤ) ∣ q) :
    ∫ ω, e ω i j k * (starRingEnd ℂ) (e ω i' j' k) ∂P = 0 := by
  rw [(C136_correlation p d hd xg yg tg e h i i' j j' k).2]
  have hzero : ∀ (D : ℝ), D ≠ 0 → ∀ (N : ℕ), ¬ (N : ℤ) ∣ q →
      ∑ m : Fin N, exp (I * ((focusK p.lambda0 p.focalLength (beamletCentre D N m) *
        (q * (p.lambda0 * p.focalLength / D)) : ℝ) : ℂ)) = 0 := by
    intro D hD N hN
    rcases Nat.eq_zero_or_pos N with rfl | hpos
    · simp
    have hN0 : N ≠ 0 := hpos.ne'
    have hN' : (N : ℂ) ≠ 0 := by exact_mod_cast hN0
    have ht : ∀ m : Fin N, exp (I * ((focusK p.lambda0 p.focalLength (beamletCentre D N m) *
        (q * (p.lambda0 * p.focalLength / D)) : ℝ) : ℂ)) =
        exp (-(I * ((2 * Real.pi * q * (1 / 2 - (N : ℝ) / 2) / N : ℝ) : ℂ))) * chr N ((m : ℕ) * (-q)) := by
      intro m
      have := focusK_step hl hf hD hN0 m 0 q
      rw [zero_add, mul_zero, zero_add] at this
      rw [this, chr, ← Complex.exp_add]
      congr 1
      push_cast
      field_simp
      ring
    simp only [ht]
    rw [← Finset.mul_sum, sum_chr hN0, if_neg (by rwa [Int.dvd_neg]), mul_zero]
  rcases hq with ⟨hx, hn⟩ | ⟨hy, hn⟩
  · rw [hx, hzero _ hD.1 _ hn]
    simp
  · rw [hy, hzero _ hD.2 _ hn]
    simp

/-- **C136 (contrast).** For continuous phase plates (also under either SSD) the mean of the squared intensity is
`2 - 1/N` times the square of the mean intensity, `N` being the number of beamlets: the relative fluctuations of the
intensity from one phase plate to another are `1 - 1/N` everywhere and at all times, 1 in the limit of many beamlets. -/
theorem C136_contrast (p : Speckle) (hp : p.smoothing = .cpp ∨ p.smoothing = .fmSSD ∨ p.smoothing = .gpSSD)
    (hn : p.n0 ≠ 0 ∧ p.n1 ≠ 0) (d : Ω → Draws) (hd : UniformPlate P p.n0 p.n1 d) {a b c' : ℕ}
    (xg : Fin a → ℝ) (yg : Fin b → ℝ) (tg : Fin c' → ℝ) (e : Ω → Fin a → Fin b → Fin c' → ℂ)
    (h : ∀ ω, p.evaluate (d ω) (fun i (_ : Fin b) (_ : Fin c') => xg i) (fun (_ : Fin a) j _ => yg j) (fun _ _ k => tg k) =
      .ok fun i j k => some (e ω i j k)) (i : Fin a) (j : Fin b) (k : Fin c') :
    ∫ ω, (‖e ω i j k‖ ^ 2) ^ 2 ∂P = (2 - 1 / ((p.n0 * p.n1 : ℕ) : ℝ)) * (∫ ω, ‖e ω i j k‖ ^ 2 ∂P) ^ 2 := by
  have hp' : p.smoothing ≠ .gpISI := by rcases hp with h | h | h <;> simp [h]
  obtain ⟨hm, hi, h1, h0, h2⟩ := uniform_plate p hp d hd
  rw [C136_mean_intensity p d (Or.inr ⟨hp, hd⟩) xg yg tg e h]
  obtain ⟨w, hw, hww⟩ := field_phasors p hp' d hd.fixed xg yg tg e
    (Classical.choice (nonempty_of_isProbabilityMeasure P)) h
  have hwn : ∀ q, ‖w i j k q‖ ^ 2 =
      speckleEnvelope p.lambda0 p.focalLength p.aperture.1 p.aperture.2 p.withEnvelope p.n0 p.n1 (xg i) (yg j) ^ 2 := by
    intro q
    have := hww i j k i j q
    rw [Complex.mul_conj, Complex.normSq_eq_norm_sq] at this
    simp only [sub_self, mul_zero, add_zero, Complex.ofReal_zero, Complex.exp_zero, mul_one] at this
    rw [Complex.ofReal_inj.1 this]
    ring
  have hwn4 : ∀ q, ‖w i j k q‖ ^ 4 =
      speckleEnvelope p.lambda0 p.focalLength p.aperture.1 p.aperture.2 p.withEnvelope p.n0 p.n1 (xg i) (yg j) ^ 4 := by
    intro q
    rw [show (4 : ℕ) = 2 * 2 from rfl, pow_mul, hwn, ← pow_mul]
  have e4 : ∀ z : ℂ, (‖z‖ ^ 2) ^ 2 = ‖z‖ ^ 4 := fun z => by rw [← pow_mul]
  simp only [e4, hw]
  rw [phasor_fourth hm hi h1 h0 h2]
  simp only [hwn, hwn4, Finset.sum_const, Finset.card_univ, Fintype.card_prod, Fintype.card_fin, nsmul_eq_mul]
  have hn' : (p.n0 : ℝ) ≠ 0 ∧ (p.n1 : ℝ) ≠ 0 := ⟨by exact_mod_cast hn.1, by exact_mod_cast hn.2⟩
  obtain ⟨ha, hb⟩ := hn'
  push_cast
  field_simp

/-! ## Cases which meet the hypotheses -/

omit [Phys] in
/-- uniform draws exist for every size of the plate -/
theorem uniformPlate_exists (N0 N1 : ℕ) : ∃ d : (Fin N0 × Fin N1 → ℝ) → Draws,
    UniformPlate (Measure.pi fun _ : Fin N0 × Fin N1 => (volume.restrict (Set.Ico 0 1) : Measure ℝ)) N0 N1 d := by
  have : IsProbabilityMeasure (volume.restrict (Set.Ico 0 1) : Measure ℝ) := ⟨by simp⟩
  refine ⟨fun ω => { exDraws with
    uniform := fun m l => if h : m < N0 ∧ l < N1 then Int.fract (ω (⟨m, h.1⟩, ⟨l, h.2⟩)) else 0
    uniform_mem := fun m l => by
      split
      · exact ⟨Int.fract_nonneg _, Int.fract_lt_one _⟩
      · exact ⟨le_rfl, zero_lt_one⟩ }, ?_, ?_, ?_, ?_⟩
  · intro m l
    by_cases h : m < N0 ∧ l < N1
    · simp only [h, and_self, dite_true]
      exact measurable_fract.comp (measurable_pi_apply _)
    · simp only [h, dite_false]
      exact measurable_const
  · intro m l
    simp only [m.2, l.2, and_self, dite_true]
    have h1 := (measurePreserving_eval (fun _ : Fin N0 × Fin N1 => (volume.restrict (Set.Ico 0 1) : Measure ℝ)) (m, l)).map_eq
    have h2 := Measure.map_map (μ := Measure.pi fun _ : Fin N0 × Fin N1 => (volume.restrict (Set.Ico 0 1) : Measure ℝ))
      (g := fun x : ℝ => Int.fract x) (f := Function.eval (m, l)) measurable_fract (measurable_pi_apply _)
    refine (show _ = _ from h2.symm).trans ?_
    rw [h1]
    have h3 : (fun x : ℝ => Int.fract x) =ᵐ[volume.restrict (Set.Ico 0 1)] id := by
      rw [Filter.EventuallyEq, ae_restrict_iff' measurableSet_Ico]
      exact Filter.Eventually.of_forall fun x hx => Int.fract_eq_self.2 hx
    rw [Measure.map_congr h3, Measure.map_id]
  · simp only [Fin.is_lt, and_self, dite_true]
    exact iIndepFun_pi (X := fun _ (x : ℝ) => Int.fract x) fun _ => measurable_fract.aemeasurable
  · intro ω ω'
    exact ⟨rfl, rfl, rfl⟩

/-- a fair coin -/
noncomputable def fairCoin : Measure Bool := (1 / 2 : ENNReal) • Measure.dirac true + (1 / 2 : ENNReal) • Measure.dirac false

instance : IsProbabilityMeasure fairCoin := ⟨by simp [fairCoin, ENNReal.inv_two_add_inv_two]⟩

omit [Phys] in
/-- tosses of a fair coin exist for every size of the plate -/
theorem fairPlate_exists (N0 N1 : ℕ) : ∃ d : (Fin N0 × Fin N1 → Bool) → Draws,
    FairPlate (Measure.pi fun _ : Fin N0 × Fin N1 => fairCoin) N0 N1 d := by
  refine ⟨fun ω => { exDraws with
    choice := fun m l => if h : m < N0 ∧ l < N1 then ω (⟨m, h.1⟩, ⟨l, h.2⟩) else false }, ?_, ?_, ?_, ?_⟩
  · intro m l
    by_cases h : m < N0 ∧ l < N1
    · simp only [h, and_self, dite_true]
      exact measurable_pi_apply _
    · simp only [h, dite_false]
      exact measurable_const
  · intro m l
    simp only [m.2, l.2, and_self, dite_true]
    have h1 := measurePreserving_eval (fun _ : Fin N0 × Fin N1 => fairCoin) (m, l)
    have h2 := h1.measureReal_preimage (s := {true}) (MeasurableSet.singleton true).nullMeasurableSet
    refine (show _ = _ from h2).trans ?_
    simp [fairCoin, Measure.real]
  · simp only [Fin.is_lt, and_self, dite_true]
    exact iIndepFun_pi (X := fun _ (x : Bool) => x) fun _ => measurable_id.aemeasurable
  · intro ω ω'
    exact ⟨rfl, rfl, rfl⟩

/-- the hypotheses of `C136_contrast` (and with it of `C136_mean_intensity`, `C136_correlation`) are met: continuous phase
plates of 4 × 3 elements, any mesh -/
example {a b n : ℕ} (ha : 0 < a) (hb : 0 < b) (xg : Fin a → ℝ) (yg : Fin b → ℝ) (tg : Fin (n + 1) → ℝ) :
    ∃ (Ω : Type) (_ : MeasurableSpace Ω) (P : Measure Ω) (_ : IsProbabilityMeasure P) (d : Ω → Draws)
      (_ : UniformPlate P (exBase .cpp).n0 (exBase .cpp).n1 d) (e : Ω → Fin a → Fin b → Fin (n + 1) → ℂ),
      (∀ ω, (exBase .cpp).evaluate (d ω) (fun i (_ : Fin b) (_ : Fin (n + 1)) => xg i) (fun (_ : Fin a) j _ => yg j)
        (fun _ _ k => tg k) = .ok fun i j k => some (e ω i j k)) ∧
      ∀ i j k, ∫ ω, ‖e ω i j k‖ ^ 2 ∂P = 12 ∧ ∫ ω, (‖e ω i j k‖ ^ 2) ^ 2 ∂P = 12 * 23 := by
  have : IsProbabilityMeasure (volume.restrict (Set.Ico 0 1) : Measure ℝ) := ⟨by simp⟩
  obtain ⟨d, hd⟩ := uniformPlate_exists (exBase .cpp).n0 (exBase .cpp).n1
  have h := fun ω => C62_static (exBase .cpp) (Or.inr rfl) (by norm_num [exBase]) (d ω) ha hb xg yg tg
  refine ⟨_, _, _, inferInstance, d, hd, _, h, fun i j k => ?_⟩
  have h1 := C136_mean_intensity (exBase .cpp) d (Or.inr ⟨Or.inl rfl, hd⟩) xg yg tg _ h i j k
  have h2 := C136_contrast (exBase .cpp) (Or.inl rfl) (by simp [exBase]) d hd xg yg tg _ h i j k
  have h3 : ((exBase .cpp).n0 : ℝ) * (exBase .cpp).n1 * speckleEnvelope (exBase .cpp).lambda0 (exBase .cpp).focalLength
      (exBase .cpp).aperture.1 (exBase .cpp).aperture.2 (exBase .cpp).withEnvelope (exBase .cpp).n0 (exBase .cpp).n1
      (xg i) (yg j) ^ 2 = 12 := by
    simp only [exBase, exPlate, speckleEnvelope]
    norm_num
  refine ⟨h1.trans h3, ?_⟩
  rw [h1, h3] at h2
  rw [h2]
  simp only [exBase]
  norm_num

/-- the hypotheses of `C136_width` are met: random phase plates of two elements, two points half a period apart -/
example {n : ℕ} (tg : Fin (n + 1) → ℝ) (k : Fin (n + 1)) :
    ∃ (Ω : Type) (_ : MeasurableSpace Ω) (P : Measure Ω) (_ : IsProbabilityMeasure P) (d : Ω → Draws)
      (e : Ω → Fin 2 → Fin 1 → Fin (n + 1) → ℂ),
      (∀ ω, exPlate.evaluate (d ω) (fun i (_ : Fin 1) (_ : Fin (n + 1)) => ((i : ℕ) : ℝ)) (fun (_ : Fin 2) _ _ => 0)
        (fun _ _ k => tg k) = .ok fun i j k => some (e ω i j k)) ∧
      ∫ ω, e ω 1 0 k * (starRingEnd ℂ) (e ω 0 0 k) ∂P = 0 := by
  obtain ⟨d, hd⟩ := fairPlate_exists exPlate.n0 exPlate.n1
  have h := fun ω => C62_static exPlate (Or.inl rfl) (by norm_num [exPlate]) (d ω) (a := 2) (b := 1) (by norm_num) (by norm_num)
    (fun i => ((i : ℕ) : ℝ)) (fun _ => 0) tg
  refine ⟨_, _, Measure.pi fun _ : Fin exPlate.n0 × Fin exPlate.n1 => fairCoin, inferInstance, d, _, h, ?_⟩
  exact C136_width exPlate (by simp [exPlate]) (by simp [exPlate]) (by simp [exPlate]) d (Or.inl ⟨rfl, hd⟩) _ _ tg _ h 1 0 0 0 k 1
    (Or.inl ⟨by simp [exPlate], by simp [exPlate]⟩)

/-- the hypotheses of `C135_power` and `C135_period` are met: 4 × 3 beamlets -/
example (d : Draws) (x0 y0 : ℝ) {n : ℕ} (tg : Fin (n + 1) → ℝ) (k : Fin (n + 1)) :
    ∃ e : Fin 4 → Fin 3 → Fin (n + 1) → ℂ,
      (exBase .rpp).evaluate d (fun (i : Fin 4) (_ : Fin 3) (_ : Fin (n + 1)) => x0 + (i : ℕ) * (1 * 1 / 1))
        (fun _ j _ => y0 + (j : ℕ) * (1 * 1 / 1)) (fun _ _ k => tg k) = .ok (fun i j k => some (e i j k)) ∧
      ∑ i, ∑ j, ‖e i j k‖ ^ 2 = 144 := by
  have h := C62_static (exBase .rpp) (Or.inl rfl) (by norm_num [exBase]) d (a := 4) (b := 3) (by norm_num) (by norm_num)
    (fun i => x0 + (i : ℕ) * (1 * 1 / 1)) (fun j => y0 + (j : ℕ) * (1 * 1 / 1)) tg
  refine ⟨_, h, ?_⟩
  have h2 := C135_power (exBase .rpp) (by simp [exBase]) rfl (by simp [exBase, exPlate]) (by simp [exBase, exPlate])
    (by simp [exBase, exPlate]) d x0 y0 tg _ h k
  refine h2.trans ?_
  simp only [exBase]
  norm_num

end Lasy
