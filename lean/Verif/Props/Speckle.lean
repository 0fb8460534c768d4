import Verif.Model.Speckle
import Verif.Spec.Speckle
import Verif.Lemmas.Fourier
import Verif.Lemmas.NpInterp
import Verif.Lemmas.LaserInit
import Verif.Props.FromData

/-!
# Properties C62–C64, C88–C92: speckle profiles
-/

namespace Lasy
open Spec Phys Complex

/-! ## Primitives -/

theorem runLoop_ok {α : Type} [Inhabited α] {n : ℕ} {f : Fin n → Except PyErr α} {v : Fin n → α}
    (h : ∀ k, f k = .ok (v k)) : runLoop f = .ok v := by
  have h1 : ((List.finRange n).findSome? fun k => raised (f k)) = none := by
    rw [List.findSome?_eq_none_iff]
    intro k _
    simp [h k, raised]
  unfold runLoop
  rw [h1]
  simp [h, resultOr]

theorem runLoop_inv {α : Type} [Inhabited α] {n : ℕ} {f : Fin n → Except PyErr α} {v : Fin n → α}
    (h : runLoop f = .ok v) : ∀ k, f k = .ok (v k) := by
  unfold runLoop at h
  intro k
  rcases hn : (List.finRange n).findSome? (fun k => raised (f k)) with _ | e
  · rw [hn] at h
    rw [List.findSome?_eq_none_iff] at hn
    have := hn k (by simp)
    cases h
    rcases hk : f k with e | a
    · simp [hk, raised] at this
    · simp [resultOr, hk]
  · rw [hn] at h
    cases h

theorem npSinc_eq (u : ℝ) : npSinc u = Real.sinc (Real.pi * u) := by
  unfold npSinc
  by_cases h : u = 0
  · simp [h]
  · have := Real.pi_ne_zero
    rw [if_neg h, Real.sinc_of_ne_zero (mul_ne_zero this h)]

theorem pyRound_bounds (x : ℝ) : ⌊x⌋ ≤ pyRound x ∧ pyRound x ≤ ⌈x⌉ ∧ |(pyRound x : ℝ) - x| ≤ 1 / 2 := by
  have e := Int.floor_add_fract x
  have h0 := Int.fract_nonneg x
  have h1 := Int.fract_lt_one x
  have hc : (1 : ℝ) / 2 ≤ Int.fract x → ⌊x⌋ + 1 ≤ ⌈x⌉ := by
    intro h
    have : (⌊x⌋ : ℝ) < x := by linarith
    exact_mod_cast Int.lt_ceil.2 this
  have hfc := Int.floor_le_ceil x
  unfold pyRound
  split
  · rename_i h
    exact ⟨le_rfl, hfc, by rw [abs_le]; constructor <;> linarith⟩
  · rename_i h
    have h2 := hc (not_lt.mp h)
    split
    · rename_i h3
      refine ⟨by omega, h2, ?_⟩
      push_cast
      rw [abs_le]; constructor <;> linarith
    · rename_i h3
      have h4 : Int.fract x = 1 / 2 := le_antisymm (not_lt.mp h3) (not_lt.mp h)
      split
      · exact ⟨le_rfl, hfc, by rw [abs_le]; constructor <;> linarith⟩
      · refine ⟨by omega, h2, ?_⟩
        push_cast
        rw [abs_le]; constructor <;> linarith

/-- the beamlets are centred at these multiples of their width -/
theorem lens_eq {n : ℕ} (m : Fin n) : Speckle.lens n m = (m : ℝ) - ((n : ℝ) - 1) / 2 := by
  unfold Speckle.lens linspace
  by_cases hn : (n : ℝ) - 1 = 0
  · have h1 : n = 1 := by exact_mod_cast (sub_eq_zero.mp hn)
    subst h1
    have : (m : ℕ) = 0 := by omega
    simp
  · have : (0.5 * ((n : ℝ) - 1) - -0.5 * ((n : ℝ) - 1)) / ((n : ℝ) - 1) = 1 := by
      rw [div_eq_one_iff_eq hn]; ring
    rw [this]
    ring

/-! ## The pattern is the documented double sum -/

/-- the phase of one beamlet at a position -/
theorem beamlet_phase (lam f D : ℝ) {n : ℕ} (m : Fin n) (x : ℝ) :
    (-2 * Real.pi * I / n * Speckle.lens n m * ((x / (lam * f / D) : ℝ) : ℂ)) =
      I * ((focusK lam f (beamletCentre D n m) * x : ℝ) : ℂ) := by
  have hn : (n : ℝ) ≠ 0 := by
    have := m.2
    exact_mod_cast (show n ≠ 0 by omega)
  have h : -2 * Real.pi / n * Speckle.lens n m * (x / (lam * f / D)) = focusK lam f (beamletCentre D n m) * x := by
    have hb : beamletCentre D n m = D / n * Speckle.lens n m := by
      rw [lens_eq]
      unfold beamletCentre
      field_simp
      ring
    rw [hb]
    unfold focusK
    simp only [div_eq_mul_inv, mul_inv, inv_inv]
    ring
  rw [← h]
  push_cast
  ring

/-- the pattern at a point of a Cartesian mesh, for beamlets of amplitudes `b` -/
theorem pattern_eq (p : Speckle) (hN : p.withEnvelope = true → 0 < p.n0 ∧ 0 < p.n1) (d : Draws)
    (b : Fin p.n0 → Fin p.n1 → ℂ) (x y : ℝ) :
    p.pattern d (fun m l => some (b m l)) x y x y = some (speckleField p.lambda0 p.focalLength p.aperture.1 p.aperture.2
      p.withEnvelope b (p.phasePlate d) (fun _ _ => 0) x y) := by
  have hsum : Speckle.nanSum (fun m l => (some (b m l)).map fun b => b * exp (I * p.phasePlate d m l) *
      exp (-2 * Real.pi * I / p.n0 * Speckle.lens p.n0 m * (x / (p.lambda0 * p.focalLength / p.aperture.1) : ℝ)) *
      exp (-2 * Real.pi * I / p.n1 * Speckle.lens p.n1 l * (y / (p.lambda0 * p.focalLength / p.aperture.2) : ℝ))) =
      some (speckleSum p.lambda0 p.focalLength p.aperture.1 p.aperture.2 b (p.phasePlate d) (fun _ _ => 0) x y) := by
    unfold Speckle.nanSum
    rw [if_pos (by simp)]
    congr 1
    rw [Finset.sum_comm]
    unfold speckleSum
    refine Finset.sum_congr rfl fun m _ => Finset.sum_congr rfl fun l _ => ?_
    simp only [Option.map_some, Option.getD_some, beamlet_phase]
    rw [mul_assoc, mul_assoc, ← Complex.exp_add, ← Complex.exp_add]
    congr 2
    push_cast
    ring
  unfold Speckle.pattern
  simp only
  rw [hsum]
  have hs : ∀ (D : ℝ) (N : ℕ) (x : ℝ), npSinc (x / (p.lambda0 * p.focalLength / D) / N) =
      Real.sinc (Real.pi * x / beamWidth p.lambda0 p.focalLength D N) := by
    intro D N x
    rw [npSinc_eq]
    unfold beamWidth
    congr 1
    simp only [div_eq_mul_inv, mul_inv, inv_inv]
    ring
  unfold speckleField
  rw [if_neg (by rintro ⟨h1, h2⟩; have := hN h1; omega)]
  rcases p.withEnvelope
  · simp
  · simp [hs]

/-- a phase can be counted as part of the amplitude -/
theorem speckleField_phase (lam f D0 D1 : ℝ) (env : Bool) {N0 N1 : ℕ} (φ ψ : Fin N0 → Fin N1 → ℝ) (x y : ℝ) :
    speckleField lam f D0 D1 env (fun m l => exp (I * (ψ m l : ℝ))) φ (fun _ _ => 0) x y =
      speckleField lam f D0 D1 env (fun _ _ => 1) φ ψ x y := by
  unfold speckleField speckleSum
  congr 1
  refine Finset.sum_congr rfl fun m _ => Finset.sum_congr rfl fun l _ => ?_
  rw [← Complex.exp_add, one_mul]
  congr 1
  push_cast
  ring

variable [Phys]

/-- normalised time, `t * c / λ0` -/
noncomputable def Speckle.tau (p : Speckle) (t : ℝ) : ℝ := t * c / p.lambda0

/-- the number of elements of `series_time` -/
noncomputable def Speckle.seriesLen (p : Speckle) (t : ℝ) : ℕ := arangeLen (p.tau t + p.dtUpdate) p.dtUpdate

/-- `evaluate` on any arrays -/
theorem evaluate_eq (p : Speckle) (d : Draws) {a b n : ℕ} (ha : 0 < a) (hb : 0 < b) (x y t : Coords a b (n + 1))
    {s : p.Series} (hs : p.series d (p.seriesLen (t ⟨0, ha⟩ ⟨0, hb⟩ (Fin.last n))) = .ok s)
    {bc : Fin (n + 1) → Fin p.n0 → Fin p.n1 → Option ℂ}
    (hbc : ∀ k m l, p.beamlet d s (p.tau (t ⟨0, ha⟩ ⟨0, hb⟩ k)) m l = .ok (bc k m l)) :
    p.evaluate d x y t = .ok fun i j k => p.pattern d (bc k) (x i ⟨0, hb⟩ 0) (y ⟨0, ha⟩ j 0) (x i j 0) (y i j 0) := by
  unfold Speckle.evaluate
  rw [dif_pos ⟨ha, hb, Nat.succ_pos n⟩]
  have h1 : runLoop (fun k : Fin (n + 1) => runLoop fun m => runLoop fun l =>
      p.beamlet d s (t ⟨0, ha⟩ ⟨0, hb⟩ k * c / p.lambda0) m l) = .ok bc :=
    runLoop_ok fun k => runLoop_ok fun m => runLoop_ok fun l => hbc k m l
  have hs' : p.series d (arangeLen (t ⟨0, ha⟩ ⟨0, hb⟩ ⟨n + 1 - 1, by omega⟩ * c / p.lambda0 + p.dtUpdate) p.dtUpdate) =
      .ok s := hs
  simp only [hs', bind, Except.bind, h1, pure, Except.pure]
  rfl

/-- `evaluate` on a Cartesian mesh -/
theorem evaluate_mesh (p : Speckle) (hN : p.withEnvelope = true → 0 < p.n0 ∧ 0 < p.n1) (d : Draws) {a b n : ℕ} (ha : 0 < a) (hb : 0 < b) (xg : Fin a → ℝ) (yg : Fin b → ℝ)
    (tg : Fin (n + 1) → ℝ) {s : p.Series} (hs : p.series d (p.seriesLen (tg (Fin.last n))) = .ok s)
    {bc : Fin (n + 1) → Fin p.n0 → Fin p.n1 → ℂ}
    (hbc : ∀ k m l, p.beamlet d s (p.tau (tg k)) m l = .ok (some (bc k m l))) :
    p.evaluate d (fun i (_ : Fin b) (_ : Fin (n + 1)) => xg i) (fun (_ : Fin a) j _ => yg j) (fun _ _ k => tg k) =
      .ok fun i j k => some (speckleField p.lambda0 p.focalLength p.aperture.1 p.aperture.2 p.withEnvelope (bc k)
        (p.phasePlate d) (fun _ _ => 0) (xg i) (yg j)) := by
  have h := evaluate_eq p d ha hb (fun i (_ : Fin b) (_ : Fin (n + 1)) => xg i) (fun (_ : Fin a) j _ => yg j)
    (fun _ _ k => tg k) (s := s) hs (bc := fun k m l => some (bc k m l)) hbc
  refine h.trans ?_
  simp only [pattern_eq p hN]

/-- what a successful `evaluate` has computed -/
theorem evaluate_inv (p : Speckle) (d : Draws) {a b c' : ℕ} {x y t : Coords a b c'}
    {E : Fin a → Fin b → Fin c' → Option ℂ} (h : p.evaluate d x y t = .ok E) :
    ∃ (h0 : 0 < a ∧ 0 < b ∧ 0 < c') (s : p.Series) (bc : Fin c' → Fin p.n0 → Fin p.n1 → Option ℂ),
      p.series d (p.seriesLen (t ⟨0, h0.1⟩ ⟨0, h0.2.1⟩ ⟨c' - 1, by omega⟩)) = .ok s ∧
      (∀ k m l, p.beamlet d s (p.tau (t ⟨0, h0.1⟩ ⟨0, h0.2.1⟩ k)) m l = .ok (bc k m l)) ∧
      ∀ i j k, E i j k = p.pattern d (bc k) (x i ⟨0, h0.2.1⟩ ⟨0, h0.2.2⟩) (y ⟨0, h0.1⟩ j ⟨0, h0.2.2⟩)
        (x i j ⟨0, h0.2.2⟩) (y i j ⟨0, h0.2.2⟩) := by
  unfold Speckle.evaluate at h
  by_cases h0 : 0 < a ∧ 0 < b ∧ 0 < c'
  · rw [dif_pos h0] at h
    rcases hs : p.series d (p.seriesLen (t ⟨0, h0.1⟩ ⟨0, h0.2.1⟩ ⟨c' - 1, by omega⟩)) with e | s
    · simp only [bind, Except.bind] at h
      simp only [Speckle.seriesLen, Speckle.tau] at hs
      simp [hs] at h
    · simp only [bind, Except.bind] at h
      have hs' := hs
      simp only [Speckle.seriesLen, Speckle.tau] at hs'
      simp only [hs'] at h
      rcases hb : runLoop (fun k => runLoop fun m => runLoop fun l =>
        p.beamlet d s (t ⟨0, h0.1⟩ ⟨0, h0.2.1⟩ k * c / p.lambda0) m l) with e | bc
      · simp [hb] at h
      · simp only [hb, pure, Except.pure] at h
        refine ⟨h0, s, bc, hs, ?_, ?_⟩
        · intro k m l
          exact runLoop_inv (runLoop_inv (runLoop_inv hb k) m) l
        · intro i j k
          cases h
          rfl
  · rw [dif_neg h0] at h
    cases h

/-! ## C62 -/

/-- **C62 (RPP, CPP).** Whatever the draws: `evaluate` on a Cartesian mesh returns, at every point, the documented double
sum over the beamlets, with all amplitudes 1, the drawn phases of the plate and no other phase; so it is the same at
all times. -/
theorem C62_static (p : Speckle) (hp : p.smoothing = .rpp ∨ p.smoothing = .cpp) (hN : 0 < p.n0 ∧ 0 < p.n1) (d : Draws) {a b n : ℕ} (ha : 0 < a)
    (hb : 0 < b) (xg : Fin a → ℝ) (yg : Fin b → ℝ) (tg : Fin (n + 1) → ℝ) :
    p.evaluate d (fun i (_ : Fin b) (_ : Fin (n + 1)) => xg i) (fun (_ : Fin a) j _ => yg j) (fun _ _ k => tg k) =
      .ok fun i j _ => some (speckleField p.lambda0 p.focalLength p.aperture.1 p.aperture.2 p.withEnvelope
        (fun _ _ => 1) (p.phasePlate d) (fun _ _ => 0) (xg i) (yg j)) := by
  rcases hp with hp | hp <;>
  · exact evaluate_mesh p (fun _ => hN) d ha hb xg yg tg (s := .none) (by simp [Speckle.series, hp])
      (bc := fun _ _ _ => 1) (fun k m l => by simp [Speckle.beamlet, hp])

omit [Phys] in
/-- the drawn phases: `0` or `π` for a random phase plate; for a continuous one, `-π` to `π` evenly: the number drawn from
`[0, 1)` is mapped affinely onto `[-π, π)` -/
theorem C62_plate (p : Speckle) (d : Draws) (m : Fin p.n0) (l : Fin p.n1) :
    (p.smoothing = .rpp → p.phasePlate d m l = 0 ∨ p.phasePlate d m l = Real.pi) ∧
    (p.smoothing = .cpp ∨ p.smoothing = .fmSSD ∨ p.smoothing = .gpSSD →
      p.phasePlate d m l = (2 * d.uniform m l - 1) * Real.pi) ∧
    (p.smoothing ≠ .rpp → -Real.pi ≤ p.phasePlate d m l ∧ p.phasePlate d m l < Real.pi) := by
  obtain ⟨h0, h1⟩ := d.uniform_mem m l
  have := Real.pi_pos
  refine ⟨?_, ?_, ?_⟩
  · intro h
    simp only [Speckle.phasePlate, h]
    cases d.choice m l <;> simp
  · rintro (h | h | h) <;> simp only [Speckle.phasePlate, h] <;> ring
  · intro h
    rcases hs : p.smoothing <;> simp only [Speckle.phasePlate, hs] <;> first
      | exact absurd hs h
      | (constructor <;> nlinarith)

/-- the phase of the smoothing by spectral dispersion along one direction, at the normalised time `τ`: modulation
amplitude `δ`, frequency `ν`, `Ncc` colour cycles across the aperture, offset `ξ` -/
noncomputable def Spec.fmPhase (δ ν Ncc ξ : ℝ) (N m : ℕ) (τ : ℝ) : ℝ :=
  δ * Real.sin (ξ + 2 * Real.pi * ν * τ - 2 * Real.pi * Ncc * (m - ((N : ℝ) - 1) / 2) / N)

/-- the documented modulation frequency `ω = Δν r / (2 δ)`, with `r = d / sqrt(d0² + d1²)` -/
noncomputable def Spec.fmFreq (bandwidth δ d d0 d1 : ℝ) : ℝ := bandwidth * (d / Real.sqrt (d0 ^ 2 + d1 ^ 2)) / (2 * δ)

omit [Phys] in
/-- the construction with SSD -/
theorem ssd_init (base : Speckle) (hs : base.smoothing.isSSD = true) (hbw : 0 < base.bandwidth)
    (δ q r : ℝ × ℝ) (hδ : 0 < δ.1 ∧ 0 < δ.2) (hq : 0 < q.1 ∨ 0 < q.2) (hr : 0 ≤ r.1 ∧ 0 ≤ r.2)
    (hr' : 0 < r.1 ∨ 0 < r.2) :
    Speckle.init base (some δ) (some q) (some r) = .ok { base with
      dtUpdate := 1 / base.bandwidth / 50, amp := δ
      freq := (.fin (fmFreq base.bandwidth δ.1 r.1 r.1 r.2), .fin (fmFreq base.bandwidth δ.2 r.2 r.1 r.2))
      delay := (if 0 < r.1 then q.1 / fmFreq base.bandwidth δ.1 r.1 r.1 r.2 else 0,
        if 0 < r.2 then q.2 / fmFreq base.bandwidth δ.2 r.2 r.1 r.2 else 0) } := by
  have hnorm : 0 < Real.sqrt (r.1 ^ 2 + r.2 ^ 2) := by
    apply Real.sqrt_pos.2
    rcases hr' with h | h <;> positivity
  have hf : ∀ (d x : ℝ), 0 < x → ssdFreq base.bandwidth x d (Real.sqrt (r.1 ^ 2 + r.2 ^ 2)) =
      .fin (fmFreq base.bandwidth x d r.1 r.2) := by
    intro d x hx
    simp only [ssdFreq, NpF.div, if_neg hnorm.ne', if_neg hx.ne', fmFreq]
    congr 1
    field_simp
    ring
  have hpos : ∀ (d x : ℝ), 0 < x → 0 ≤ d → (0 < fmFreq base.bandwidth x d r.1 r.2 ↔ 0 < d) := by
    intro d x hx hd
    unfold fmFreq
    constructor
    · intro h
      rcases hd.lt_or_eq with h' | h'
      · exact h'
      · rw [← h'] at h; simp at h
    · intro h; positivity
  have hcyc : ssdCycles (some q) (.fin (fmFreq base.bandwidth δ.1 r.1 r.1 r.2), .fin (fmFreq base.bandwidth δ.2 r.2 r.1 r.2))
      = .ok q := by
    unfold ssdCycles
    split <;> rfl
  unfold Speckle.init
  rw [if_neg hbw.ne']
  simp only [ssdInit, Option.elim, hf _ _ hδ.1, hf _ _ hδ.2, hcyc, hs, if_true, bind, Except.bind, pure, Except.pure,
    if_neg (not_le.2 hbw), ssdArgOK]
  rw [if_neg (by
    simp only [true_and, not_not]
    exact ⟨hq, hr', .inl hδ.1⟩)]
  simp only [ssdDelay, hpos _ _ hδ.1 hr.1, hpos _ _ hδ.2 hr.2]

omit [Phys] in
/-- the amplitude of a beamlet under FM SSD -/
theorem fm_beamlet (base : Speckle) (hs : base.smoothing = .fmSSD) (hbw : 0 < base.bandwidth)
    (δ q r : ℝ × ℝ) (hδ : 0 < δ.1 ∧ 0 < δ.2) (hq : 0 < q.1 ∨ 0 < q.2) (hr : 0 ≤ r.1 ∧ 0 ≤ r.2)
    (hr' : 0 < r.1 ∨ 0 < r.2) (d : Draws) :
    ∃ p, Speckle.init base (some δ) (some q) (some r) = .ok p ∧ p.smoothing = .fmSSD ∧ ∀ (S : p.Series) τ m l,
      p.beamlet d S τ m l = .ok (some (exp (I * (
        fmPhase δ.1 (fmFreq base.bandwidth δ.1 r.1 r.1 r.2) (if 0 < r.1 then q.1 else 0) (d.dephasing.1 * Real.pi)
              p.n0 m τ +
            fmPhase δ.2 (fmFreq base.bandwidth δ.2 r.2 r.1 r.2) (if 0 < r.2 then q.2 else 0) (d.dephasing.2 * Real.pi)
              p.n1 l τ : ℝ)))) := by
  have hinit := ssd_init base (by rw [hs]; rfl) hbw δ q r hδ hq hr hr'
  obtain ⟨p, hp⟩ : ∃ p, p = { base with
      dtUpdate := 1 / base.bandwidth / 50, amp := δ
      freq := (.fin (fmFreq base.bandwidth δ.1 r.1 r.1 r.2), .fin (fmFreq base.bandwidth δ.2 r.2 r.1 r.2))
      delay := (if 0 < r.1 then q.1 / fmFreq base.bandwidth δ.1 r.1 r.1 r.2 else 0,
        if 0 < r.2 then q.2 / fmFreq base.bandwidth δ.2 r.2 r.1 r.2 else 0) } := ⟨_, rfl⟩
  rw [← hp] at hinit
  have hps : p.smoothing = .fmSSD := by rw [hp]; exact hs
  have e1 : p.amp = δ := by rw [hp]
  have e2 : p.freq = (.fin (fmFreq base.bandwidth δ.1 r.1 r.1 r.2), .fin (fmFreq base.bandwidth δ.2 r.2 r.1 r.2)) := by rw [hp]
  have e3 : p.delay = (if 0 < r.1 then q.1 / fmFreq base.bandwidth δ.1 r.1 r.1 r.2 else 0,
        if 0 < r.2 then q.2 / fmFreq base.bandwidth δ.2 r.2 r.1 r.2 else 0) := by rw [hp]
  clear hp
  refine ⟨p, hinit, hps, fun S τ m l => ?_⟩
  have hphase : ∀ (x dd y ξ τ : ℝ) (N : ℕ) (m : Fin N), 0 < x → 0 ≤ dd →
      x * Real.sin (ξ + (τ - Speckle.lens N m * (if 0 < dd then y / fmFreq base.bandwidth x dd r.1 r.2 else 0) / N) *
        (2 * Real.pi * fmFreq base.bandwidth x dd r.1 r.2)) =
      fmPhase x (fmFreq base.bandwidth x dd r.1 r.2) (if 0 < dd then y else 0) ξ N m τ := by
    intro x dd y ξ τ N m hx hd
    unfold fmPhase
    rw [lens_eq]
    congr 2
    by_cases h : 0 < dd
    · have : fmFreq base.bandwidth x dd r.1 r.2 ≠ 0 := by
        unfold fmFreq
        have hnorm : 0 < Real.sqrt (r.1 ^ 2 + r.2 ^ 2) := by
          apply Real.sqrt_pos.2
          rcases hr' with h | h <;> positivity
        positivity
      simp only [h, if_true]
      field_simp
      ring
    · simp only [h, if_false]
      ring
  simp only [Speckle.beamlet, hps]
  simp only [e1, e2, e3, NpF.smul, NpF.add, NpF.sin, NpF.toOption]
  exact congrArg (fun z : ℝ => (Except.ok (some (exp (I * (z : ℂ)))) : Except PyErr (Option ℂ)))
    (congrArg₂ (· + ·) (hphase _ _ _ _ _ _ m hδ.1 hr.1) (hphase _ _ _ _ _ _ l hδ.2 hr.2))

/-- **C62 (FM SSD).** A profile with smoothing by spectral dispersion, constructed with positive amplitudes and a
non-zero distribution of the bandwidth: whatever the draws, `evaluate` on a Cartesian mesh returns the documented double
sum, with amplitudes 1, the drawn phases of the plate, and the phases of the frequency modulation at that time. -/
theorem C62_fm_ssd (base : Speckle) (hN : 0 < base.n0 ∧ 0 < base.n1) (hs : base.smoothing = .fmSSD) (hbw : 0 < base.bandwidth)
    (δ q r : ℝ × ℝ) (hδ : 0 < δ.1 ∧ 0 < δ.2) (hq : 0 < q.1 ∨ 0 < q.2) (hr : 0 ≤ r.1 ∧ 0 ≤ r.2)
    (hr' : 0 < r.1 ∨ 0 < r.2) (d : Draws) {a b n : ℕ} (ha : 0 < a) (hb : 0 < b) (xg : Fin a → ℝ) (yg : Fin b → ℝ)
    (tg : Fin (n + 1) → ℝ) :
    ∃ p, Speckle.init base (some δ) (some q) (some r) = .ok p ∧
      p.evaluate d (fun i (_ : Fin b) (_ : Fin (n + 1)) => xg i) (fun (_ : Fin a) j _ => yg j) (fun _ _ k => tg k) =
        .ok fun i j k => some (speckleField p.lambda0 p.focalLength p.aperture.1 p.aperture.2 p.withEnvelope
          (fun _ _ => 1) (p.phasePlate d)
          (fun m l =>
            fmPhase δ.1 (fmFreq base.bandwidth δ.1 r.1 r.1 r.2) (if 0 < r.1 then q.1 else 0) (d.dephasing.1 * Real.pi)
              p.n0 m (tg k * c / p.lambda0) +
            fmPhase δ.2 (fmFreq base.bandwidth δ.2 r.2 r.1 r.2) (if 0 < r.2 then q.2 else 0) (d.dephasing.2 * Real.pi)
              p.n1 l (tg k * c / p.lambda0)) (xg i) (yg j)) := by
  obtain ⟨p, hp, hps, hb'⟩ := fm_beamlet base hs hbw δ q r hδ hq hr hr' d
  refine ⟨p, hp, ?_⟩
  have hpN : 0 < p.n0 ∧ 0 < p.n1 := by
    have h := Except.ok.inj ((ssd_init base (by rw [hs]; rfl) hbw δ q r hδ hq hr hr').symm.trans hp)
    rw [← h]
    exact hN
  have := evaluate_mesh p (fun _ => hpN) d ha hb xg yg tg (s := .none) (by simp [Speckle.series, hps])
    (bc := fun k m l => exp (I * (
      fmPhase δ.1 (fmFreq base.bandwidth δ.1 r.1 r.1 r.2) (if 0 < r.1 then q.1 else 0) (d.dephasing.1 * Real.pi)
              p.n0 m (tg k * c / p.lambda0) +
            fmPhase δ.2 (fmFreq base.bandwidth δ.2 r.2 r.1 r.2) (if 0 < r.2 then q.2 else 0) (d.dephasing.2 * Real.pi)
              p.n1 l (tg k * c / p.lambda0) : ℝ))) (fun k m l => hb' _ _ m l)
  rw [this]
  simp only [speckleField_phase]

omit [Phys] in
/-- without ISI every beamlet has modulus 1 -/
theorem beamlet_norm (p : Speckle) (hp : p.smoothing ≠ .gpISI) (d : Draws) (s : p.Series) (t : ℝ) (m : Fin p.n0)
    (l : Fin p.n1) {z : ℂ} (h : p.beamlet d s t m l = .ok (some z)) : ‖z‖ = 1 := by
  have hexp : ∀ x : ℝ, ‖exp (I * (x : ℂ))‖ = 1 := fun x => by rw [mul_comm, Complex.norm_exp_ofReal_mul_I]
  unfold Speckle.beamlet at h
  split at h
  · cases h; simp
  · cases h; simp
  · simp only at h
    split at h
    · cases h; exact hexp _
    · cases h
  · rename_i time s0 s1 _ _
    simp only [bind, Except.bind] at h
    split at h
    · cases h
    · split at h
      · cases h
      · simp only [pure, Except.pure] at h
        split at h
        · cases h; exact hexp _
        · cases h
  · exact absurd (by assumption) hp
  · cases h

/-- **C62 (bound).** For every smoothing without amplitude modulation, whatever the arrays of positions and times and the
draws: no value of the field exceeds the number of beamlets. -/
theorem C62_bounded (p : Speckle) (hp : p.smoothing ≠ .gpISI) (d : Draws) {a b c' : ℕ} {x y t : Coords a b c'}
    {E : Fin a → Fin b → Fin c' → Option ℂ} (h : p.evaluate d x y t = .ok E) (i : Fin a) (j : Fin b) (k : Fin c') {z : ℂ}
    (hz : E i j k = some z) : ‖z‖ ≤ p.n0 * p.n1 := by
  obtain ⟨h0, s, bc, -, hbc, hE⟩ := evaluate_inv p d h
  rw [hE] at hz
  have hexp : ∀ x : ℝ, ‖exp (I * (x : ℂ))‖ = 1 := fun x => by rw [mul_comm, Complex.norm_exp_ofReal_mul_I]
  have hsum : ∀ (xi yj : ℝ) (w : ℂ), Speckle.nanSum (fun m l => (bc k m l).map fun b => b * exp (I * p.phasePlate d m l) *
      exp (-2 * Real.pi * I / p.n0 * Speckle.lens p.n0 m * (xi / (p.lambda0 * p.focalLength / p.aperture.1) : ℝ)) *
      exp (-2 * Real.pi * I / p.n1 * Speckle.lens p.n1 l * (yj / (p.lambda0 * p.focalLength / p.aperture.2) : ℝ))) = some w →
      ‖w‖ ≤ p.n0 * p.n1 := by
    intro xi yj w hw
    unfold Speckle.nanSum at hw
    split at hw
    · rename_i hall
      obtain rfl := Option.some.inj hw
      have hone : ∀ m l, ‖((bc k m l).map fun b => b * exp (I * p.phasePlate d m l) *
          exp (-2 * Real.pi * I / p.n0 * Speckle.lens p.n0 m * (xi / (p.lambda0 * p.focalLength / p.aperture.1) : ℝ)) *
          exp (-2 * Real.pi * I / p.n1 * Speckle.lens p.n1 l * (yj / (p.lambda0 * p.focalLength / p.aperture.2) : ℝ))).getD
            0‖ = 1 := by
        intro m l
        have hsome := hall m l
        rcases hbk : bc k m l with _ | v
        · simp [hbk] at hsome
        · have hv := beamlet_norm p hp d s _ m l ((hbc k m l).trans (congrArg Except.ok hbk))
          simp only [Option.map_some, Option.getD_some, norm_mul, hv, beamlet_phase, hexp, mul_one]
      calc _ ≤ ∑ l : Fin p.n1, ∑ m : Fin p.n0, (1 : ℝ) :=
            (norm_sum_le _ _).trans (Finset.sum_le_sum fun l _ =>
              (norm_sum_le _ _).trans (Finset.sum_le_sum fun m _ => (hone m l).le))
        _ = p.n0 * p.n1 := by simp [mul_comm]
    · cases hw
  unfold Speckle.pattern at hz
  simp only at hz
  split at hz
  · cases hz
  split at hz
  · rw [Option.map_eq_some_iff] at hz
    obtain ⟨w, hw, rfl⟩ := hz
    have h1 := hsum _ _ w hw
    have h2 : ∀ u, ‖(npSinc u : ℂ)‖ ≤ 1 := fun u => by
      rw [npSinc_eq, Complex.norm_real, Real.norm_eq_abs]; exact Real.abs_sinc_le_one _
    rw [norm_mul, norm_mul]
    calc _ ≤ 1 * 1 * ‖w‖ := by
          refine mul_le_mul_of_nonneg_right ?_ (norm_nonneg _)
          exact mul_le_mul (h2 _) (h2 _) (norm_nonneg _) zero_le_one
      _ ≤ _ := by simpa using h1
  · exact hsum _ _ z hz

/-! ## C63 -/

omit [Phys] in
theorem arangeLen_series {τ dt : ℝ} (hdt : 0 < dt) (hτ : 0 ≤ τ) : (arangeLen (τ + dt) dt : ℤ) = ⌈τ / dt⌉ + 1 := by
  unfold arangeLen
  have h : (τ + dt) / dt = τ / dt + 1 := by field_simp
  have h2 : 0 ≤ τ / dt := by positivity
  rw [h, Int.natCast_ceil_eq_ceil (by positivity), Int.ceil_add_one]

omit [Phys] in
theorem genGaussian_total {n : ℕ} (hn : n ≠ 0) (dt : ℝ) (w : NpF) (rms : ℝ) (re im : ℕ → ℝ) :
    ∃ v, genGaussian n dt w rms re im = .ok v := by
  unfold genGaussian
  simp only [hn, if_false]
  rcases w with w | _ | _ <;> simp only
  · split
    · exact ⟨_, rfl⟩
    · split <;> exact ⟨_, rfl⟩
  · split <;> exact ⟨_, rfl⟩
  · exact ⟨_, rfl⟩

/-- the amplitudes of the ISI beamlets, one series of `n` samples for each -/
noncomputable def Speckle.isiAmp (p : Speckle) (d : Draws) (n : ℕ) (m : Fin p.n0) (l : Fin p.n1) : Option (Fin n → ℂ) :=
  resultOr none (genGaussian n p.dtUpdate (.fin (2 * p.bandwidth)) 1 (d.isi m l).1 (d.isi m l).2)

omit [Phys] in
theorem series_isi (p : Speckle) (hp : p.smoothing = .gpISI) (hN : 0 < p.n0 ∧ 0 < p.n1) (d : Draws) {n : ℕ} (hn : n ≠ 0) :
    p.series d n = .ok (.isi n (p.isiAmp d n)) := by
  simp only [Speckle.series, hp, hn, if_false, show ¬ (p.n0 = 0 ∨ p.n1 = 0) by omega]
  rfl

omit [Phys] in
theorem pyIndex_nonneg {n : ℕ} {i : ℤ} (h0 : 0 ≤ i) (h1 : i < n) : pyIndex n i = .ok ⟨i.toNat, by omega⟩ := by
  unfold pyIndex
  rw [dif_pos ⟨h0, h1⟩]

/-- **C63 (GP ISI).** For every time axis that begins at or after zero and every draw, `evaluate` on a Cartesian mesh
never indexes outside its series: it succeeds, and at every time the amplitude of each beamlet is the sample of its series
that is nearest in time. -/
theorem C63_isi (p : Speckle) (hp : p.smoothing = .gpISI) (hN : 0 < p.n0 ∧ 0 < p.n1) (hdt : 0 < p.dtUpdate) (d : Draws) {a b n : ℕ} (ha : 0 < a)
    (hb : 0 < b) (xg : Fin a → ℝ) (yg : Fin b → ℝ) (tg : Fin (n + 1) → ℝ)
    (ht : ∀ k, 0 ≤ p.tau (tg k) ∧ p.tau (tg k) ≤ p.tau (tg (Fin.last n))) :
    ∃ idx : Fin (n + 1) → Fin (p.seriesLen (tg (Fin.last n))),
      (∀ k, |((idx k : ℕ) : ℝ) * p.dtUpdate - p.tau (tg k)| ≤ p.dtUpdate / 2) ∧
      (∃ E, p.evaluate d (fun i (_ : Fin b) (_ : Fin (n + 1)) => xg i) (fun (_ : Fin a) j _ => yg j)
        (fun _ _ k => tg k) = .ok E) ∧
      ∀ v : Fin p.n0 → Fin p.n1 → Fin (p.seriesLen (tg (Fin.last n))) → ℂ,
        (∀ m l, p.isiAmp d (p.seriesLen (tg (Fin.last n))) m l = some (v m l)) →
        p.evaluate d (fun i (_ : Fin b) (_ : Fin (n + 1)) => xg i) (fun (_ : Fin a) j _ => yg j) (fun _ _ k => tg k) =
          .ok fun i j k => some (speckleField p.lambda0 p.focalLength p.aperture.1 p.aperture.2 p.withEnvelope
            (fun m l => v m l (idx k)) (fun _ _ => 0) (fun _ _ => 0) (xg i) (yg j)) := by
  have hlen := arangeLen_series hdt (ht (Fin.last n)).1
  have hn0 : p.seriesLen (tg (Fin.last n)) ≠ 0 := by
    have : 0 ≤ ⌈p.tau (tg (Fin.last n)) / p.dtUpdate⌉ := Int.ceil_nonneg (by have := (ht (Fin.last n)).1; positivity)
    unfold Speckle.seriesLen
    omega
  have hidx : ∀ k, 0 ≤ pyRound (p.tau (tg k) / p.dtUpdate) ∧
      pyRound (p.tau (tg k) / p.dtUpdate) < (p.seriesLen (tg (Fin.last n)) : ℤ) := by
    intro k
    obtain ⟨h1, h2, -⟩ := pyRound_bounds (p.tau (tg k) / p.dtUpdate)
    have h3 : 0 ≤ ⌊p.tau (tg k) / p.dtUpdate⌋ := Int.floor_nonneg.2 (by have := (ht k).1; positivity)
    have h4 : ⌈p.tau (tg k) / p.dtUpdate⌉ ≤ ⌈p.tau (tg (Fin.last n)) / p.dtUpdate⌉ :=
      Int.ceil_mono (div_le_div_of_nonneg_right (ht k).2 hdt.le)
    unfold Speckle.seriesLen
    omega
  have hpl : p.phasePlate d = fun _ _ => 0 := by
    funext m l
    simp [Speckle.phasePlate, hp]
  refine ⟨fun k => ⟨(pyRound (p.tau (tg k) / p.dtUpdate)).toNat, by have := hidx k; omega⟩, ?_, ?_, ?_⟩
  · intro k
    obtain ⟨-, -, h3⟩ := pyRound_bounds (p.tau (tg k) / p.dtUpdate)
    have h4 : (((pyRound (p.tau (tg k) / p.dtUpdate)).toNat : ℕ) : ℝ) = (pyRound (p.tau (tg k) / p.dtUpdate) : ℝ) := by
      have := Int.toNat_of_nonneg (hidx k).1
      exact_mod_cast congrArg (Int.cast : ℤ → ℝ) this
    simp only [h4]
    have h5 : (pyRound (p.tau (tg k) / p.dtUpdate) : ℝ) * p.dtUpdate - p.tau (tg k) =
        ((pyRound (p.tau (tg k) / p.dtUpdate) : ℝ) - p.tau (tg k) / p.dtUpdate) * p.dtUpdate := by
      field_simp
    rw [h5, abs_mul, abs_of_pos hdt]
    linarith [mul_le_mul_of_nonneg_right h3 hdt.le]
  · have h := evaluate_eq p d ha hb (fun i (_ : Fin b) (_ : Fin (n + 1)) => xg i) (fun (_ : Fin a) j _ => yg j)
      (fun _ _ k => tg k) (s := .isi _ (p.isiAmp d (p.seriesLen (tg (Fin.last n))))) (series_isi p hp hN d hn0)
      (bc := fun k m l => (p.isiAmp d (p.seriesLen (tg (Fin.last n))) m l).map
        fun w : Fin (p.seriesLen (tg (Fin.last n))) → ℂ =>
          w ⟨(pyRound (p.tau (tg k) / p.dtUpdate)).toNat, by have := hidx k; omega⟩) (by
        intro k m l
        simp only [Speckle.beamlet, hp, pyIndex_nonneg (hidx k).1 (hidx k).2, bind, Except.bind, pure, Except.pure])
    exact ⟨_, h⟩
  · intro v hv
    have h := evaluate_mesh p (fun _ => hN) d ha hb xg yg tg (s := .isi _ (p.isiAmp d (p.seriesLen (tg (Fin.last n)))))
      (series_isi p hp hN d hn0) (bc := fun k m l => v m l
        ⟨(pyRound (p.tau (tg k) / p.dtUpdate)).toNat, by have := hidx k; omega⟩) (by
        intro k m l
        simp only [Speckle.beamlet, hp, pyIndex_nonneg (hidx k).1 (hidx k).2, bind, Except.bind, pure, Except.pure, hv,
          Option.map_some])
    rw [hpl] at h
    exact h

/-- linear interpolation between the samples `s 0, s 1, ..` at the times `0, dt, 2 dt, ..` -/
noncomputable def Spec.lerpSeries (dt : ℝ) (s : ℕ → ℝ) (x : ℝ) : ℝ :=
  s ⌊x / dt⌋₊ + (x / dt - ⌊x / dt⌋₊) * (s (⌊x / dt⌋₊ + 1) - s ⌊x / dt⌋₊)

/-- a list of samples as a sequence -/
noncomputable def extend {N : ℕ} (s : Fin N → ℝ) (k : ℕ) : ℝ := if h : k < N then s ⟨k, h⟩ else 0

omit [Phys] in
theorem interpSeries_eq {N : ℕ} {dt x : ℝ} (hdt : 0 < dt) (s : Fin N → ℝ) (hx : 0 ≤ x) (h : ⌊x / dt⌋₊ + 1 < N) :
    Speckle.interpSeries (fun k : Fin N => ((k : ℕ) : ℝ) * dt) (some s) x = .ok (some (lerpSeries dt (extend s) x)) := by
  have hasc : Ascending (fun k : Fin N => ((k : ℕ) : ℝ) * dt) := by
    intro i j hij
    have : ((i : ℕ) : ℝ) < ((j : ℕ) : ℝ) := by exact_mod_cast hij
    exact mul_lt_mul_of_pos_right this hdt
  have h0 : 0 ≤ x / dt := by positivity
  have h1 : ((⌊x / dt⌋₊ : ℕ) : ℝ) * dt ≤ x := by
    have := Nat.floor_le h0
    rwa [le_div_iff₀ hdt] at this
  have h2 : x ≤ (((⌊x / dt⌋₊ + 1 : ℕ)) : ℝ) * dt := by
    have := (Nat.lt_floor_add_one (x / dt)).le
    push_cast
    rwa [div_le_iff₀ hdt] at this
  unfold Speckle.interpSeries
  rw [dif_pos rfl]
  simp only [Fin.cast_eq_self]
  have h3 := npInterp_between hasc s h (x := x) h1 h2
  rw [h3]
  simp only [Except.map, lerpSeries, extend, dif_pos h, dif_pos (show ⌊x / dt⌋₊ < N by omega)]
  congr 3
  push_cast
  field_simp
  ring

omit [Phys] in
/-- both SSD series have the same number of samples as there are times -/
theorem series_ssd (p : Speckle) (hp : p.smoothing = .gpSSD) (hdt : 0 < p.dtUpdate) (hdel : 0 ≤ p.delay.1 + p.delay.2)
    (d : Draws) {n : ℕ} (hn : n ≠ 0) {N : ℕ} (hN : N = n + ⌊(p.delay.1 + p.delay.2) / p.dtUpdate⌋₊ + 2) :
    ∃ v0 v1, genGaussian N p.dtUpdate (p.freq.1.smul (2 * Real.pi)) p.amp.1 d.pm0.1 d.pm0.2 = .ok v0 ∧
      genGaussian N p.dtUpdate (p.freq.2.smul (2 * Real.pi)) p.amp.2 d.pm1.1 d.pm1.2 = .ok v1 ∧
      p.series d n = .ok (.ssd N N (fun k => ((k : ℕ) : ℝ) * p.dtUpdate) (v0.map Speckle.realPart)
        (v1.map Speckle.realPart)) := by
  obtain ⟨v0, h0⟩ := genGaussian_total (n := N) (by omega) p.dtUpdate (p.freq.1.smul (2 * Real.pi)) p.amp.1 d.pm0.1 d.pm0.2
  obtain ⟨v1, h1⟩ := genGaussian_total (n := N) (by omega) p.dtUpdate (p.freq.2.smul (2 * Real.pi)) p.amp.2 d.pm1.1 d.pm1.2
  refine ⟨v0, v1, h0, h1, ?_⟩
  have hq : 0 ≤ (p.delay.1 + p.delay.2) / p.dtUpdate := by positivity
  have hint : pyInt ((p.delay.1 + p.delay.2) / p.dtUpdate) = (⌊(p.delay.1 + p.delay.2) / p.dtUpdate⌋₊ : ℤ) := by
    unfold pyInt
    rw [if_pos hq, Int.natCast_floor_eq_floor hq]
  have hm : ((n : ℤ) + pyInt ((p.delay.1 + p.delay.2) / p.dtUpdate) + 2) = (N : ℤ) := by
    rw [hint]; omega
  have hlen : min (arangeLen (((n : ℝ) - 1) * p.dtUpdate + (p.delay.1 + p.delay.2) + 3 * p.dtUpdate) p.dtUpdate) N = N := by
    rw [min_eq_right]
    unfold arangeLen
    have e : (((n : ℝ) - 1) * p.dtUpdate + (p.delay.1 + p.delay.2) + 3 * p.dtUpdate) / p.dtUpdate =
        (p.delay.1 + p.delay.2) / p.dtUpdate + ((n + 2 : ℕ) : ℝ) := by
      push_cast
      field_simp
      ring
    rw [e, Nat.ceil_add_natCast hq]
    have := Nat.floor_le_ceil ((p.delay.1 + p.delay.2) / p.dtUpdate)
    omega
  unfold Speckle.series
  simp only [hp, hm]
  rw [if_neg (by omega), Int.toNat_natCast]
  unfold Speckle.ssdSeries
  simp only [bind, Except.bind, pure, Except.pure, h0, h1, hn, if_false]
  rw [hlen]

/-- **C63 (GP RPM SSD).** For every time axis that begins at or after zero and every draw: the times at which the two
series of phases are needed lie inside the time range of the series, `evaluate` on a Cartesian mesh succeeds (the series
of times and the series of phases have the same number `N` of elements), and returns the documented double sum, with
amplitudes 1, the drawn phases of the plate and the linearly interpolated phases of the two series, delayed from beamlet
to beamlet. -/
theorem C63_ssd (p : Speckle) (hp : p.smoothing = .gpSSD) (hNb : 0 < p.n0 ∧ 0 < p.n1) (hdt : 0 < p.dtUpdate) (hdel : 0 ≤ p.delay.1 ∧ 0 ≤ p.delay.2)
    (d : Draws) {a b n : ℕ} (ha : 0 < a) (hb : 0 < b) (xg : Fin a → ℝ) (yg : Fin b → ℝ) (tg : Fin (n + 1) → ℝ)
    (ht : ∀ k, 0 ≤ p.tau (tg k) ∧ p.tau (tg k) ≤ p.tau (tg (Fin.last n))) :
    ∃ (N : ℕ) (v0 v1 : Option (Fin N → ℂ)),
      genGaussian N p.dtUpdate (p.freq.1.smul (2 * Real.pi)) p.amp.1 d.pm0.1 d.pm0.2 = .ok v0 ∧
      genGaussian N p.dtUpdate (p.freq.2.smul (2 * Real.pi)) p.amp.2 d.pm1.1 d.pm1.2 = .ok v1 ∧
      (∀ k (m : Fin p.n0), p.tau (tg k) + (m : ℕ) * p.delay.1 / p.n0 ≤ ((N : ℝ) - 1) * p.dtUpdate) ∧
      (∀ k (l : Fin p.n1), p.tau (tg k) + (l : ℕ) * p.delay.2 / p.n1 ≤ ((N : ℝ) - 1) * p.dtUpdate) ∧
      ∃ E, p.evaluate d (fun i (_ : Fin b) (_ : Fin (n + 1)) => xg i) (fun (_ : Fin a) j _ => yg j)
        (fun _ _ k => tg k) = .ok E ∧
      ∀ z0 z1, v0 = some z0 → v1 = some z1 → ∀ i j k,
        E i j k = some (speckleField p.lambda0 p.focalLength p.aperture.1 p.aperture.2 p.withEnvelope
          (fun _ _ => 1) (p.phasePlate d)
          (fun m l =>
            lerpSeries p.dtUpdate (extend fun q => ((z0 q).re + (z0 q).im) / Real.sqrt 2)
              (p.tau (tg k) + (m : ℕ) * p.delay.1 / p.n0) +
            lerpSeries p.dtUpdate (extend fun q => ((z1 q).re + (z1 q).im) / Real.sqrt 2)
              (p.tau (tg k) + (l : ℕ) * p.delay.2 / p.n1)) (xg i) (yg j)) := by
  have hlen := arangeLen_series hdt (ht (Fin.last n)).1
  have hn0 : p.seriesLen (tg (Fin.last n)) ≠ 0 := by
    have : 0 ≤ ⌈p.tau (tg (Fin.last n)) / p.dtUpdate⌉ := Int.ceil_nonneg (by have := (ht (Fin.last n)).1; positivity)
    unfold Speckle.seriesLen
    omega
  obtain ⟨N, hN⟩ : ∃ N, N = p.seriesLen (tg (Fin.last n)) + ⌊(p.delay.1 + p.delay.2) / p.dtUpdate⌋₊ + 2 := ⟨_, rfl⟩
  obtain ⟨v0, v1, h0, h1, hs⟩ := series_ssd p hp hdt (add_nonneg hdel.1 hdel.2) d hn0 hN
  have hcov : ∀ (k : Fin (n + 1)) (dl : ℝ), 0 ≤ dl → dl ≤ p.delay.1 + p.delay.2 →
      0 ≤ p.tau (tg k) + dl ∧ ⌊(p.tau (tg k) + dl) / p.dtUpdate⌋₊ + 1 < N ∧
      p.tau (tg k) + dl ≤ ((N : ℝ) - 1) * p.dtUpdate := by
    intro k dl hd0 hd1
    have h2 : 0 ≤ p.tau (tg k) + dl := by have := (ht k).1; linarith
    have h3 : p.tau (tg (Fin.last n)) / p.dtUpdate ≤ (p.seriesLen (tg (Fin.last n)) : ℝ) - 1 := by
      have h4 := Int.le_ceil (p.tau (tg (Fin.last n)) / p.dtUpdate)
      have h5 : (p.seriesLen (tg (Fin.last n)) : ℝ) = (⌈p.tau (tg (Fin.last n)) / p.dtUpdate⌉ : ℝ) + 1 := by
        exact_mod_cast congrArg (Int.cast : ℤ → ℝ) hlen
      linarith
    have h6 := Nat.lt_floor_add_one ((p.delay.1 + p.delay.2) / p.dtUpdate)
    have h7 : (p.tau (tg k) + dl) / p.dtUpdate < (N : ℝ) - 2 := by
      have : (p.tau (tg k) + dl) / p.dtUpdate ≤
          p.tau (tg (Fin.last n)) / p.dtUpdate + (p.delay.1 + p.delay.2) / p.dtUpdate := by
        rw [← add_div]
        exact div_le_div_of_nonneg_right (add_le_add (ht k).2 hd1) hdt.le
      rw [hN]
      push_cast
      linarith
    refine ⟨h2, ?_, ?_⟩
    · have h8 : ((⌊(p.tau (tg k) + dl) / p.dtUpdate⌋₊ : ℕ) : ℝ) < (N : ℝ) - 2 :=
        (Nat.floor_le (by positivity)).trans_lt h7
      have : ((⌊(p.tau (tg k) + dl) / p.dtUpdate⌋₊ + 2 : ℕ) : ℝ) < (N : ℝ) := by push_cast; linarith
      have : ⌊(p.tau (tg k) + dl) / p.dtUpdate⌋₊ + 2 < N := by exact_mod_cast this
      omega
    · have := (div_lt_iff₀ hdt).1 h7
      nlinarith
  have hfrac : ∀ {M : ℕ} (m : Fin M) {x : ℝ}, 0 ≤ x → 0 ≤ ((m : ℕ) : ℝ) * x / M ∧ ((m : ℕ) : ℝ) * x / M ≤ x := by
    intro M m x hx
    have hM : (0 : ℝ) < M := by have := m.2; exact_mod_cast (show 0 < M by omega)
    have hm : ((m : ℕ) : ℝ) ≤ M := by exact_mod_cast m.2.le
    refine ⟨by positivity, ?_⟩
    rw [div_le_iff₀ hM]
    nlinarith
  have hq0 := fun (k : Fin (n + 1)) (m : Fin p.n0) => hcov k (((m : ℕ) : ℝ) * p.delay.1 / p.n0) (hfrac m hdel.1).1
    ((hfrac m hdel.1).2.trans (by linarith [hdel.2]))
  have hq1 := fun (k : Fin (n + 1)) (l : Fin p.n1) => hcov k (((l : ℕ) : ℝ) * p.delay.2 / p.n1) (hfrac l hdel.2).1
    ((hfrac l hdel.2).2.trans (by linarith [hdel.1]))
  refine ⟨N, v0, v1, h0, h1, fun k m => (hq0 k m).2.2, fun k l => (hq1 k l).2.2, ?_⟩
  have hnone : ∀ x : ℝ, Speckle.interpSeries (fun k : Fin N => ((k : ℕ) : ℝ) * p.dtUpdate) (none : Option (Fin N → ℝ)) x =
      .ok none := by
    intro x
    unfold Speckle.interpSeries
    rw [dif_pos rfl]
  rcases v0 with _ | z0
  · have h := evaluate_eq p d ha hb (fun i (_ : Fin b) (_ : Fin (n + 1)) => xg i) (fun (_ : Fin a) j _ => yg j)
      (fun _ _ k => tg k) hs (bc := fun _ _ _ => none) (by
        intro k m l
        simp only [Speckle.beamlet, hp, Option.map_none, hnone, bind, Except.bind, pure, Except.pure]
        rcases v1 with _ | z1
        · simp only [Option.map_none, hnone]
        · simp only [Option.map_some, interpSeries_eq hdt _ (hq1 k l).1 (hq1 k l).2.1])
    exact ⟨_, h, fun z0 z1 h => by cases h⟩
  · rcases v1 with _ | z1
    · have h := evaluate_eq p d ha hb (fun i (_ : Fin b) (_ : Fin (n + 1)) => xg i) (fun (_ : Fin a) j _ => yg j)
        (fun _ _ k => tg k) hs (bc := fun _ _ _ => none) (by
          intro k m l
          simp only [Speckle.beamlet, hp, Option.map_none, Option.map_some, hnone, bind, Except.bind, pure, Except.pure,
            interpSeries_eq hdt _ (hq0 k m).1 (hq0 k m).2.1])
      exact ⟨_, h, fun z0 z1 _ h => by cases h⟩
    · have h := evaluate_mesh p (fun _ => hNb) d ha hb xg yg tg hs (bc := fun k m l => exp (I * (
          lerpSeries p.dtUpdate (extend fun q => ((z0 q).re + (z0 q).im) / Real.sqrt 2)
              (p.tau (tg k) + (m : ℕ) * p.delay.1 / p.n0) +
            lerpSeries p.dtUpdate (extend fun q => ((z1 q).re + (z1 q).im) / Real.sqrt 2)
              (p.tau (tg k) + (l : ℕ) * p.delay.2 / p.n1) : ℝ))) (by
          intro k m l
          simp only [Speckle.beamlet, hp, Option.map_some, bind, Except.bind, pure, Except.pure,
            interpSeries_eq hdt _ (hq0 k m).1 (hq0 k m).2.1, interpSeries_eq hdt _ (hq1 k l).1 (hq1 k l).2.1]
          rfl)
      refine ⟨_, h, ?_⟩
      intro z0' z1' e0 e1 i j k
      cases e0
      cases e1
      simp only [speckleField_phase]

/-! ## C64 -/

/-- construction in `rt` geometry for a profile with an energy: the sampled field, times a factor -/
theorem Laser.init_rt_energy (lo0 lo1 hi0 hi1 : ℝ) (nr nt n N : ℕ) (h0 : 2 ≤ nr) (h1 : 2 ≤ nt) (hn : 1 ≤ n)
    (hN : 2 * n - 1 ≤ N) (p : ProfileObj) (nT : Option ℕ) (hT : nT.getD (2 * n - 1) = N) :
    ∃ (l : Laser ⟨2 * n - 1, nr, nt⟩) (a : ℝ),
      Laser.init "rt" [lo0, lo1] [hi0, hi1] [nr, nt] p (some n) nT = .ok ⟨_, l⟩ ∧
      l.Has fun i j k => sampledRT p n N hN hn (linspace lo0 hi0 nr) (linspace lo1 hi1 nt) i j k * (a : ℂ) := by
  subst hT
  obtain ⟨g, hg⟩ := Grid.init_rt lo0 lo1 hi0 hi1 nr nt n h0 h1 hn true
  have hh := Grid.init_holds hg
  obtain ⟨-, -, -, -, hc⟩ := Grid.init_ok hg
  rcases hc with ⟨l0, l1, u0, u1, m', r, t, rest, e1, e2, e3, e4, e5, e6, e7, e8, hm, e9⟩ |
    ⟨l0, l1, l2, u0, u1, u2, x, y, t, e1, -⟩
  swap
  · exact absurd e1 (by decide)
  simp only [List.cons.injEq, and_true] at e2 e3
  obtain ⟨rfl, rfl⟩ := e2
  obtain ⟨rfl, rfl⟩ := e3
  obtain rfl : n = m' := by simpa using e5
  have hr : r.pts = linspace lo0 hi0 nr := by obtain ⟨_, h⟩ := mkAxis_ok e6; rw [h]
  have ht : g.t.pts = linspace lo1 hi1 nt := by obtain ⟨_, h⟩ := mkAxis_ok e7; rw [e8, h]
  set f := sampledRT p n _ hN hn (linspace lo0 hi0 nr) (linspace lo1 hi1 nt) with hf
  have hs : Laser.sample g p nT = .ok (Arr.toNd ⟨.c128, f⟩) := by
    unfold Laser.sample
    rw [e9]
    simp only [hN, dif_pos, hr, ht]
    rfl
  obtain ⟨g', e', h', -⟩ := hh.setT f
  have hset := onGrid_eq (l := Laser.raw g p) e'
  have one : f = fun i j k => f i j k * ((1 : ℝ) : ℂ) := by funext i j k; simp
  rcases he : p.laserEnergy with _ | _ | E
  · refine ⟨{ Laser.raw g p with grid := g' }, 1, ?_, by rw [← one]; exact h'⟩
    unfold Laser.init
    simp only [hg, hs, Bind.bind, Except.bind, hset, he]
  · refine ⟨{ Laser.raw g p with grid := g' }, 1, ?_, by rw [← one]; exact h'⟩
    unfold Laser.init
    simp only [hg, hs, Bind.bind, Except.bind, hset, he]
    rfl
  · by_cases hE : pulseEnergy g' f = 0
    · obtain ⟨g2, e2, h2, -⟩ := Grid.Holds.normEnergy_zero h' E hE
      refine ⟨{ Laser.raw g p with grid := g2 }, 1, ?_, by rw [← one]; exact h2⟩
      unfold Laser.init
      simp only [hg, hs, Bind.bind, Except.bind, hset, he, Laser.normalize, if_true,
        onGrid_eq (l := { Laser.raw g p with grid := g' }) e2]
    · obtain ⟨g2, e2, h2, -⟩ := Grid.Holds.normEnergy h' E hE
      refine ⟨{ Laser.raw g p with grid := g2 }, _, ?_, h2⟩
      unfold Laser.init
      simp only [hg, hs, Bind.bind, Except.bind, hset, he, Laser.normalize, if_true,
        onGrid_eq (l := { Laser.raw g p with grid := g' }) e2]

/-- what a static speckle profile without envelope evaluates to on the mesh of an `rt` laser -/
theorem sampleTheta_speckle (p : Speckle) (hp : p.smoothing = .rpp ∨ p.smoothing = .cpp) (henv : p.withEnvelope = false)
    (d : Draws) (om : ℝ) (pol : ℂ × ℂ) (E : Option ℝ) {N nr nt : ℕ} (hN : 0 < N) (hr : 0 < nr) (ht : 0 < nt)
    (r : Fin nr → ℝ) (t : Fin nt → ℝ) (q : Fin N) (j : Fin nr) (k : Fin nt) :
    Laser.sampleTheta (p.toProfile d om pol E) N r t q j k =
      speckleField p.lambda0 p.focalLength p.aperture.1 p.aperture.2 false (fun _ _ => 1) (p.phasePlate d)
        (fun _ _ => 0) (r ⟨0, hr⟩ * Real.cos (2 * Real.pi / N * (q : ℕ))) 0 := by
  obtain ⟨nt, rfl⟩ : ∃ m, nt = m + 1 := ⟨nt - 1, by omega⟩
  have hser : ∀ n, p.series d n = .ok .none := by
    intro n
    rcases hp with hp | hp <;> simp [Speckle.series, hp]
  have h := evaluate_eq p d hN hr (fun q j (_ : Fin (nt + 1)) => r j * Real.cos (2 * Real.pi / N * (q : ℕ)))
    (fun q j _ => r j * Real.sin (2 * Real.pi / N * (q : ℕ))) (fun _ _ k => t k) (s := .none) (hser _)
    (bc := fun _ _ _ => some 1) (by
      intro k m l
      rcases hp with hp | hp <;> simp [Speckle.beamlet, hp])
  unfold Laser.sampleTheta
  simp only [Speckle.toProfile]
  rw [h]
  simp only [resultOr]
  have hpat := pattern_eq p (by simp [henv]) d (fun _ _ => 1) (r ⟨0, hr⟩ * Real.cos (2 * Real.pi / N * (q : ℕ))) 0
  unfold Speckle.pattern at hpat ⊢
  simp only [henv, Bool.false_eq_true, false_and, if_false] at hpat ⊢
  rw [show r j * Real.sin (2 * Real.pi / N * ((⟨0, hN⟩ : Fin N) : ℕ)) = 0 by simp, hpat]
  simp

/-- **C64 (refuted).** A laser in `rt` geometry that is made from a static speckle profile without transverse envelope
does not depend on the radius at all, whatever the profile, draws and grid. -/
theorem C64_rt_refuted (p : Speckle) (hp : p.smoothing = .rpp ∨ p.smoothing = .cpp) (henv : p.withEnvelope = false)
    (d : Draws) (om : ℝ) (pol : ℂ × ℂ) (E : Option ℝ) (lo0 lo1 hi0 hi1 : ℝ) (nr nt n N : ℕ) (h0 : 2 ≤ nr) (h1 : 2 ≤ nt)
    (hn : 1 ≤ n) (hN : 2 * n - 1 ≤ N) (nT : Option ℕ) (hT : nT.getD (2 * n - 1) = N) :
    ∃ (l : Laser ⟨2 * n - 1, nr, nt⟩) (f : Field ⟨2 * n - 1, nr, nt⟩),
      Laser.init "rt" [lo0, lo1] [hi0, hi1] [nr, nt] (p.toProfile d om pol E) (some n) nT = .ok ⟨_, l⟩ ∧
      l.Has f ∧ ∀ i j j' k, f i j k = f i j' k := by
  obtain ⟨l, a, e, hl⟩ := Laser.init_rt_energy lo0 lo1 hi0 hi1 nr nt n N h0 h1 hn hN (p.toProfile d om pol E) nT hT
  refine ⟨l, _, e, hl, ?_⟩
  intro i j j' k
  unfold sampledRT
  simp only [sampleTheta_speckle p hp henv d om pol E (show 0 < N by omega) (show 0 < nr by omega) (show 0 < nt by omega)]

/-- a random phase plate of two elements, with phases 0 and π: the field in the focal plane is `2 i sin(π x / 2)` -/
noncomputable def exPlate : Speckle where
  lambda0 := 1
  focalLength := 1
  aperture := (1, 1)
  n0 := 2
  n1 := 1
  smoothing := .rpp
  bandwidth := 1
  dtUpdate := 1 / 50
  withEnvelope := false
  amp := (0, 0)
  freq := (.nan, .nan)
  delay := (0, 0)

/-- draws in which the second element of the plate has phase π -/
noncomputable def exDraws : Draws where
  choice := fun m _ => decide (m = 1)
  uniform := fun _ _ => 0
  uniform_mem := fun _ _ => ⟨le_rfl, zero_lt_one⟩
  dephasing := (0, 0)
  pm0 := (fun _ => 1, fun _ => 0)
  pm1 := (fun _ => 1, fun _ => 0)
  isi := fun _ _ => (fun _ => 1, fun _ => 0)

omit [Phys] in
theorem exPlate_field (x y : ℝ) : speckleField exPlate.lambda0 exPlate.focalLength exPlate.aperture.1 exPlate.aperture.2
    exPlate.withEnvelope (fun _ _ => 1) (exPlate.phasePlate exDraws) (fun _ _ => 0) x y =
      2 * I * (Real.sin (Real.pi * x / 2) : ℂ) := by
  unfold speckleField speckleSum
  have h : ∀ z : ℝ, exp (I * (z : ℂ)) = Complex.cos z + Complex.sin z * I := by
    intro z; rw [mul_comm, Complex.exp_mul_I]
  simp only [exPlate, exDraws, Speckle.phasePlate, focusK, beamletCentre, Bool.false_eq_true, if_false, one_mul, h]
  have key : ∀ G : Fin 2 → Fin 1 → ℂ, ∑ m, ∑ l, G m l = G 0 0 + G 1 0 := by
    intro G
    rw [Fin.sum_univ_two]
    simp
  refine (key _).trans ?_
  simp only [Fin.val_zero, Fin.val_one, 
    decide_true, if_true, zero_ne_one, decide_false, Bool.false_eq_true, if_false]
  have e1 : (-(2 * Real.pi / 1) * ((-1 / 2 + 1 / ((2 : ℕ) : ℝ) * (((0 : ℕ) : ℝ) + 1 / 2)) / 1) * x +
    -(2 * Real.pi / 1) * ((-1 / 2 + 1 / ((1 : ℕ) : ℝ) * (((0 : ℕ) : ℝ) + 1 / 2)) / 1) * y + 0 + 0 : ℝ) = Real.pi * x / 2 := by
    push_cast; ring
  have e2 : (-(2 * Real.pi / 1) * ((-1 / 2 + 1 / ((2 : ℕ) : ℝ) * (((1 : ℕ) : ℝ) + 1 / 2)) / 1) * x +
    -(2 * Real.pi / 1) * ((-1 / 2 + 1 / ((1 : ℕ) : ℝ) * (((0 : ℕ) : ℝ) + 1 / 2)) / 1) * y + Real.pi + 0 : ℝ) =
      Real.pi - Real.pi * x / 2 := by
    push_cast; ring
  rw [e1, e2]
  rw [← Complex.ofReal_cos, ← Complex.ofReal_cos, ← Complex.ofReal_sin, ← Complex.ofReal_sin, Real.cos_pi_sub,
    Real.sin_pi_sub]
  push_cast
  ring

/-- ... and the light can be lost altogether: here the field of the profile is `2 i sin(π x / 2)`, yet the laser in `rt`
geometry is zero everywhere, although a laser energy of 1 J was requested -/
theorem C64_rt_zero_refuted :
    (∀ x y : ℝ, speckleField exPlate.lambda0 exPlate.focalLength exPlate.aperture.1 exPlate.aperture.2
      exPlate.withEnvelope (fun _ _ => 1) (exPlate.phasePlate exDraws) (fun _ _ => 0) x y =
        2 * I * (Real.sin (Real.pi * x / 2) : ℂ)) ∧
    ∃ l : Laser ⟨1, 8, 4⟩,
      Laser.init "rt" [0, 0] [1, 1] [8, 4] (exPlate.toProfile exDraws 1 (1, 0) (some 1)) (some 1) none = .ok ⟨_, l⟩ ∧
      l.Has fun _ _ _ => 0 := by
  refine ⟨exPlate_field, ?_⟩
  obtain ⟨l, a, e, hl⟩ := Laser.init_rt_energy 0 0 1 1 8 4 1 1 (by norm_num) (by norm_num) le_rfl le_rfl
    (exPlate.toProfile exDraws 1 (1, 0) (some 1)) none rfl
  refine ⟨l, e, ?_⟩
  have : (fun i j k => sampledRT (exPlate.toProfile exDraws 1 (1, 0) (some 1)) 1 1 le_rfl le_rfl (linspace 0 1 8)
      (linspace 0 1 4) i j k * (a : ℂ)) = fun _ _ _ => 0 := by
    funext i j k
    unfold sampledRT
    have hz : ∀ q : Fin 1, Laser.sampleTheta (exPlate.toProfile exDraws 1 (1, 0) (some 1)) 1 (linspace 0 1 8)
        (linspace 0 1 4) q j k = 0 := by
      intro q
      rw [sampleTheta_speckle exPlate (.inl rfl) rfl exDraws 1 (1, 0) (some 1) (by norm_num) (by norm_num) (by norm_num)]
      have := exPlate_field (linspace 0 1 8 (⟨0, by norm_num⟩ : Fin 8) * Real.cos (2 * Real.pi / (1 : ℕ) * (q : ℕ))) 0
      rw [show exPlate.withEnvelope = false from rfl] at this
      rw [this]
      simp [linspace]
    simp [ifft, hz]
  rw [this] at hl
  exact hl

/-! ## C88: the Gaussian time series -/

omit [Phys] in
theorem sum_roll {n : ℕ} (q : ℤ) (f : Fin n → ℝ) : ∑ i, roll q f i = ∑ i, f i := by
  rcases Nat.eq_zero_or_pos n with rfl | hn
  · simp
  · refine Fintype.sum_equiv (⟨fun i => wrapIndex hn ((i : ℕ) - q), fun i => wrapIndex hn ((i : ℕ) + q), ?_, ?_⟩ :
      Fin n ≃ Fin n) _ _ ?_
    · intro i
      refine wrapIndex_of hn ?_
      rw [wrapIndex_val, Int.emod_add_emod, sub_add_cancel]
      exact emod_fin i
    · intro i
      refine wrapIndex_of hn ?_
      rw [wrapIndex_val, Int.emod_sub_emod, add_sub_cancel_right]
      exact emod_fin i
    · intro i; rfl

omit [Phys] in
/-- the mean square of the unnormalised series is the sum of the squares of the spectral amplitudes -/
theorem spectral_power {n : ℕ} (hn : n ≠ 0) (z : Fin n → ℂ) :
    (∑ k, ‖ifftshift (fft (fftshift z)) k‖ ^ 2) / n = ∑ k, ‖z k‖ ^ 2 := by
  have h1 : ∑ k, ‖ifftshift (fft (fftshift z)) k‖ ^ 2 = ∑ k, ‖fft (fftshift z) k‖ ^ 2 :=
    sum_roll _ fun k => ‖fft (fftshift z) k‖ ^ 2
  have h2 : ∑ k, ‖fftshift z k‖ ^ 2 = ∑ k, ‖z k‖ ^ 2 := sum_roll _ fun k => ‖z k‖ ^ 2
  have hn' : (n : ℝ) ≠ 0 := by exact_mod_cast hn
  rw [h1, parseval_fft, h2, mul_div_cancel_left₀ _ hn']

omit [Phys] in
/-- **C88.** `gen_gaussian_time_series` with a non-zero width: whatever the draws, unless they are all zero, it returns as
many samples as asked for, and their root mean square is exactly the one asked for. -/
theorem C88_rms {n : ℕ} (hn : n ≠ 0) (dt w rms : ℝ) (hw : w ≠ 0) (re im : ℕ → ℝ) (hd : ∃ k < n, re k ≠ 0 ∨ im k ≠ 0) :
    ∃ v : Fin n → ℂ, genGaussian n dt (.fin w) rms re im = .ok (some v) ∧
      Real.sqrt ((∑ k, ‖v k‖ ^ 2) / n) = |rms| := by
  set psd : Fin n → ℝ := fun k => Real.exp (-Real.log 2 * 0.5 * (fftshift (fftfreq n dt) k / w * 2 * Real.pi) ^ 2)
  set z : Fin n → ℂ := fun k => (psd k : ℂ) * ((re k : ℂ) + I * (im k : ℂ)) with hz
  have hpow := spectral_power hn z
  have hpos : 0 < ∑ k, ‖z k‖ ^ 2 := by
    obtain ⟨k, hk, h⟩ := hd
    refine Finset.sum_pos' (fun _ _ => by positivity) ⟨⟨k, hk⟩, Finset.mem_univ _, ?_⟩
    have : z ⟨k, hk⟩ ≠ 0 := by
      rw [hz]
      simp only
      refine mul_ne_zero (by exact_mod_cast (Real.exp_pos _).ne') ?_
      intro h0
      have h1 := congrArg Complex.re h0
      have h2 := congrArg Complex.im h0
      simp at h1 h2
      tauto
    have := norm_pos_iff.mpr this
    positivity
  set rms0 := Real.sqrt ((∑ k, ‖ifftshift (fft (fftshift z)) k‖ ^ 2) / n) with hr
  have hr0 : 0 < rms0 := by rw [hr, hpow]; exact Real.sqrt_pos.2 hpos
  refine ⟨fun k => ifftshift (fft (fftshift z)) k * ((rms / rms0 : ℝ) : ℂ), ?_, ?_⟩
  · unfold genGaussian
    simp only [hw, if_false, hn]
    exact if_neg hr0.ne'
  · have h1 : ∀ k, ‖ifftshift (fft (fftshift z)) k * ((rms / rms0 : ℝ) : ℂ)‖ ^ 2 =
        (rms / rms0) ^ 2 * ‖ifftshift (fft (fftshift z)) k‖ ^ 2 := by
      intro k
      rw [norm_mul, mul_pow, Complex.norm_real, Real.norm_eq_abs, sq_abs, mul_comm]
    simp only [h1]
    rw [← Finset.mul_sum, mul_div_assoc, Real.sqrt_mul (sq_nonneg _), ← hr, Real.sqrt_sq_eq_abs, abs_div,
      abs_of_pos hr0, div_mul_cancel₀ _ hr0.ne']

omit [Phys] in
/-- ... and with a width of zero it returns zeros. -/
theorem C88_zero_width (n : ℕ) (dt rms : ℝ) (re im : ℕ → ℝ) :
    genGaussian n dt (.fin 0) rms re im = .ok (some fun _ => 0) := by
  simp [genGaussian]

/-! ## C89: negative times -/

omit [Phys] in
/-- the beamlets of ISI, at a time whose sample exists -/
theorem beamlet_isi (p : Speckle) (hp : p.smoothing = .gpISI) (d : Draws) {n : ℕ} (amp : Fin p.n0 → Fin p.n1 → Option (Fin n → ℂ))
    (t : ℝ) (m : Fin p.n0) (l : Fin p.n1) :
    p.beamlet d (.isi n amp) t m l =
      (pyIndex n (pyRound (t / p.dtUpdate))).map fun k => (amp m l).map fun w => w k := by
  simp only [Speckle.beamlet, hp, bind, Except.bind, pure, Except.pure]
  rcases pyIndex n (pyRound (t / p.dtUpdate)) <;> rfl

omit [Phys] in
theorem pyRound_int (i : ℤ) : pyRound i = i := by
  unfold pyRound
  simp

/-- **C89 (refuted, GP ISI).** At negative times the series are read from their end: for a profile with ISI and every
draw, the field at the normalised time `-j dt` is the field at the time `(n - j) dt`, where `n` is the number of samples
of the series up to the last time of the axis. -/
theorem C89_isi_wraps_refuted (p : Speckle) (hp : p.smoothing = .gpISI) (hdt : 0 < p.dtUpdate) (d : Draws) {a b n : ℕ}
    {ha : 0 < a} {hb : 0 < b} {x y t : Coords a b (n + 1)} {E : Fin a → Fin b → Fin (n + 1) → Option ℂ}
    (h : p.evaluate d x y t = .ok E) {M : ℕ} (hM : M = p.seriesLen (t ⟨0, ha⟩ ⟨0, hb⟩ (Fin.last n)))
    {j : ℕ} (hj : 1 ≤ j) (hjM : j ≤ M) {k k' : Fin (n + 1)}
    (hk : p.tau (t ⟨0, ha⟩ ⟨0, hb⟩ k) = -(j : ℝ) * p.dtUpdate)
    (hk' : p.tau (t ⟨0, ha⟩ ⟨0, hb⟩ k') = ((M : ℝ) - j) * p.dtUpdate) (i : Fin a) (q : Fin b) : E i q k = E i q k' := by
  obtain ⟨h0, s, bc, hs, hbc, hE⟩ := evaluate_inv p d h
  have hs' : p.series d M = .ok s := by rw [hM]; exact hs
  have hN : 0 < p.n0 ∧ 0 < p.n1 := by
    by_contra hN
    simp [Speckle.series, hp, show p.n0 = 0 ∨ p.n1 = 0 by omega] at hs'
  rw [series_isi p hp hN d (by omega)] at hs'
  obtain rfl := Except.ok.inj hs'
  have e1 : p.tau (t ⟨0, ha⟩ ⟨0, hb⟩ k) / p.dtUpdate = ((-(j : ℤ) : ℤ) : ℝ) := by
    rw [hk]; push_cast; field_simp
  have e2 : p.tau (t ⟨0, ha⟩ ⟨0, hb⟩ k') / p.dtUpdate = (((M : ℤ) - j : ℤ) : ℝ) := by
    rw [hk']; push_cast; field_simp
  have hsame : bc k = bc k' := by
    funext m l
    have h1 := hbc k m l
    have h2 := hbc k' m l
    rw [beamlet_isi p hp] at h1 h2
    rw [show p.tau (t ⟨0, h0.1⟩ ⟨0, h0.2.1⟩ k) / p.dtUpdate = _ from e1, pyRound_int] at h1
    rw [show p.tau (t ⟨0, h0.1⟩ ⟨0, h0.2.1⟩ k') / p.dtUpdate = _ from e2, pyRound_int] at h2
    have hi : pyIndex M (-(j : ℤ)) = pyIndex M ((M : ℤ) - j) := by
      unfold pyIndex
      rw [dif_neg (by omega), dif_pos (by omega), dif_pos (by omega)]
      congr 2
    rw [hi, h2] at h1
    exact (Except.ok.inj h1).symm
  rw [hE, hE, hsame]

/-- **C89 (refuted, GP ISI).** ... and if the axis begins too early before zero, `evaluate` raises an `IndexError`. -/
theorem C89_isi_error_refuted (p : Speckle) (hp : p.smoothing = .gpISI) (hn : 0 < p.n0 ∧ 0 < p.n1) (hdt : 0 < p.dtUpdate)
    (d : Draws) {a b n : ℕ} {ha : 0 < a} {hb : 0 < b} {x y t : Coords a b (n + 1)}
    {k : Fin (n + 1)} (h0 : 0 ≤ p.tau (t ⟨0, ha⟩ ⟨0, hb⟩ (Fin.last n)))
    (hk : p.tau (t ⟨0, ha⟩ ⟨0, hb⟩ k) ≤ -p.tau (t ⟨0, ha⟩ ⟨0, hb⟩ (Fin.last n)) - 4 * p.dtUpdate) :
    ∀ E, p.evaluate d x y t ≠ .ok E := by
  intro E h
  obtain ⟨h00, s, bc, hs, hbc, -⟩ := evaluate_inv p d h
  have hlen := arangeLen_series hdt h0
  have hne : p.seriesLen (t ⟨0, ha⟩ ⟨0, hb⟩ (Fin.last n)) ≠ 0 := by
    have : 0 ≤ ⌈p.tau (t ⟨0, ha⟩ ⟨0, hb⟩ (Fin.last n)) / p.dtUpdate⌉ := Int.ceil_nonneg (by positivity)
    unfold Speckle.seriesLen
    omega
  have hs' : p.series d (p.seriesLen (t ⟨0, ha⟩ ⟨0, hb⟩ (Fin.last n))) = .ok s := hs
  rw [series_isi p hp hn d hne] at hs'
  obtain rfl := Except.ok.inj hs'
  have h1 := hbc k ⟨0, hn.1⟩ ⟨0, hn.2⟩
  rw [beamlet_isi p hp] at h1
  have h2 : pyRound (p.tau (t ⟨0, ha⟩ ⟨0, hb⟩ k) / p.dtUpdate) < -(p.seriesLen (t ⟨0, ha⟩ ⟨0, hb⟩ (Fin.last n)) : ℤ) := by
    obtain ⟨-, h3, -⟩ := pyRound_bounds (p.tau (t ⟨0, ha⟩ ⟨0, hb⟩ k) / p.dtUpdate)
    have h4 : p.tau (t ⟨0, ha⟩ ⟨0, hb⟩ k) / p.dtUpdate ≤ -(p.tau (t ⟨0, ha⟩ ⟨0, hb⟩ (Fin.last n)) / p.dtUpdate) - 4 := by
      rw [div_le_iff₀ hdt]
      have : (-(p.tau (t ⟨0, ha⟩ ⟨0, hb⟩ (Fin.last n)) / p.dtUpdate) - 4) * p.dtUpdate =
          -p.tau (t ⟨0, ha⟩ ⟨0, hb⟩ (Fin.last n)) - 4 * p.dtUpdate := by field_simp
      linarith
    have h5 := Int.ceil_lt_add_one (p.tau (t ⟨0, ha⟩ ⟨0, hb⟩ k) / p.dtUpdate)
    have h6 := Int.ceil_lt_add_one (p.tau (t ⟨0, ha⟩ ⟨0, hb⟩ (Fin.last n)) / p.dtUpdate)
    have h7 : (⌈p.tau (t ⟨0, ha⟩ ⟨0, hb⟩ k) / p.dtUpdate⌉ : ℝ) <
        -(⌈p.tau (t ⟨0, ha⟩ ⟨0, hb⟩ (Fin.last n)) / p.dtUpdate⌉ : ℝ) - 2 := by linarith
    have h8 : ⌈p.tau (t ⟨0, ha⟩ ⟨0, hb⟩ k) / p.dtUpdate⌉ <
        -⌈p.tau (t ⟨0, ha⟩ ⟨0, hb⟩ (Fin.last n)) / p.dtUpdate⌉ - 2 := by exact_mod_cast h7
    unfold Speckle.seriesLen
    omega
  have h3 : pyIndex (p.seriesLen (t ⟨0, ha⟩ ⟨0, hb⟩ (Fin.last n)))
      (pyRound (p.tau (t ⟨0, ha⟩ ⟨0, hb⟩ k) / p.dtUpdate)) = .error .index := by
    unfold pyIndex
    rw [dif_neg (by omega), dif_neg (by omega)]
  have h4 : pyIndex (p.seriesLen (t ⟨0, ha⟩ ⟨0, hb⟩ (Fin.last n)))
      (pyRound (p.tau (t ⟨0, h00.1⟩ ⟨0, h00.2.1⟩ k) / p.dtUpdate)) = .error .index := h3
  rw [h4] at h1
  cases h1

omit [Phys] in
theorem interpSeries_left {N : ℕ} (dt : ℝ) (s : Option (Fin N → ℝ)) (hN : 0 < N) {x : ℝ} (hx : x ≤ 0) :
    Speckle.interpSeries (fun k : Fin N => ((k : ℕ) : ℝ) * dt) s x = .ok (s.map fun s => s ⟨0, hN⟩) := by
  unfold Speckle.interpSeries
  rw [dif_pos rfl]
  rcases s with _ | s
  · rfl
  · simp only [Fin.cast_eq_self]
    rw [npInterp_left hN _ _ (by simpa using hx)]
    rfl

/-- **C89 (refuted, GP RPM SSD).** The pattern is frozen before zero: for every draw, at any two normalised times that
are both earlier than minus the delays, the field is the same. -/
theorem C89_ssd_frozen_refuted (p : Speckle) (hp : p.smoothing = .gpSSD) (hdt : 0 < p.dtUpdate)
    (hdel : 0 ≤ p.delay.1 ∧ 0 ≤ p.delay.2) (d : Draws) {a b n : ℕ}
    {ha : 0 < a} {hb : 0 < b} {x y t : Coords a b (n + 1)} {E : Fin a → Fin b → Fin (n + 1) → Option ℂ}
    (h : p.evaluate d x y t = .ok E) (h0 : 0 ≤ p.tau (t ⟨0, ha⟩ ⟨0, hb⟩ (Fin.last n))) {k k' : Fin (n + 1)}
    (hk : p.tau (t ⟨0, ha⟩ ⟨0, hb⟩ k) ≤ -p.delay.1 - p.delay.2)
    (hk' : p.tau (t ⟨0, ha⟩ ⟨0, hb⟩ k') ≤ -p.delay.1 - p.delay.2) (i : Fin a) (q : Fin b) : E i q k = E i q k' := by
  obtain ⟨h00, s, bc, hs, hbc, hE⟩ := evaluate_inv p d h
  have hlen := arangeLen_series hdt h0
  have hne : p.seriesLen (t ⟨0, ha⟩ ⟨0, hb⟩ (Fin.last n)) ≠ 0 := by
    have : 0 ≤ ⌈p.tau (t ⟨0, ha⟩ ⟨0, hb⟩ (Fin.last n)) / p.dtUpdate⌉ := Int.ceil_nonneg (by positivity)
    unfold Speckle.seriesLen
    omega
  have hs' : p.series d (p.seriesLen (t ⟨0, ha⟩ ⟨0, hb⟩ (Fin.last n))) = .ok s := hs
  obtain ⟨N, hN⟩ : ∃ N, N = p.seriesLen (t ⟨0, ha⟩ ⟨0, hb⟩ (Fin.last n)) +
    ⌊(p.delay.1 + p.delay.2) / p.dtUpdate⌋₊ + 2 := ⟨_, rfl⟩
  obtain ⟨v0, v1, -, -, hs2⟩ := series_ssd p hp hdt (add_nonneg hdel.1 hdel.2) d hne hN
  rw [hs2] at hs'
  obtain rfl := Except.ok.inj hs'
  have hfrac : ∀ {M : ℕ} (m : Fin M) {x : ℝ}, 0 ≤ x → ((m : ℕ) : ℝ) * x / M ≤ x := by
    intro M m x hx
    have hM : (0 : ℝ) < M := by have := m.2; exact_mod_cast (show 0 < M by omega)
    have hm : ((m : ℕ) : ℝ) ≤ M := by exact_mod_cast m.2.le
    rw [div_le_iff₀ hM]
    nlinarith
  have hb1 : ∀ τ, τ ≤ -p.delay.1 - p.delay.2 → ∀ m l, p.beamlet d (.ssd N N (fun k => ((k : ℕ) : ℝ) * p.dtUpdate)
      (v0.map Speckle.realPart) (v1.map Speckle.realPart)) τ m l =
      p.beamlet d (.ssd N N (fun k => ((k : ℕ) : ℝ) * p.dtUpdate)
      (v0.map Speckle.realPart) (v1.map Speckle.realPart)) (-p.delay.1 - p.delay.2) m l := by
    intro τ hτ m l
    have a1 := hfrac m hdel.1
    have a2 := hfrac l hdel.2
    simp only [Speckle.beamlet, hp]
    rw [interpSeries_left _ _ (by omega) (by linarith [hdel.2]), interpSeries_left _ _ (by omega) (by linarith [hdel.1]),
      interpSeries_left _ _ (by omega) (by linarith [hdel.2]), interpSeries_left _ _ (by omega) (by linarith [hdel.1])]
  have hsame : bc k = bc k' := by
    funext m l
    have h1 := hbc k m l
    have h2 := hbc k' m l
    rw [hb1 _ hk] at h1
    rw [hb1 _ hk'] at h2
    rw [h1] at h2
    exact Except.ok.inj h2
  rw [hE, hE, hsame]

/-! ## C90: the checks of the arguments -/

omit [Phys] in
theorem isSSD_of {s : Smoothing} (h : s = .fmSSD ∨ s = .gpSSD) : s.isSSD = true := by
  rcases h with rfl | rfl <;> rfl

omit [Phys] in
theorem speckle_bind_inv {α β : Type} {a : Except PyErr α} {f : α → Except PyErr β} {b : β} (h : (a >>= f) = .ok b) :
    ∃ v, a = .ok v ∧ f v = .ok b := by
  cases a with
  | error e => cases h
  | ok v => exact ⟨v, rfl, h⟩

omit [Phys] in
/-- **C90 (refuted).** A missing SSD argument is documented (and asserted) to be an `AssertionError`, but without the
distribution of the bandwidth, or without the modulation amplitudes, the construction ends with a `TypeError`. -/
theorem C90_missing_refuted (base : Speckle) (hs' : base.smoothing = .fmSSD ∨ base.smoothing = .gpSSD) (hbw : base.bandwidth ≠ 0)
    (amp cycles dist : Option (ℝ × ℝ)) (h : dist = none ∨ amp = none) :
    Speckle.init base amp cycles dist = .error .type := by
  have hs := isSSD_of hs'
  unfold Speckle.init
  rw [if_neg hbw]
  simp only [hs, if_true, ssdInit]
  rcases dist with _ | dist
  · rfl
  · rcases h with h | h
    · cases h
    · subst h; rfl

omit [Phys] in
/-- **C90 (refuted).** Without the colour cycles the construction ends with a `TypeError` too, if any bandwidth goes to
either direction (whatever the modulation amplitudes are, zeros included). -/
theorem C90_cycles_refuted (base : Speckle) (hs' : base.smoothing = .fmSSD ∨ base.smoothing = .gpSSD) (hbw : 0 < base.bandwidth)
    (a r : ℝ × ℝ) (ha : 0 ≤ a.1 ∧ 0 ≤ a.2) (hr : 0 < r.1 ∨ 0 < r.2) :
    Speckle.init base (some a) none (some r) = .error .type := by
  have hs := isSSD_of hs'
  have hnorm : 0 < Real.sqrt (r.1 ^ 2 + r.2 ^ 2) := by
    apply Real.sqrt_pos.2
    rcases hr with h | h <;> positivity
  have hpos : ∀ d α : ℝ, 0 < d → 0 ≤ α → (ssdFreq base.bandwidth α d (Real.sqrt (r.1 ^ 2 + r.2 ^ 2))).isPos := by
    intro d α hd hα
    have hf : 0 < base.bandwidth * (d / Real.sqrt (r.1 ^ 2 + r.2 ^ 2)) * 0.5 := by positivity
    rcases hα.eq_or_lt with rfl | hα
    · simp only [ssdFreq, NpF.div, if_neg hnorm.ne', if_true, if_neg hf.ne', NpF.isPos]
      simpa using hf.le
    · simp only [ssdFreq, NpF.div, if_neg hnorm.ne', if_neg hα.ne', NpF.isPos]
      positivity
  unfold Speckle.init
  rw [if_neg hbw.ne']
  simp only [hs, if_true, ssdInit, Option.elim, bind, Except.bind]
  unfold ssdCycles
  rw [if_pos]
  · rfl
  · rcases hr with h | h
    · exact .inl (hpos _ _ h ha.1)
    · exact .inr (hpos _ _ h ha.2)

/-- the premises of `C90_cycles_refuted` are met: all the bandwidth in `y` -/
example : ∃ base : Speckle, Speckle.init base (some (1, 1)) none (some (0, 1)) = .error .type :=
  ⟨⟨1, 1, (1, 1), 2, 2, .fmSSD, 1, 1, false, (0, 0), (.nan, .nan), (0, 0)⟩, C90_cycles_refuted _ (.inl rfl) one_pos _ _
    ⟨one_pos.le, one_pos.le⟩ (.inr one_pos)⟩

omit [Phys] in
/-- C90, the part that holds: whatever is accepted has a positive bandwidth, and for SSD all three arguments given, each
with a positive component. -/
theorem C90_accepted_partial (base : Speckle) (amp cycles dist : Option (ℝ × ℝ)) (p : Speckle)
    (h : Speckle.init base amp cycles dist = .ok p) :
    0 < base.bandwidth ∧ (base.smoothing = .fmSSD ∨ base.smoothing = .gpSSD →
      ∀ q ∈ [amp, cycles, dist], ∃ v : ℝ × ℝ, q = some v ∧ (0 < v.1 ∨ 0 < v.2)) := by
  unfold Speckle.init at h
  split at h
  · cases h
  · classical
    have fin : ∀ p' : Speckle, (if base.bandwidth ≤ 0 then Except.error PyErr.assertion
        else if base.smoothing.isSSD = true ∧ ¬ (ssdArgOK cycles ∧ ssdArgOK dist ∧ ssdArgOK amp) then
          Except.error PyErr.assertion
        else Except.ok p') = Except.ok p → 0 < base.bandwidth ∧ (base.smoothing = .fmSSD ∨ base.smoothing = .gpSSD →
          ∀ q ∈ [amp, cycles, dist], ∃ v : ℝ × ℝ, q = some v ∧ (0 < v.1 ∨ 0 < v.2)) := by
      intro p' h
      split at h
      · cases h
      rename_i hb
      split at h
      · cases h
      rename_i hq
      refine ⟨not_le.1 hb, fun hs => ?_⟩
      rw [not_and, not_not] at hq
      obtain ⟨h1, h2, h3⟩ := hq (isSSD_of hs)
      have key : ∀ q, ssdArgOK q → ∃ v : ℝ × ℝ, q = some v ∧ (0 < v.1 ∨ 0 < v.2) := by
        rintro (_ | v) hv
        · exact hv.elim
        · exact ⟨v, rfl, hv⟩
      intro q hq'
      simp only [List.mem_cons, List.not_mem_nil, or_false] at hq'
      rcases hq' with rfl | rfl | rfl
      · exact key _ h3
      · exact key _ h1
      · exact key _ h2
    simp only at h
    split at h
    · obtain ⟨p', -, h⟩ := speckle_bind_inv h
      exact fin p' h
    · obtain ⟨p', -, h⟩ := speckle_bind_inv h
      exact fin p' h

omit [Phys] in
/-- C90, the part that holds: SSD arguments that are all given, but one of which has no positive component, are refused with
the documented `AssertionError`. -/
theorem C90_zeros_partial (base : Speckle) (hs' : base.smoothing = .fmSSD ∨ base.smoothing = .gpSSD) (hbw : 0 < base.bandwidth) (a q r : ℝ × ℝ)
    (h : (a.1 ≤ 0 ∧ a.2 ≤ 0) ∨ (q.1 ≤ 0 ∧ q.2 ≤ 0) ∨ (r.1 ≤ 0 ∧ r.2 ≤ 0)) :
    Speckle.init base (some a) (some q) (some r) = .error .assertion := by
  have hs := isSSD_of hs'
  have hcyc : ∀ fr, ssdCycles (some q) fr = .ok q := by
    intro fr
    unfold ssdCycles
    split <;> rfl
  unfold Speckle.init
  rw [if_neg hbw.ne']
  simp only [hs, if_true, ssdInit, Option.elim, bind, Except.bind, hcyc, pure, Except.pure, if_neg (not_le.2 hbw)]
  rw [if_pos]
  refine ⟨hs, fun ⟨h1, h2, h3⟩ => ?_⟩
  simp only [ssdArgOK] at h1 h2 h3
  rcases h with h | h | h
  · rcases h3 with h' | h' <;> linarith [h.1, h.2]
  · rcases h1 with h' | h' <;> linarith [h.1, h.2]
  · rcases h2 with h' | h' <;> linarith [h.1, h.2]

/-- **C90 (refuted).** A modulation amplitude of zero in one direction is accepted ("cannot be all zeros"), but then the
field of an FM SSD profile is `nan` at every point and time, for every draw. -/
theorem C90_nan_refuted (base : Speckle) (hs : base.smoothing = .fmSSD) (hn : 0 < base.n0 ∧ 0 < base.n1)
    (hbw : 0 < base.bandwidth) (δ : ℝ) (hδ : 0 < δ) (q r : ℝ × ℝ) (hq : 0 < q.1 ∨ 0 < q.2) (hr' : 0 < r.1 ∨ 0 < r.2)
    (d : Draws) {a b n : ℕ} (ha : 0 < a) (hb : 0 < b) (x y t : Coords a b (n + 1)) :
    ∃ p, Speckle.init base (some (δ, 0)) (some q) (some r) = .ok p ∧
      p.evaluate d x y t = .ok fun _ _ _ => none := by
  have hnorm : 0 < Real.sqrt (r.1 ^ 2 + r.2 ^ 2) := by
    apply Real.sqrt_pos.2
    rcases hr' with h | h <;> positivity
  have hinf : ∀ v : ℝ, ssdFreq base.bandwidth 0 r.2 (Real.sqrt (r.1 ^ 2 + r.2 ^ 2)) ≠ .fin v := by
    intro v
    simp only [ssdFreq, NpF.div, if_neg hnorm.ne', if_true]
    split <;> simp
  have hcyc : ∀ fr, ssdCycles (some q) fr = .ok q := by
    intro fr
    unfold ssdCycles
    split <;> rfl
  refine ⟨{ base with
      dtUpdate := 1 / base.bandwidth / 50, amp := (δ, 0)
      freq := (ssdFreq base.bandwidth δ r.1 (Real.sqrt (r.1 ^ 2 + r.2 ^ 2)),
        ssdFreq base.bandwidth 0 r.2 (Real.sqrt (r.1 ^ 2 + r.2 ^ 2)))
      delay := (ssdDelay q.1 (ssdFreq base.bandwidth δ r.1 (Real.sqrt (r.1 ^ 2 + r.2 ^ 2))),
        ssdDelay q.2 (ssdFreq base.bandwidth 0 r.2 (Real.sqrt (r.1 ^ 2 + r.2 ^ 2)))) }, ?_, ?_⟩
  · unfold Speckle.init
    rw [if_neg hbw.ne']
    have hs2 : base.smoothing.isSSD = true := by rw [hs]; rfl
    simp only [ssdInit, Option.elim, hcyc, hs2, if_true, bind, Except.bind, pure, Except.pure,
      if_neg (not_le.2 hbw), ssdArgOK]
    rw [if_neg (by
      simp only [true_and, not_not]
      exact ⟨hq, hr', .inl hδ⟩)]
  · set p : Speckle := { base with
      dtUpdate := 1 / base.bandwidth / 50, amp := (δ, 0)
      freq := (ssdFreq base.bandwidth δ r.1 (Real.sqrt (r.1 ^ 2 + r.2 ^ 2)),
        ssdFreq base.bandwidth 0 r.2 (Real.sqrt (r.1 ^ 2 + r.2 ^ 2)))
      delay := (ssdDelay q.1 (ssdFreq base.bandwidth δ r.1 (Real.sqrt (r.1 ^ 2 + r.2 ^ 2))),
        ssdDelay q.2 (ssdFreq base.bandwidth 0 r.2 (Real.sqrt (r.1 ^ 2 + r.2 ^ 2)))) } with hp
    have hps : p.smoothing = .fmSSD := hs
    have hnan : ∀ (u v : ℝ), (NpF.smul 0 (NpF.sin (NpF.add u (NpF.smul v (NpF.smul (2 * Real.pi)
        (ssdFreq base.bandwidth 0 r.2 (Real.sqrt (r.1 ^ 2 + r.2 ^ 2)))))))).toOption = none := by
      intro u v
      rcases hf : ssdFreq base.bandwidth 0 r.2 (Real.sqrt (r.1 ^ 2 + r.2 ^ 2)) with w | neg | _
      · exact absurd hf (hinf w)
      · have hpi := Real.pi_pos
        simp only [NpF.smul, if_neg (show (2 * Real.pi) ≠ 0 by positivity)]
        by_cases hv : v = 0 <;> simp [hv, NpF.add, NpF.sin, NpF.toOption]
      · simp [NpF.add, NpF.sin, NpF.smul, NpF.toOption]
    have hbc : ∀ (s : p.Series) (τ : ℝ) (m : Fin p.n0) (l : Fin p.n1), p.beamlet d s τ m l = .ok none := by
      intro s τ m l
      simp only [Speckle.beamlet, hps]
      have h2 := hnan (d.dephasing.2 * Real.pi) (τ - Speckle.lens p.n1 l * p.delay.2 / p.n1)
      have h3 : (NpF.smul p.amp.2 (NpF.sin (NpF.add (d.dephasing.2 * Real.pi)
        (NpF.smul (τ - Speckle.lens p.n1 l * p.delay.2 / p.n1) (NpF.smul (2 * Real.pi) p.freq.2))))).toOption = none := h2
      rw [h3]
      split <;> simp_all
    have := evaluate_eq p d ha hb x y t (s := .none) (by simp [Speckle.series, hps]) (bc := fun _ _ _ => none)
      (fun k m l => hbc _ _ m l)
    rw [this]
    congr 1
    funext i j k
    have hsum : ∀ f : Option ℂ → Fin p.n0 → Fin p.n1 → Option ℂ, (∀ m l, f none m l = none) →
        Speckle.nanSum (f none) = none := by
      intro f hf
      unfold Speckle.nanSum
      rw [if_neg]
      intro hall
      have := hall ⟨0, hn.1⟩ ⟨0, hn.2⟩
      simp [hf] at this
    unfold Speckle.pattern
    simp only [Option.map_none]
    have h4 := hsum (fun _ _ _ => none) (fun _ _ => rfl)
    rw [h4]
    split
    · rfl
    · split <;> rfl

/-! ## C91: continuous phase plates -/

omit [Phys] in
/-- **C91 (refuted).** The phases of a continuous phase plate are documented to lie between 0 and π, but one half of the
draws gives a negative phase: it is negative exactly if the underlying uniform number is less than 1/2. -/
theorem C91_cpp_range_refuted (p : Speckle) (hp : p.smoothing = .cpp ∨ p.smoothing = .fmSSD ∨ p.smoothing = .gpSSD)
    (d : Draws) (m : Fin p.n0) (l : Fin p.n1) : p.phasePlate d m l < 0 ↔ d.uniform m l < 1 / 2 := by
  have hpi := Real.pi_pos
  have h : p.phasePlate d m l = Real.pi * (2 * d.uniform m l - 1) := by
    rcases hp with hp | hp | hp <;> simp only [Speckle.phasePlate, hp] <;> ring
  rw [h]
  constructor
  · intro h1
    by_contra h2
    have : 0 ≤ Real.pi * (2 * d.uniform m l - 1) := mul_nonneg hpi.le (by linarith [not_lt.mp h2])
    linarith
  · intro h1
    exact mul_neg_of_pos_of_neg hpi (by linarith)

/-! ## C92: the bandwidth of FM SSD -/

omit [Phys] in
theorem fm_lipschitz (bw : ℝ) (hbw : 0 < bw) (δ r : ℝ × ℝ) (hδ : 0 < δ.1 ∧ 0 < δ.2) (hr : 0 ≤ r.1 ∧ 0 ≤ r.2)
    (hr' : 0 < r.1 ∨ 0 < r.2) (N0 N1 m l : ℕ) (q0 q1 ξ0 ξ1 τ τ' : ℝ) :
    |(fmPhase δ.1 (fmFreq bw δ.1 r.1 r.1 r.2) q0 ξ0 N0 m τ + fmPhase δ.2 (fmFreq bw δ.2 r.2 r.1 r.2) q1 ξ1 N1 l τ) -
      (fmPhase δ.1 (fmFreq bw δ.1 r.1 r.1 r.2) q0 ξ0 N0 m τ' + fmPhase δ.2 (fmFreq bw δ.2 r.2 r.1 r.2) q1 ξ1 N1 l τ')| ≤
      2 * Real.pi * (bw / 2 * ((r.1 + r.2) / Real.sqrt (r.1 ^ 2 + r.2 ^ 2))) * |τ - τ'| ∧
    (r.1 + r.2) / Real.sqrt (r.1 ^ 2 + r.2 ^ 2) ≤ Real.sqrt 2 ∧
    (r.1 = 0 ∨ r.2 = 0 → (r.1 + r.2) / Real.sqrt (r.1 ^ 2 + r.2 ^ 2) = 1) := by
  have hpi := Real.pi_pos
  have hnorm : 0 < Real.sqrt (r.1 ^ 2 + r.2 ^ 2) := by
    apply Real.sqrt_pos.2
    rcases hr' with h | h <;> positivity
  have one : ∀ (x dd y ξ : ℝ) (N m : ℕ), 0 < x → 0 ≤ dd →
      |fmPhase x (fmFreq bw x dd r.1 r.2) y ξ N m τ - fmPhase x (fmFreq bw x dd r.1 r.2) y ξ N m τ'| ≤
        2 * Real.pi * (bw / 2 * (dd / Real.sqrt (r.1 ^ 2 + r.2 ^ 2))) * |τ - τ'| := by
    intro x dd y ξ N m hx hd
    unfold fmPhase
    rw [← mul_sub, abs_mul, abs_of_pos hx]
    have h1 : ∀ u v : ℝ, |Real.sin u - Real.sin v| ≤ |u - v| := by
      intro u v
      have := Real.sin_sub_sin u v
      rw [this, abs_mul, abs_mul, abs_two]
      have h2 := Real.abs_sin_le_abs (x := (u - v) / 2)
      have h3 := Real.abs_cos_le_one ((u + v) / 2)
      calc 2 * |Real.sin ((u - v) / 2)| * |Real.cos ((u + v) / 2)| ≤ 2 * |(u - v) / 2| * 1 := by gcongr
        _ = |u - v| := by rw [abs_div, abs_two]; ring
    have h4 := h1 (ξ + 2 * Real.pi * fmFreq bw x dd r.1 r.2 * τ - 2 * Real.pi * y * (m - ((N : ℝ) - 1) / 2) / N)
      (ξ + 2 * Real.pi * fmFreq bw x dd r.1 r.2 * τ' - 2 * Real.pi * y * (m - ((N : ℝ) - 1) / 2) / N)
    have h5 : (ξ + 2 * Real.pi * fmFreq bw x dd r.1 r.2 * τ - 2 * Real.pi * y * (m - ((N : ℝ) - 1) / 2) / N) -
      (ξ + 2 * Real.pi * fmFreq bw x dd r.1 r.2 * τ' - 2 * Real.pi * y * (m - ((N : ℝ) - 1) / 2) / N) =
        2 * Real.pi * fmFreq bw x dd r.1 r.2 * (τ - τ') := by ring
    have h6 : 0 ≤ fmFreq bw x dd r.1 r.2 := by unfold fmFreq; positivity
    rw [h5, abs_mul (2 * Real.pi * fmFreq bw x dd r.1 r.2), abs_of_nonneg (show 0 ≤ 2 * Real.pi * fmFreq bw x dd r.1 r.2 by positivity)] at h4
    calc x * _ ≤ x * (2 * Real.pi * fmFreq bw x dd r.1 r.2 * |τ - τ'|) := by gcongr
      _ = 2 * Real.pi * (bw / 2 * (dd / Real.sqrt (r.1 ^ 2 + r.2 ^ 2))) * |τ - τ'| := by
        unfold fmFreq
        field_simp
  refine ⟨?_, ?_, ?_⟩
  · have a1 := one δ.1 r.1 q0 ξ0 N0 m hδ.1 hr.1
    have a2 := one δ.2 r.2 q1 ξ1 N1 l hδ.2 hr.2
    rw [add_sub_add_comm]
    refine (abs_add_le _ _).trans ((add_le_add a1 a2).trans (le_of_eq ?_))
    ring
  · rw [div_le_iff₀ hnorm, ← Real.sqrt_mul (by norm_num)]
    apply Real.le_sqrt_of_sq_le
    nlinarith [sq_nonneg (r.1 - r.2)]
  · rintro (h | h)
    · rw [h] at hnorm ⊢
      have : Real.sqrt ((0 : ℝ) ^ 2 + r.2 ^ 2) = r.2 := by rw [zero_pow two_ne_zero, zero_add, Real.sqrt_sq hr.2]
      rw [this] at hnorm ⊢
      rw [zero_add, div_self hnorm.ne']
    · rw [h] at hnorm ⊢
      have : Real.sqrt (r.1 ^ 2 + (0 : ℝ) ^ 2) = r.1 := by rw [zero_pow two_ne_zero, add_zero, Real.sqrt_sq hr.1]
      rw [this] at hnorm ⊢
      rw [add_zero, div_self hnorm.ne']

omit [Phys] in
/-- **C92.** Under FM SSD, for every constructed profile and all draws: the amplitude of each beamlet is a phase factor
`exp(i φ)`, and `φ` changes from one normalised time to another by no more than `π Δν (r0 + r1) / sqrt(r0² + r1²)` times the
difference in time. So the instantaneous frequency never leaves the interval around the central frequency, which is the
relative bandwidth `Δν` if only one direction is modulated, and at most `√2 Δν` wide otherwise. -/
theorem C92_fm_bandwidth (base : Speckle) (hs : base.smoothing = .fmSSD) (hbw : 0 < base.bandwidth)
    (δ q r : ℝ × ℝ) (hδ : 0 < δ.1 ∧ 0 < δ.2) (hq : 0 < q.1 ∨ 0 < q.2) (hr : 0 ≤ r.1 ∧ 0 ≤ r.2)
    (hr' : 0 < r.1 ∨ 0 < r.2) (d : Draws) :
    ∃ p, Speckle.init base (some δ) (some q) (some r) = .ok p ∧ ∃ φ : Fin p.n0 → Fin p.n1 → ℝ → ℝ,
      (∀ (S : p.Series) τ m l, p.beamlet d S τ m l = .ok (some (exp (I * (φ m l τ : ℝ))))) ∧
      (∀ m l τ τ', |φ m l τ - φ m l τ'| ≤
        2 * Real.pi * (base.bandwidth / 2 * ((r.1 + r.2) / Real.sqrt (r.1 ^ 2 + r.2 ^ 2))) * |τ - τ'|) ∧
      (r.1 + r.2) / Real.sqrt (r.1 ^ 2 + r.2 ^ 2) ≤ Real.sqrt 2 ∧
      (r.1 = 0 ∨ r.2 = 0 → (r.1 + r.2) / Real.sqrt (r.1 ^ 2 + r.2 ^ 2) = 1) := by
  obtain ⟨p, hp, -, hb⟩ := fm_beamlet base hs hbw δ q r hδ hq hr hr' d
  have h := fun m l => fm_lipschitz base.bandwidth hbw δ r hδ hr hr' p.n0 p.n1 m l (if 0 < r.1 then q.1 else 0)
    (if 0 < r.2 then q.2 else 0) (d.dephasing.1 * Real.pi) (d.dephasing.2 * Real.pi)
  exact ⟨p, hp, _, hb, fun m l τ τ' => (h m l τ τ').1, (h 0 0 0 0).2.1, (h 0 0 0 0).2.2⟩

/-! ## Cases which meet the hypotheses -/

/-- an FM SSD profile, a GP RPM SSD profile: 4 × 3 beamlets -/
noncomputable def exBase (k : Smoothing) : Speckle :=
  { exPlate with n0 := 4, n1 := 3, smoothing := k, bandwidth := 1 / 200, dtUpdate := 4 }

/-- the construction of `C62_fm_ssd` and `C92_fm_bandwidth`, with one direction that is not modulated -/
example (d : Draws) := C62_fm_ssd (exBase .fmSSD) (by norm_num [exBase]) rfl (by norm_num [exBase]) (4, 2) (1, 1) (1, 0) (by norm_num)
  (by norm_num) (by norm_num) (by norm_num) d (a := 5) (b := 7) (n := 9) (by norm_num) (by norm_num)
  (fun i => (i : ℕ)) (fun i => (i : ℕ)) (fun i => (i : ℕ))

/-- `C63_ssd` applies to a profile that can be constructed, and the delays are not zero -/
example (d : Draws) : ∃ p, Speckle.init (exBase .gpSSD) (some (4, 2)) (some (1, 1)) (some (1, 1)) = .ok p ∧
    0 < p.dtUpdate ∧ 0 < p.delay.1 ∧ 0 < p.delay.2 ∧
    ∃ E, p.evaluate d (a := 5) (b := 7) (c' := 10) (fun i _ _ => (i : ℕ)) (fun _ j _ => (j : ℕ))
      (fun _ _ k => (k : ℕ)) = .ok E := by
  obtain ⟨p, hp⟩ : ∃ p, p = ({ exBase .gpSSD with
      dtUpdate := 1 / (exBase .gpSSD).bandwidth / 50, amp := (4, 2)
      freq := (.fin (fmFreq (exBase .gpSSD).bandwidth 4 1 1 1), .fin (fmFreq (exBase .gpSSD).bandwidth 2 1 1 1))
      delay := (if (0 : ℝ) < 1 then 1 / fmFreq (exBase .gpSSD).bandwidth 4 1 1 1 else 0,
        if (0 : ℝ) < 1 then 1 / fmFreq (exBase .gpSSD).bandwidth 2 1 1 1 else 0) } : Speckle) := ⟨_, rfl⟩
  have hinit : Speckle.init (exBase .gpSSD) (some (4, 2)) (some (1, 1)) (some (1, 1)) = .ok p := by
    rw [hp]
    exact ssd_init (exBase .gpSSD) rfl (by norm_num [exBase]) (4, 2) (1, 1) (1, 1) (by norm_num) (by norm_num)
      (by norm_num) (by norm_num)
  have hd : ∀ δ : ℝ, 0 < δ → 0 < fmFreq (exBase .gpSSD).bandwidth δ 1 1 1 := by
    intro δ hδ
    have : (0 : ℝ) < Real.sqrt (1 ^ 2 + 1 ^ 2) := Real.sqrt_pos.2 (by norm_num)
    have hb : (0 : ℝ) < (exBase .gpSSD).bandwidth := by norm_num [exBase]
    unfold fmFreq
    positivity
  have h3 := hd 4 (by norm_num)
  have h4 := hd 2 (by norm_num)
  have hdt : 0 < p.dtUpdate := by rw [hp]; norm_num [exBase]
  have hd1 : 0 < p.delay.1 := by rw [hp]; simp only [zero_lt_one, if_true]; positivity
  have hd2 : 0 < p.delay.2 := by rw [hp]; simp only [zero_lt_one, if_true]; positivity
  refine ⟨p, hinit, hdt, hd1, hd2, ?_⟩
  have hc := c_pos
  obtain ⟨N, v0, v1, -, -, -, -, E, hE, -⟩ := C63_ssd p (by rw [hp]; rfl) (by rw [hp]; norm_num [exBase]) hdt ⟨hd1.le, hd2.le⟩ d
      (a := 5) (b := 7) (n := 9) (by norm_num) (by norm_num) (fun i => (i : ℕ)) (fun i => (i : ℕ)) (fun i => (i : ℕ))
      (by
        intro k
        have hk : ((k : ℕ) : ℝ) ≤ ((Fin.last 9 : Fin 10) : ℕ) := by exact_mod_cast Fin.le_last k
        rw [hp]
        simp only [Speckle.tau, exBase, exPlate, div_one]
        exact ⟨by positivity, mul_le_mul_of_nonneg_right hk hc.le⟩)
  exact ⟨E, hE⟩

/-- `C89_isi_wraps_refuted`: with the normalised times `-dt, 0, dt`, the field at the first time is the field at the last -/
example (d : Draws) : ∃ E, (exBase .gpISI).evaluate d (a := 5) (b := 7) (c' := 3) (fun i _ _ => (i : ℕ))
    (fun _ j _ => (j : ℕ)) (fun _ _ k => ((k : ℕ) - 1) * 4 / c) = .ok E ∧ ∀ i j, E i j 0 = E i j 2 := by
  have hc := c_pos
  have htau : ∀ k : Fin 3, (exBase .gpISI).tau ((((k : ℕ) : ℝ) - 1) * 4 / c) = (((k : ℕ) : ℝ) - 1) * 4 := by
    intro k
    simp only [Speckle.tau, exBase, exPlate, div_one]
    field_simp
  have hlen : (exBase .gpISI).seriesLen ((((Fin.last 2 : Fin 3) : ℕ) - 1) * 4 / c) = 2 := by
    unfold Speckle.seriesLen
    rw [htau]
    simp only [exBase, exPlate, Fin.val_last, arangeLen]
    norm_num
  have hidx : ∀ k : Fin 3, pyRound ((exBase .gpISI).tau ((((k : ℕ) : ℝ) - 1) * 4 / c) / (exBase .gpISI).dtUpdate) =
      ((k : ℕ) : ℤ) - 1 := by
    intro k
    rw [htau, show (exBase .gpISI).dtUpdate = 4 from rfl,
      show ((((k : ℕ) : ℝ) - 1) * 4 / 4) = ((((k : ℕ) : ℤ) - 1 : ℤ) : ℝ) by push_cast; ring, pyRound_int]
  have hpy : ∀ k : Fin 3, ∃ q : Fin 2, pyIndex 2 (((k : ℕ) : ℤ) - 1) = .ok q := by
    intro k
    fin_cases k
    · exact ⟨1, rfl⟩
    · exact ⟨0, rfl⟩
    · exact ⟨1, rfl⟩
  choose q hq using hpy
  have hE := evaluate_eq (exBase .gpISI) d (a := 5) (b := 7) (n := 2) (by norm_num) (by norm_num)
    (fun i _ _ => (i : ℕ)) (fun _ j _ => (j : ℕ)) (fun _ _ k => ((k : ℕ) - 1) * 4 / c)
    (s := .isi 2 ((exBase .gpISI).isiAmp d 2)) (by
      rw [hlen]
      exact series_isi _ rfl (by norm_num [exBase]) d (by norm_num))
    (bc := fun k m l => ((exBase .gpISI).isiAmp d 2 m l).map fun w : Fin 2 → ℂ => w (q k)) (by
      intro k m l
      rw [beamlet_isi _ rfl, hidx k, hq k]
      rfl)
  refine ⟨_, hE, ?_⟩
  intro i j
  refine C89_isi_wraps_refuted (exBase .gpISI) rfl (by norm_num [exBase]) d (ha := by norm_num) (hb := by norm_num) hE
    (M := 2) hlen.symm (j := 1) le_rfl (by norm_num) (k := 0) (k' := 2) ?_ ?_ i j
  · rw [htau]
    norm_num [exBase]
  · rw [htau]
    norm_num [exBase]

end Lasy
