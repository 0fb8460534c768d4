import Verif.Lemmas.LaserInit
import Verif.Props.Energy
import Verif.Spec.Modes

/-!
# Properties C12, C13, C14, C66: construction of a `Laser` from a profile, and `show`
-/

namespace Lasy
open Spec Phys Complex

theorem modeAt_iff {n : ℕ} (hn : 1 ≤ n) (i : Fin (2 * n - 1)) (m : ℤ) :
    modeAt n i = m ↔ (|m| < n ∧ pyIndex (2 * n - 1) m = .ok i) := by
  have := (C10_mode_layout n hn).2.2.2 i m
  rw [← this]
  have hi := i.2
  by_cases h : (i : ℕ) < n
  · simp only [modeAt, h, if_true, azimuthalModes]
    rw [List.getElem?_append_left (by simpa using h)]
    simp [h]
  · have h2 : (i : ℕ) - n < n - 1 := by omega
    simp only [modeAt, azimuthalModes, h, if_false]
    rw [List.getElem?_append_right (by simpa using h)]
    simp only [List.length_map, List.length_range, List.getElem?_map, List.getElem?_range, h2,
      Option.map_some, Option.some.injEq]
    push_cast [Nat.cast_sub (not_lt.mp h)]
    constructor <;> intro h <;> linarith

variable [Phys]

omit [Phys] in
/-- the index picked from the angular DFT is the mode, modulo the number of angles -/
theorem pickModes_dvd (n N : ℕ) (h : 2 * n - 1 ≤ N) (hn : 1 ≤ n) (i : Fin (2 * n - 1)) :
    (N : ℤ) ∣ ((Laser.pickModes n N h hn i : Fin N) : ℕ) - modeAt n i := by
  have hi := i.2
  unfold Laser.pickModes modeAt
  by_cases hlt : (i : ℕ) < n
  · simp [hlt]
  · simp only [hlt, dif_neg, if_false, not_false_eq_true]
    refine ⟨1, ?_⟩
    push_cast [Nat.cast_sub (show n - 1 ≤ N by omega), Nat.cast_sub (not_lt.mp hlt), Nat.cast_sub hn]
    ring

/-! ## C12 -/

/-- **C12.** If at every `(r, θ, t)` the profile is `∑_{|m|<n} c_m(r,t) e^{-imθ}`, then a laser
constructed in `rt` geometry with `n` modes and any number of angles `≥ 2n-1` (also the default) stores
exactly `c_m` in the component that Python's `field[m]` addresses. -/
theorem C12_azimuthal_exact (lo0 lo1 hi0 hi1 : ℝ) (nr nt n : ℕ) (h0 : 2 ≤ nr) (h1 : 2 ≤ nt)
    (hn : 1 ≤ n) (nTheta : Option ℕ) (hN : ∀ N, nTheta = some N → 2 * n - 1 ≤ N)
    (p : ProfileObj) (hp : p.laserEnergy = none) (F : ℝ → ℝ → ℝ → ℂ) (hF : p.Pointwise F)
    (cm : ℤ → ℝ → ℝ → ℂ)
    (hband : ∀ r θ t : ℝ, F (r * Real.cos θ) (r * Real.sin θ) t =
      ∑ m ∈ Finset.Ioo (-(n : ℤ)) n, cm m r t * exp (-I * m * θ)) :
    ∃ (l : Laser ⟨2 * n - 1, nr, nt⟩) (f : Field ⟨2 * n - 1, nr, nt⟩),
      Laser.init "rt" [lo0, lo1] [hi0, hi1] [nr, nt] p (some n) nTheta = .ok ⟨_, l⟩ ∧ l.Has f ∧
      ∀ (m : ℤ) (i : Fin (2 * n - 1)), |m| < n → pyIndex (2 * n - 1) m = .ok i →
        ∀ j k, f i j k = cm m (linspace lo0 hi0 nr j) (linspace lo1 hi1 nt k) := by
  have hN' : 2 * n - 1 ≤ nTheta.getD (2 * n - 1) := by
    rcases nTheta with _ | N
    · simp
    · simpa using hN N rfl
  obtain ⟨l, hl, hhas⟩ := Laser.init_rt lo0 lo1 hi0 hi1 nr nt n _ h0 h1 hn hN' p hp nTheta rfl
  refine ⟨l, _, hl, hhas, ?_⟩
  generalize nTheta.getD (2 * n - 1) = N at hN'
  intro m i hm hi j k
  have hmode : modeAt n i = m := (modeAt_iff hn i m).2 ⟨hm, hi⟩
  have hNpos : N ≠ 0 := by omega
  have hNc : (N : ℂ) ≠ 0 := by exact_mod_cast hNpos
  have hdvd := pickModes_dvd n N hN' hn i
  rw [hmode] at hdvd
  simp only [sampledRT, Laser.sampleTheta]
  rw [ifft_eq_chr]
  rw [div_eq_iff hNc]
  set κ := (Laser.pickModes n N hN' hn i : Fin N) with hκ
  have e1 : ∀ q : Fin N, p.evaluate
        (fun q j _ => linspace lo0 hi0 nr j * Real.cos (2 * Real.pi / N * (q : ℕ)))
        (fun q j _ => linspace lo0 hi0 nr j * Real.sin (2 * Real.pi / N * (q : ℕ)))
        (fun _ _ k => linspace lo1 hi1 nt k) q j k * chr N ((κ : ℕ) * (q : ℕ)) =
      ∑ m' ∈ Finset.Ioo (-(n : ℤ)) n, cm m' (linspace lo0 hi0 nr j) (linspace lo1 hi1 nt k) *
        chr N ((q : ℕ) * ((κ : ℕ) - m')) := by
    intro q
    rw [hF, hband, Finset.sum_mul]
    refine Finset.sum_congr rfl fun m' _ => ?_
    rw [mul_assoc]
    congr 1
    simp only [chr, ← Complex.exp_add]
    congr 1
    push_cast
    field_simp
    ring
  rw [Finset.sum_congr rfl fun q _ => e1 q, Finset.sum_comm]
  simp only [← Finset.mul_sum]
  rw [Finset.sum_eq_single m]
  · rw [sum_chr hNpos, if_pos hdvd]
  · intro m' hm' hne
    rw [sum_chr hNpos, if_neg, mul_zero]
    intro hd
    have : (N : ℤ) ∣ m' - m := by
      have := Int.dvd_sub hdvd hd
      simpa using this
    rw [abs_lt] at hm
    rw [Finset.mem_Ioo] at hm'
    obtain ⟨z, hz⟩ := this
    have hNn : (2 * n - 1 : ℤ) ≤ N := by omega
    rcases lt_trichotomy z 0 with hz0 | rfl | hz0
    · nlinarith
    · apply hne; linarith
    · nlinarith
  · intro hm'
    exfalso
    rw [abs_lt] at hm
    exact hm' (Finset.mem_Ioo.mpr hm)

/-- **C12**: too few angles are rejected. -/
theorem C12_too_few_angles (lo0 lo1 hi0 hi1 : ℝ) (nr nt n N : ℕ) (hN : N < 2 * n - 1) (p : ProfileObj) :
    ∃ e, Laser.init "rt" [lo0, lo1] [hi0, hi1] [nr, nt] p (some n) (some N) = .error e := by
  rcases hr : Laser.init "rt" [lo0, lo1] [hi0, hi1] [nr, nt] p (some n) (some N) with e | ⟨s, l⟩
  · exact ⟨e, rfl⟩
  · exfalso
    obtain ⟨g, f, l1, hg, hs, -⟩ := Laser.init_ok hr
    obtain ⟨-, -, -, -, hc⟩ := Grid.init_ok hg
    rcases hc with ⟨l0, l1, u0, u1, m', r, t, rest, e1, e2, e3, e4, e5, e6, e7, e8, hm, e9⟩ |
      ⟨l0, l1, l2, u0, u1, u2, x, y, t, e1, -⟩
    swap
    · exact absurd e1 (by decide)
    obtain rfl : n = m' := by simpa using e5
    unfold Laser.sample at hs
    rw [e9] at hs
    simp only [Option.getD_some] at hs
    rw [dif_neg (by omega)] at hs
    cases hs

/-- hypotheses of C12: the profile `x + i y + t` is band-limited with `n = 2`:
`c_0 = t`, `c_{-1} = r`, `c_1 = 0` -/
example : ∀ r θ t : ℝ, (fun x y t : ℝ => ((x : ℂ) + I * y + t)) (r * Real.cos θ) (r * Real.sin θ) t =
    ∑ m ∈ Finset.Ioo (-((2 : ℕ) : ℤ)) (2 : ℕ), (fun (m : ℤ) (r t : ℝ) =>
      if m = 0 then (t : ℂ) else if m = -1 then (r : ℂ) else 0) m r t * exp (-I * m * θ) := by
  intro r θ t
  have hset : Finset.Ioo (-((2 : ℕ) : ℤ)) (2 : ℕ) = {-1, 0, 1} := by decide
  rw [hset]
  simp only [Finset.mem_insert, Finset.mem_singleton, Finset.sum_insert,
    reduceCtorEq, or_self, not_false_eq_true, Int.reduceNeg, if_true, if_false,
    Int.cast_neg, Int.cast_one]
  norm_num
  rw [show I * (θ : ℂ) = θ * I by ring, Complex.exp_mul_I]
  ring

/-! ## C13 -/

/-- **C13.** With the default number of angles `2n-1`, the stored modes reproduce *any* profile at every
sampled angle `θ_q = 2πq/(2n-1)`. -/
theorem C13_interpolates (lo0 lo1 hi0 hi1 : ℝ) (nr nt n : ℕ) (h0 : 2 ≤ nr) (h1 : 2 ≤ nt)
    (hn : 1 ≤ n) (p : ProfileObj) (hp : p.laserEnergy = none) (F : ℝ → ℝ → ℝ → ℂ)
    (hF : p.Pointwise F) :
    ∃ (l : Laser ⟨2 * n - 1, nr, nt⟩) (f : Field ⟨2 * n - 1, nr, nt⟩),
      Laser.init "rt" [lo0, lo1] [hi0, hi1] [nr, nt] p (some n) none = .ok ⟨_, l⟩ ∧ l.Has f ∧
      ∀ (q : Fin (2 * n - 1)) j k, ∀ θ : ℝ, θ = 2 * Real.pi * (q : ℕ) / ((2 * n - 1 : ℕ) : ℝ) →
        ∑ i, f i j k * exp (-I * modeAt n i * θ) =
          F (linspace lo0 hi0 nr j * Real.cos θ) (linspace lo0 hi0 nr j * Real.sin θ)
            (linspace lo1 hi1 nt k) := by
  obtain ⟨l, hl, hhas⟩ := Laser.init_rt lo0 lo1 hi0 hi1 nr nt n _ h0 h1 hn le_rfl p hp none rfl
  refine ⟨l, _, hl, hhas, ?_⟩
  rintro q j k θ rfl
  have hNpos : 2 * n - 1 ≠ 0 := by omega
  have hpick : ∀ i : Fin (2 * n - 1), Laser.pickModes n (2 * n - 1) le_rfl hn i = i := by
    intro i
    have hi := i.2
    unfold Laser.pickModes
    by_cases hlt : (i : ℕ) < n
    · simp [hlt]
    · simp only [hlt, dif_neg, not_false_eq_true]
      ext
      simp only
      omega
  have e1 : ∀ i : Fin (2 * n - 1),
      sampledRT p n (2 * n - 1) le_rfl hn (linspace lo0 hi0 nr) (linspace lo1 hi1 nt) i j k *
      exp (-I * modeAt n i * ((2 * Real.pi * (q : ℕ) / ((2 * n - 1 : ℕ) : ℝ) : ℝ) : ℂ)) =
      ifft (fun q => Laser.sampleTheta p (2 * n - 1) (linspace lo0 hi0 nr) (linspace lo1 hi1 nt) q j k) i *
        chr (2 * n - 1) (-((i : ℕ) * (q : ℕ))) := by
    intro i
    have hd := pickModes_dvd n (2 * n - 1) le_rfl hn i
    rw [hpick] at hd
    have hd2 : ((2 * n - 1 : ℕ) : ℤ) ∣ -((i : ℕ) * (q : ℕ) : ℤ) - (-(modeAt n i * (q : ℕ))) := by
      have := Dvd.dvd.mul_right hd (-((q : ℕ) : ℤ))
      rwa [show (((i : ℕ) : ℤ) - modeAt n i) * -((q : ℕ) : ℤ) =
        -((i : ℕ) * (q : ℕ) : ℤ) - (-(modeAt n i * (q : ℕ))) by ring] at this
    rw [chr_periodic hNpos hd2]
    simp only [sampledRT, hpick, chr]
    congr 2
    simp only [Complex.ofReal_div, Complex.ofReal_mul, Complex.ofReal_natCast, Int.cast_neg,
      Int.cast_mul, Int.cast_natCast, Complex.ofReal_ofNat]
    ring
  rw [Finset.sum_congr rfl fun i _ => e1 i, ← fft_eq_chr, fft_ifft]
  simp only [Laser.sampleTheta]
  rw [hF]
  have hang : 2 * Real.pi / ((2 * n - 1 : ℕ) : ℝ) * ((q : ℕ) : ℝ) =
      2 * Real.pi * ((q : ℕ) : ℝ) / ((2 * n - 1 : ℕ) : ℝ) := by ring
  rw [hang]

/-! ## C14 -/

/-- **C14.** Let a profile define `laser_energy = E ≥ 0`, and let `l0` be the laser built from the same
profile without that attribute, holding `f0`. Then the laser is built, and it holds a nonnegative
multiple of `f0` with energy `E`; or, if `l0` has no energy, it holds `f0`. -/
theorem C14_energy_at_construction {s : Shape} {dim : String} {lo hi : List ℝ} {np : List ℕ}
    (p : ProfileObj) (m nTheta : Option ℕ) (E : ℝ) (hE : 0 ≤ E) (hp : p.laserEnergy = some (some E))
    (l0 : Laser s) (f0 : Field s) (hf0 : l0.Has f0) (E0 : ℝ) (hE0 : l0.energy = .ok E0) (hpos : 0 ≤ E0)
    (h : Laser.init dim lo hi np { p with laserEnergy := none } m nTheta = .ok ⟨s, l0⟩) :
    ∃ (l : Laser s) (f : Field s), Laser.init dim lo hi np p m nTheta = .ok ⟨s, l⟩ ∧ l.Has f ∧
      (E0 ≠ 0 → l.energy = .ok E ∧ ∃ a : ℝ, 0 ≤ a ∧ f = fun i j k => f0 i j k * (a : ℂ)) ∧
      (E0 = 0 → f = f0) := by
  obtain ⟨g, f1, l1, hg, hs, hset, hhas, hgeo, ht, hcase⟩ := Laser.init_ok h
  have hl : l0 = l1 := by
    rcases hcase with ⟨-, hl⟩ | ⟨e, he, -⟩
    · exact hl
    · simp at he
  subst hl
  have hff : f0 = f1 := hf0.unique hhas
  subst hff
  -- the same object with the original profile
  have hs' : Laser.sample g p nTheta = .ok (Arr.toNd ⟨.c128, f0⟩) := hs
  have hset' : Laser.onGrid (Grid.setTemporalField (Arr.toNd ⟨.c128, f0⟩)) (Laser.raw g p) =
      (.ok (), { l0 with profile := p }) := by
    have hhg := Grid.init_holds hg
    obtain ⟨g', e', -⟩ := hhg.setT f0
    rw [onGrid_eq (l := Laser.raw g p) e']
    rw [onGrid_eq (l := Laser.raw g { p with laserEnergy := none }) e'] at hset
    have hl0 := (Prod.ext_iff.mp hset).2
    simp only at hl0
    rw [← hl0]
    rfl
  have hinit : ∀ l, Laser.normalize (some E) "energy" { l0 with profile := p } = (.ok (), l) →
      Laser.init dim lo hi np p m nTheta = .ok ⟨s, l⟩ := by
    intro l hn
    unfold Laser.init
    simp only [hg, Bind.bind, Except.bind, hs', hset', hp, hn]
  have hh' : ({ l0 with profile := p } : Laser s).Has f0 := hhas
  have hen' : ({ l0 with profile := p } : Laser s).energy = .ok E0 := hE0
  by_cases h0 : E0 = 0
  · subst h0
    obtain ⟨l', e, h'⟩ := C15_normalize_energy_zero _ f0 hh' E hen'
    exact ⟨l', f0, hinit l' e, h', by simp, fun _ => rfl⟩
  · obtain ⟨l', a, e, ha, h', hen, -⟩ :=
      C15_normalize_energy _ f0 hh' E E0 hE hen' (lt_of_le_of_ne hpos (Ne.symm h0))
    exact ⟨l', _, hinit l' e, h', fun _ => ⟨hen, a, ha, rfl⟩, fun h => absurd h h0⟩

/-- **C14**: a profile whose `laser_energy` is absent or `None` is stored as sampled. In `xyt` geometry the
sample is the profile at the grid points. -/
theorem C14_unscaled_xyt (lo0 lo1 lo2 hi0 hi1 hi2 : ℝ) (nx ny nt : ℕ) (h0 : 2 ≤ nx) (h1 : 2 ≤ ny)
    (h2 : 2 ≤ nt) (p : ProfileObj) (hp : p.laserEnergy = none) (hd : p.dtype = .c128)
    (F : ℝ → ℝ → ℝ → ℂ) (hF : p.Pointwise F) (m nT : Option ℕ) :
    ∃ (l : Laser ⟨nx, ny, nt⟩),
      Laser.init "xyt" [lo0, lo1, lo2] [hi0, hi1, hi2] [nx, ny, nt] p m nT = .ok ⟨_, l⟩ ∧
      l.Has (fun i j k => F (linspace lo0 hi0 nx i) (linspace lo1 hi1 ny j) (linspace lo2 hi2 nt k)) := by
  obtain ⟨l, hl, hh⟩ := Laser.init_xyt lo0 lo1 lo2 hi0 hi1 hi2 nx ny nt h0 h1 h2 p hp hd m nT
  refine ⟨l, hl, ?_⟩
  have : sampledXYT p (linspace lo0 hi0 nx) (linspace lo1 hi1 ny) (linspace lo2 hi2 nt) =
      (fun i j k => F (linspace lo0 hi0 nx i) (linspace lo1 hi1 ny j) (linspace lo2 hi2 nt k)) := by
    funext i j k
    rw [sampledXYT, hF]
  rwa [this] at hh

/-- a profile object to instantiate the hypotheses of C12–C16 with: the constant 1 -/
noncomputable def constProfile (e : Option (Option ℝ)) : ProfileObj where
  omega0 := 1
  lambda0 := 1
  pol := (1, 0)
  laserEnergy := e
  dtype := .c128
  evaluate := fun _ _ _ _ _ _ => 1

/-- the hypotheses of C14–C16 are met: a 2×2×2 laser with positive energy -/
theorem constLaser : ∃ (l : Laser ⟨2, 2, 2⟩) (E0 : ℝ),
    Laser.init "xyt" [0, 0, 0] [1, 1, 1] [2, 2, 2] (constProfile none) none none = .ok ⟨_, l⟩ ∧
    l.Has (fun _ _ _ => 1) ∧ l.energy = .ok E0 ∧ 0 < E0 := by
  have hpt : (constProfile none).Pointwise (fun _ _ _ => 1) := fun _ _ _ _ _ _ _ _ _ => rfl
  obtain ⟨l, hl, hh⟩ := C14_unscaled_xyt 0 0 0 1 1 1 2 2 2 le_rfl le_rfl le_rfl (constProfile none) rfl
    rfl _ hpt none none
  obtain ⟨g, f, l1, hg, -, -, -, hgeo, ht, -⟩ := Laser.init_ok hl
  have hcase : l.grid.geom = g.geom ∧ l.grid.t = g.t := by
    obtain ⟨g', f', l1', hg', -, -, -, hgeo', ht', hc'⟩ := Laser.init_ok hl
    rcases hc' with ⟨-, hll⟩ | ⟨e, he, -⟩
    · rw [hg] at hg'
      have : g = g' := by simpa using hg'
      rw [this, hll]
      exact ⟨hgeo', ht'⟩
    · simp [constProfile] at he
  have hax := C09_axes hg
  obtain ⟨x, y, e9, hv⟩ := C11_cell_volumes_xyt hg
  rw [e9] at hax
  simp only [List.cons.injEq, and_true] at hax
  obtain ⟨l0, l1, l2, u0, u1, u2, ⟨rfl, rfl, rfl⟩, ⟨rfl, rfl, rfl⟩, -, ax, ay, at'⟩ := hax
  obtain ⟨-, -, -, -, -, hdx, -⟩ := ax
  obtain ⟨-, -, -, -, -, hdy, -⟩ := ay
  obtain ⟨-, -, -, -, -, hdt, -⟩ := at'
  have hvol : ∀ j, l.grid.cellVolume j = c := by
    intro j
    have : l.grid.cellVolume j = g.cellVolume j := by
      simp [Grid.cellVolume, hcase.1, hcase.2]
    rw [this, hv, hdx, hdy, hdt]
    norm_num
  obtain ⟨E0, h1, h2⟩ := hh.energy_pos (fun j => by rw [hvol]; exact c_pos.le) 0 0 0
    (by rw [hvol]; exact c_pos) one_ne_zero
  exact ⟨l, E0, hl, hh, h1, h2⟩

/-! ## C66 -/

omit [Phys] in
/-- **C66.** In `rt` geometry the image drawn by `show` is the envelope in the plane `y = 0`: the upper
rows are `∑_m f_m(r) e^{-im·0}` and the lower rows, from the outermost radius inwards, are
`∑_m f_m(r) e^{-im·π}`. -/
theorem C66_show_rt (n nr nt : ℕ) (hn : 1 ≤ n) (f : Field ⟨2 * n - 1, nr, nt⟩) :
    ∃ img : Fin nr → Fin nt → ℂ × ℂ, Laser.showRT f n = .ok img ∧
      ∀ j k, (img j k).1 = ∑ i, f i j.rev k * exp (-I * modeAt n i * Real.pi) ∧
             (img j k).2 = ∑ i, f i j k * exp (-I * modeAt n i * (0 : ℝ)) := by
  have hfold : ∀ (L : List (Fin (2 * n - 1))) (acc : Fin nr → Fin nt → ℂ × ℂ),
      (L.map (modeAt n)).foldlM (Laser.showTerm f) acc =
      .ok fun j k => ((acc j k).1 + (L.map fun i => (-1 : ℂ) ^ modeAt n i * f i j.rev k).sum,
        (acc j k).2 + (L.map fun i => f i j k).sum) := by
    intro L
    induction L with
    | nil => intro acc; simp [Pure.pure, Except.pure]
    | cons i L ih =>
      intro acc
      have hi : pyIndex (2 * n - 1) (modeAt n i) = .ok i := ((modeAt_iff hn i _).1 rfl).2
      simp only [List.map_cons, List.foldlM_cons, Laser.showTerm, hi, Bind.bind, Except.bind]
      rw [ih]
      simp only [List.sum_cons, add_assoc]
  have hmodes : azimuthalModes n = (List.finRange (2 * n - 1)).map (modeAt n) := by
    apply List.ext_getElem?
    intro i
    by_cases hi : i < 2 * n - 1
    · rw [List.getElem?_map]
      have := ((C10_mode_layout n hn).2.2.2 ⟨i, hi⟩ (modeAt n ⟨i, hi⟩)).2
        ((modeAt_iff hn ⟨i, hi⟩ _).1 rfl)
      simp only at this
      rw [this, List.getElem?_eq_getElem (by simpa using hi)]
      simp
    · rw [List.getElem?_eq_none (by rw [(C10_mode_layout n hn).2.2.1]; omega),
        List.getElem?_eq_none (by simp; omega)]
  refine ⟨_, (show Laser.showRT f n = _ by unfold Laser.showRT; rw [hmodes]; exact hfold _ _), ?_⟩
  intro j k
  have hpi : ∀ z : ℤ, exp (-I * z * (Real.pi : ℂ)) = (-1 : ℂ) ^ z := by
    intro z
    rw [show -I * (z : ℂ) * (Real.pi : ℂ) = ((-z : ℤ) : ℂ) * (Real.pi * I) by push_cast; ring,
      Complex.exp_int_mul, Complex.exp_pi_mul_I, zpow_neg, ← inv_zpow]
    norm_num
  have hsum : ∀ F : Fin (2 * n - 1) → ℂ, ((List.finRange (2 * n - 1)).map F).sum = ∑ i, F i := by
    intro F
    rw [← List.ofFn_eq_map, List.sum_ofFn]
  constructor
  · simp only [zero_add, hpi, hsum]
    exact Finset.sum_congr rfl fun i _ => mul_comm _ _
  · simp [hsum]

end Lasy
