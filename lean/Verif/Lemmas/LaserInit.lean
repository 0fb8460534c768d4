import Verif.Lemmas.Energy

/-! What `Laser.__init__` leaves in the grid. -/

namespace Lasy
open Spec Phys Complex

variable {s : Shape}

/-- the field sampled in `xyt` geometry -/
def sampledXYT (p : ProfileObj) {n0 n1 nt : ℕ} (x : Fin n0 → ℝ) (y : Fin n1 → ℝ) (t : Fin nt → ℝ) :
    Field ⟨n0, n1, nt⟩ :=
  p.evaluate (fun i _ _ => x i) (fun _ j _ => y j) (fun _ _ k => t k)

/-- the field sampled in `rt` geometry with `N` angles -/
noncomputable def sampledRT (p : ProfileObj) (n N : ℕ) (h : 2 * n - 1 ≤ N) (hn : 1 ≤ n) {nr nt : ℕ}
    (r : Fin nr → ℝ) (t : Fin nt → ℝ) : Field ⟨2 * n - 1, nr, nt⟩ := fun i j k =>
  ifft (fun q => Laser.sampleTheta p N r t q j k) (Laser.pickModes n N h hn i)

variable [Phys]

/-- construction, in steps -/
theorem Laser.init_ok {dim : String} {lo hi : List ℝ} {np : List ℕ} {p : ProfileObj}
    {m : Option ℕ} {N : Option ℕ} {l : Laser s} (h : Laser.init dim lo hi np p m N = .ok ⟨s, l⟩) :
    ∃ (g : Grid s) (f : Field s) (l1 : Laser s), Grid.init dim lo hi np m true = .ok ⟨s, g⟩ ∧
      Laser.sample g p N = .ok (Arr.toNd ⟨.c128, f⟩) ∧
      onGrid (Grid.setTemporalField (Arr.toNd ⟨.c128, f⟩)) (Laser.raw g p) = (.ok (), l1) ∧
      l1.Has f ∧ l1.grid.geom = g.geom ∧ l1.grid.t = g.t ∧
      ((p.laserEnergy = none ∧ l = l1) ∨
       ∃ e, p.laserEnergy = some e ∧ Laser.normalize e "energy" l1 = (.ok (), l)) := by
  unfold Laser.init at h
  rcases hg : Grid.init dim lo hi np m true with e | ⟨s', g⟩
  · simp [hg, Bind.bind, Except.bind] at h
  simp only [hg, Bind.bind, Except.bind] at h
  rcases hs : Laser.sample g p N with e | field
  · simp [hs] at h
  simp only [hs] at h
  rcases hl : onGrid (Grid.setTemporalField field) (Laser.raw g p) with ⟨e | u, l1⟩
  · simp [hl] at h
  simp only [hl] at h
  have hholds := Grid.init_holds hg
  -- the field has the right shape and dtype
  have hfield : ∃ f : Field s', field = Arr.toNd ⟨.c128, f⟩ := by
    unfold Laser.sample at hs
    split at hs
    · rename_i x y hgeom
      cases hs
      by_cases hd : p.dtype = .c128
      · rw [hd]; exact ⟨_, rfl⟩
      · exfalso
        rw [onGrid_eq (setTemporalField_err (g := g) (by simp [hholds.env, dtypeOf, hd]))] at hl
        simp at hl
    · rename_i n hm r hgeom
      simp only at hs
      split at hs
      · cases hs
        exact ⟨_, rfl⟩
      · cases hs
  obtain ⟨f, rfl⟩ := hfield
  obtain ⟨g', e', h', hgg, hgt⟩ := hholds.setT f
  have hl1 : l1 = { Laser.raw g p with grid := g' } := by
    rw [onGrid_eq (l := Laser.raw g p) e'] at hl
    simpa using hl.symm
  have hhas : l1.Has f := by rw [hl1]; exact h'
  rcases he : p.laserEnergy with _ | e
  · simp only [he] at h
    cases h
    exact ⟨g, f, _, rfl, hs, hl, hhas, by rw [hl1]; exact hgg, by rw [hl1]; exact hgt, .inl ⟨rfl, rfl⟩⟩
  · simp only [he] at h
    rcases hn : Laser.normalize e "energy" l1 with ⟨e' | u', l2⟩
    · simp [hn] at h
    · simp only [hn] at h
      cases h
      exact ⟨g, f, _, rfl, hs, hl, hhas, by rw [hl1]; exact hgg, by rw [hl1]; exact hgt,
        .inr ⟨e, rfl, hn⟩⟩

/-- construction in `rt` geometry succeeds, and what it stores (before normalisation) -/
theorem Laser.init_rt (lo0 lo1 hi0 hi1 : ℝ) (nr nt n N : ℕ) (h0 : 2 ≤ nr) (h1 : 2 ≤ nt) (hn : 1 ≤ n)
    (hN : 2 * n - 1 ≤ N) (p : ProfileObj) (hp : p.laserEnergy = none) (nT : Option ℕ)
    (hT : nT.getD (2 * n - 1) = N) :
    ∃ l : Laser ⟨2 * n - 1, nr, nt⟩,
      Laser.init "rt" [lo0, lo1] [hi0, hi1] [nr, nt] p (some n) nT = .ok ⟨_, l⟩ ∧
      l.Has (sampledRT p n N hN hn (linspace lo0 hi0 nr) (linspace lo1 hi1 nt)) := by
  subst hT
  obtain ⟨g, hg⟩ := Grid.init_rt lo0 lo1 hi0 hi1 nr nt n h0 h1 hn true
  have hh := Grid.init_holds hg
  obtain ⟨-, -, -, -, hc⟩ := Grid.init_ok hg
  rcases hc with ⟨l0, l1, u0, u1, m', r, t, rest, e1, e2, e3, e4, e5, e6, e7, e8, hm, e9⟩ |
    ⟨l0, l1, l2, u0, u1, u2, x, y, t, e1, -⟩
  swap
  · exact absurd e1 (by decide)
  simp only [List.cons.injEq, and_true] at e2 e3
  obtain ⟨rfl, rfl⟩ := e2
  obtain ⟨rfl, rfl⟩ := e3
  obtain rfl : n = m' := by simpa using e5
  have hr : r.pts = linspace lo0 hi0 nr := by obtain ⟨_, h⟩ := mkAxis_ok e6; rw [h]
  have ht : g.t.pts = linspace lo1 hi1 nt := by obtain ⟨_, h⟩ := mkAxis_ok e7; rw [e8, h]
  have hs : Laser.sample g p nT = .ok (Arr.toNd ⟨.c128,
      sampledRT p n _ hN hn (linspace lo0 hi0 nr) (linspace lo1 hi1 nt)⟩) := by
    unfold Laser.sample
    rw [e9]
    simp only [hN, dif_pos, hr, ht]
    rfl
  obtain ⟨g', e', h', -⟩ := hh.setT (sampledRT p n _ hN hn (linspace lo0 hi0 nr) (linspace lo1 hi1 nt))
  refine ⟨{ Laser.raw g p with grid := g' }, ?_, h'⟩
  unfold Laser.init
  simp only [hg, hs, Bind.bind, Except.bind, hp]
  rw [onGrid_eq (l := Laser.raw g p) e']

/-- construction in `xyt` geometry succeeds, and what it stores (before normalisation) -/
theorem Laser.init_xyt (lo0 lo1 lo2 hi0 hi1 hi2 : ℝ) (nx ny nt : ℕ) (h0 : 2 ≤ nx) (h1 : 2 ≤ ny)
    (h2 : 2 ≤ nt) (p : ProfileObj) (hp : p.laserEnergy = none) (hd : p.dtype = .c128)
    (m nT : Option ℕ) :
    ∃ l : Laser ⟨nx, ny, nt⟩,
      Laser.init "xyt" [lo0, lo1, lo2] [hi0, hi1, hi2] [nx, ny, nt] p m nT = .ok ⟨_, l⟩ ∧
      l.Has (sampledXYT p (linspace lo0 hi0 nx) (linspace lo1 hi1 ny) (linspace lo2 hi2 nt)) := by
  obtain ⟨g, hg⟩ := Grid.init_xyt lo0 lo1 lo2 hi0 hi1 hi2 nx ny nt h0 h1 h2 m true
  have hh := Grid.init_holds hg
  obtain ⟨-, -, -, -, hc⟩ := Grid.init_ok hg
  rcases hc with ⟨l0, l1, u0, u1, m', r, t, rest, e1, -⟩ |
    ⟨l0, l1, l2, u0, u1, u2, x, y, t, e1, e2, e3, e4, e5, e6, e7, e8, e9⟩
  · exact absurd e1 (by decide)
  simp only [List.cons.injEq, and_true] at e2 e3
  obtain ⟨rfl, rfl, rfl⟩ := e2
  obtain ⟨rfl, rfl, rfl⟩ := e3
  have hx : x.pts = linspace lo0 hi0 nx := by obtain ⟨_, h⟩ := mkAxis_ok e5; rw [h]
  have hy : y.pts = linspace lo1 hi1 ny := by obtain ⟨_, h⟩ := mkAxis_ok e6; rw [h]
  have ht : g.t.pts = linspace lo2 hi2 nt := by obtain ⟨_, h⟩ := mkAxis_ok e7; rw [e8, h]
  have hs : Laser.sample g p nT = .ok (Arr.toNd ⟨.c128,
      sampledXYT p (linspace lo0 hi0 nx) (linspace lo1 hi1 ny) (linspace lo2 hi2 nt)⟩) := by
    unfold Laser.sample
    rw [e9]
    simp only [hx, hy, ht, hd]
    rfl
  obtain ⟨g', e', h', -⟩ :=
    hh.setT (sampledXYT p (linspace lo0 hi0 nx) (linspace lo1 hi1 ny) (linspace lo2 hi2 nt))
  refine ⟨{ Laser.raw g p with grid := g' }, ?_, h'⟩
  unfold Laser.init
  simp only [hg, hs, Bind.bind, Except.bind, hp]
  rw [onGrid_eq (l := Laser.raw g p) e']

end Lasy
