import Verif.Model.GridCalls
import Verif.Lemmas.Fourier

/-! Computation rules for the methods of `Grid`, and the cache invariant. -/

namespace Lasy
open Spec

variable {s : Shape}

theorem dft_eq (f : Field s) : dft f = fun i j => fft (f i j) := by
  funext i j k; rfl

theorem idft_eq (f : Field s) : idft f = fun i j => ifft (f i j) := by
  funext i j k
  rfl

theorem idft_dft (f : Field s) : idft (dft f) = f := by
  simp [idft_eq, dft_eq, ifft_fft]

theorem dft_idft (f : Field s) : dft (idft f) = f := by
  simp [idft_eq, dft_eq, fft_ifft]

theorem contents_eq (a : NdArray) : contents s a = a.content s := rfl

theorem setTemporalField_ok {g : Grid s} {a : NdArray} (h : a.shape = s.toList)
    (hd : a.dtype = dtypeOf g.isEnvelope) :
    Grid.setTemporalField a g = (.ok (), { g with temporal := ⟨g.temporal.dtype, a.content s⟩
                                                  temporalValid := true
                                                  spectralValid := false }) := by
  simp [Grid.setTemporalField, Py.bind_apply, h, hd]

theorem setTemporalField_err {g : Grid s} {a : NdArray}
    (h : ¬ (a.shape = s.toList ∧ a.dtype = dtypeOf g.isEnvelope)) :
    Grid.setTemporalField a g = (.error .assertion, g) := by
  by_cases h1 : a.shape = s.toList
  · have h2 : ¬ a.dtype = dtypeOf g.isEnvelope := fun h' => h ⟨h1, h'⟩
    simp [Grid.setTemporalField, Py.bind_apply, h1, h2]
  · simp [Grid.setTemporalField, Py.bind_apply, h1]

theorem setSpectralField_ok {g : Grid s} {a : NdArray} (h : a.shape = s.toList)
    (hd : a.dtype = .c128) :
    Grid.setSpectralField a g = (.ok (), { g with spectral := a.content s
                                                  spectralValid := true
                                                  temporalValid := false }) := by
  simp [Grid.setSpectralField, Py.bind_apply, h, hd]

theorem setSpectralField_err {g : Grid s} {a : NdArray}
    (h : ¬ (a.shape = s.toList ∧ a.dtype = .c128)) :
    Grid.setSpectralField a g = (.error .assertion, g) := by
  by_cases h1 : a.shape = s.toList
  · have h2 : ¬ a.dtype = .c128 := fun h' => h ⟨h1, h'⟩
    simp [Grid.setSpectralField, Py.bind_apply, h1, h2]
  · simp [Grid.setSpectralField, Py.bind_apply, h1]

theorem getTemporalField_valid {g : Grid s} (h : g.temporalValid = true) :
    Grid.getTemporalField g = (.ok g.temporal, g) := by
  simp [Grid.getTemporalField, Py.bind_apply, h]

theorem getTemporalField_spec {g : Grid s} (h : g.temporalValid = false)
    (h2 : g.spectralValid = true) :
    Grid.getTemporalField g =
      (.ok ⟨.c128, dft g.spectral⟩,
        { g with temporal := ⟨.c128, dft g.spectral⟩, temporalValid := true }) := by
  simp [Grid.getTemporalField, Grid.spectral2temporalFFT, Py.bind_apply, h, h2, dft_eq]

theorem getTemporalField_none {g : Grid s} (h : g.temporalValid = false)
    (h2 : g.spectralValid = false) : Grid.getTemporalField g = (.error .value, g) := by
  simp [Grid.getTemporalField, Py.bind_apply, h, h2]

theorem getSpectralField_valid {g : Grid s} (he : g.isEnvelope = true)
    (h : g.spectralValid = true) :
    Grid.getSpectralField g = (.ok ⟨.c128, g.spectral⟩, g) := by
  simp [Grid.getSpectralField, Py.bind_apply, h, he]

theorem getSpectralField_temp {g : Grid s} (he : g.isEnvelope = true)
    (h : g.spectralValid = false) (h2 : g.temporalValid = true) :
    Grid.getSpectralField g =
      (.ok ⟨.c128, idft g.temporal.val⟩,
        { g with spectral := idft g.temporal.val, spectralValid := true }) := by
  simp [Grid.getSpectralField, Grid.temporal2spectralFFT, Py.bind_apply, h, h2, he, idft_eq]

theorem getSpectralField_none {g : Grid s} (he : g.isEnvelope = true)
    (h : g.spectralValid = false) (h2 : g.temporalValid = false) :
    Grid.getSpectralField g = (.error .value, g) := by
  simp [Grid.getSpectralField, Py.bind_apply, h, h2, he]

theorem getSpectralField_full {g : Grid s} (he : g.isEnvelope = false) :
    Grid.getSpectralField g = (.error .assertion, g) := by
  simp [Grid.getSpectralField, Py.bind_apply, he]

/-- The state `st` of the register is what the caches of the grid `g` stand for. -/
structure Grid.Holds (g : Grid s) (st : Option (Field s)) : Prop where
  env : g.isEnvelope = true
  dt : g.temporal.dtype = .c128
  unset : st = none → g.temporalValid = false ∧ g.spectralValid = false
  isSet : ∀ f, st = some f →
    (g.temporalValid = true ∨ g.spectralValid = true) ∧
    (g.temporalValid = true → g.temporal.val = f) ∧
    (g.spectralValid = true → dft g.spectral = f)

/-- every call preserves the correspondence and gives the register's answer -/
theorem Grid.Holds.call {g : Grid s} {st : Option (Field s)} (h : g.Holds st) (c : Call) :
    (g.call c).1 = (Spec.call st c).1 ∧ (g.call c).2.Holds (Spec.call st c).2 := by
  have hshape : ([s.n0, s.n1, s.nt] : List ℕ) = s.toList := rfl
  cases c with
  | setTemporal a =>
    by_cases hf : fits s a
    · have hf' : a.shape = s.toList ∧ a.dtype = dtypeOf g.isEnvelope := by
        rw [h.env]; exact hf
      simp only [Grid.call, setTemporalField_ok hf'.1 hf'.2, Spec.call, hf, if_true, true_and]
      exact ⟨h.env, h.dt, by simp, by intro f hf; simp at hf; simp [hf, ← contents_eq]⟩
    · have hf' : ¬ (a.shape = s.toList ∧ a.dtype = dtypeOf g.isEnvelope) := by
        rw [h.env]; exact hf
      simp only [Grid.call, setTemporalField_err hf', Spec.call, hf, if_false, true_and]
      exact h
  | setSpectral a =>
    by_cases hf : fits s a
    · simp only [Grid.call, setSpectralField_ok hf.1 hf.2, Spec.call, hf, if_true, true_and]
      exact ⟨h.env, h.dt, by simp, by intro f hf; simp at hf; simp [← hf, ← contents_eq]⟩
    · simp only [Grid.call, setSpectralField_err hf, Spec.call, hf, if_false, true_and]
      exact h
  | getTemporal =>
    cases st with
    | none =>
      obtain ⟨h1, h2⟩ := h.unset rfl
      simp only [Grid.call, getTemporalField_none h1 h2, Spec.call, true_and]
      exact h
    | some f =>
      obtain ⟨h0, h1, h2⟩ := h.isSet f rfl
      by_cases ht : g.temporalValid = true
      · simp only [Grid.call, getTemporalField_valid ht, Spec.call]
        refine ⟨?_, h⟩
        congr 1
        have hd := h.dt
        have hv := h1 ht
        rcases hg : g.temporal with ⟨d, v⟩
        simp_all
      · have ht' : g.temporalValid = false := by simpa using ht
        have hs : g.spectralValid = true := by simpa [ht'] using h0
        simp only [Grid.call, getTemporalField_spec ht' hs, Spec.call, h2 hs, true_and]
        exact ⟨h.env, rfl, by simp, by
          intro f' hf; simp at hf; subst hf; simp [h2, hs]⟩
  | getSpectral =>
    cases st with
    | none =>
      obtain ⟨h1, h2⟩ := h.unset rfl
      simp only [Grid.call, getSpectralField_none h.env h2 h1, Spec.call, true_and]
      exact h
    | some f =>
      obtain ⟨h0, h1, h2⟩ := h.isSet f rfl
      by_cases hs : g.spectralValid = true
      · simp only [Grid.call, getSpectralField_valid h.env hs, Spec.call]
        refine ⟨?_, h⟩
        rw [← h2 hs, idft_dft]
      · have hs' : g.spectralValid = false := by simpa using hs
        have ht : g.temporalValid = true := by simpa [hs'] using h0
        simp only [Grid.call, getSpectralField_temp h.env hs' ht, Spec.call, h1 ht, true_and]
        exact ⟨h.env, h.dt, by simp, by
          intro f' hf; simp at hf; subst hf; simp [h1, ht, dft_idft]⟩

/-- the register after a history -/
noncomputable def Spec.after (st : Option (Field s)) : List Call → Option (Field s)
  | [] => st
  | c :: cs => Spec.after (Spec.call st c).2 cs

theorem Grid.Holds.after {g : Grid s} {st : Option (Field s)} (h : g.Holds st) (cs : List Call) :
    (g.after cs).Holds (Spec.after st cs) := by
  induction cs generalizing g st with
  | nil => exact h
  | cons c cs ih => exact ih (h.call c).2

theorem Grid.Holds.answers {g : Grid s} {st : Option (Field s)} (h : g.Holds st)
    (cs : List Call) : g.answers cs = Spec.answers st cs := by
  induction cs generalizing g st with
  | nil => rfl
  | cons c cs ih => simp only [Grid.answers, Spec.answers, (h.call c).1, ih (h.call c).2]

theorem Grid.after_append (g : Grid s) (a b : List Call) : g.after (a ++ b) = (g.after a).after b := by
  induction a generalizing g with
  | nil => rfl
  | cons c cs ih => exact ih _

theorem spec_after_append (st : Option (Field s)) (a b : List Call) :
    Spec.after st (a ++ b) = Spec.after (Spec.after st a) b := by
  induction a generalizing st with
  | nil => rfl
  | cons c cs ih => exact ih _

theorem spec_answers_append (st : Option (Field s)) (a b : List Call) :
    Spec.answers st (a ++ b) = Spec.answers st a ++ Spec.answers (Spec.after st a) b := by
  induction a generalizing st with
  | nil => rfl
  | cons c cs ih => simp only [List.cons_append, Spec.answers, ih, Spec.after]

theorem spec_answers_length (st : Option (Field s)) (a : List Call) :
    (Spec.answers st a).length = a.length := by
  induction a generalizing st with
  | nil => rfl
  | cons c cs ih => simp [Spec.answers, ih]

theorem spec_after_gets (st : Option (Field s)) (gets : List Call)
    (hg : ∀ c ∈ gets, c = .getTemporal ∨ c = .getSpectral) : Spec.after st gets = st := by
  induction gets generalizing st with
  | nil => rfl
  | cons c cs ih =>
    have hc : (Spec.call st c).2 = st := by
      rcases hg c (by simp) with rfl | rfl <;> cases st <;> rfl
    simp only [Spec.after, hc]
    exact ih st (fun c h => hg c (by simp [h]))

/-- the register after a history, in terms of the last accepted write -/
theorem after_lastWrite' (st : Option (Field s)) (cs : List Call) :
    Spec.after st cs = match lastWrite s cs with
      | some (.inl f) => some f
      | some (.inr f) => some (dft f)
      | none => st := by
  induction cs generalizing st with
  | nil => rfl
  | cons c cs ih =>
    simp only [Spec.after, ih, lastWrite]
    rcases lastWrite s cs with _ | w
    · cases c with
      | setTemporal a => by_cases h : fits s a <;> simp [Spec.call, h]
      | setSpectral a => by_cases h : fits s a <;> simp [Spec.call, h]
      | getTemporal => cases st <;> rfl
      | getSpectral => cases st <;> rfl
    · rcases w with f | f <;> rfl

theorem after_lastWrite (cs : List Call) :
    Spec.after (none : Option (Field s)) cs = match lastWrite s cs with
      | some (.inl f) => some f
      | some (.inr f) => some (dft f)
      | none => none := after_lastWrite' none cs

theorem mkAxis_ok {lo hi : ℝ} {n : ℕ} {a : Axis n} (h : mkAxis lo hi n = .ok a) :
    ∃ h2 : 2 ≤ n, a = { lo := lo, hi := hi, pts := linspace lo hi n, dx := linspace lo hi n ⟨1, h2⟩ - linspace lo hi n ⟨0, by omega⟩ } := by
  unfold mkAxis at h
  split at h
  · rename_i h2
    exact ⟨h2, by cases h; rfl⟩
  · cases h

/-- what a successful construction looks like -/
theorem Grid.init_ok {dim : String} {lo hi : List ℝ} {np : List ℕ} {m : Option ℕ} {b : Bool}
    {s : Shape} {g : Grid s} (h : Grid.init dim lo hi np m b = .ok ⟨s, g⟩) :
    g.isEnvelope = b ∧ g.temporalValid = false ∧ g.spectralValid = false ∧
      g.temporal.dtype = dtypeOf b ∧
    ((∃ lo0 lo1 hi0 hi1 m' r t rest, dim = "rt" ∧ lo = [lo0, lo1] ∧ hi = [hi0, hi1] ∧
        np = s.n1 :: s.nt :: rest ∧
        m = some m' ∧ mkAxis lo0 hi0 s.n1 = .ok r ∧ mkAxis lo1 hi1 s.nt = .ok t ∧ g.t = t ∧
        ∃ hm, g.geom = .rt m' hm r) ∨
     (∃ lo0 lo1 lo2 hi0 hi1 hi2 x y t, dim = "xyt" ∧ lo = [lo0, lo1, lo2] ∧ hi = [hi0, hi1, hi2] ∧
        np = [s.n0, s.n1, s.nt] ∧
        mkAxis lo0 hi0 s.n0 = .ok x ∧ mkAxis lo1 hi1 s.n1 = .ok y ∧
        mkAxis lo2 hi2 s.nt = .ok t ∧ g.t = t ∧ g.geom = .xyt x y)) := by
  by_cases hrt : dim = "rt"
  · subst hrt
    unfold Grid.init at h
    simp only [if_true, true_or, not_true, if_false, BEq.rfl] at h
    split at h
    · cases h
    split at h
    · cases h
    split at h
    · rename_i lo0 lo1 hi0 hi1 n0 n1 rest _ _ _
      rcases hr : mkAxis lo0 hi0 n0 with e | r
      · simp [hr, Bind.bind, Except.bind] at h
      rcases ht : mkAxis lo1 hi1 n1 with e | t
      · simp [hr, ht, Bind.bind, Except.bind] at h
      simp only [hr, ht, Bind.bind, Except.bind] at h
      split at h
      · cases h
      · rename_i m'
        split at h
        · cases h
          exact ⟨rfl, rfl, rfl, rfl, .inl ⟨lo0, lo1, hi0, hi1, m', r, t, rest, rfl, rfl, rfl, rfl, rfl,
            hr, ht, rfl, _, rfl⟩⟩
        · cases h
    · simp_all
    · cases h
  · by_cases hx : dim = "xyt"
    · subst hx
      unfold Grid.init at h
      simp only [hrt, or_true, not_true, if_false] at h
      split at h
      · cases h
      split at h
      · cases h
      split at h
      · simp_all
      · rename_i lo0 lo1 lo2 hi0 hi1 hi2 n0 n1 n2 _ _ _
        rcases hx : mkAxis lo0 hi0 n0 with e | x
        · simp [hx, Bind.bind, Except.bind] at h
        rcases hy : mkAxis lo1 hi1 n1 with e | y
        · simp [hx, hy, Bind.bind, Except.bind] at h
        rcases ht : mkAxis lo2 hi2 n2 with e | t
        · simp [hx, hy, ht, Bind.bind, Except.bind] at h
        simp only [hx, hy, ht, Bind.bind, Except.bind] at h
        cases h
        exact ⟨rfl, rfl, rfl, rfl, .inr ⟨lo0, lo1, lo2, hi0, hi1, hi2, x, y, t, rfl, rfl, rfl, rfl,
          hx, hy, ht, rfl, rfl⟩⟩
      · cases h
    · simp [Grid.init, hrt, hx] at h

/-- a fresh envelope grid holds nothing -/
theorem Grid.init_holds {dim : String} {lo hi : List ℝ} {np : List ℕ} {m : Option ℕ}
    {s : Shape} {g : Grid s} (h : Grid.init dim lo hi np m true = .ok ⟨s, g⟩) :
    g.Holds none := by
  obtain ⟨h1, h2, h3, h4, -⟩ := Grid.init_ok h
  exact ⟨h1, h4, fun _ => ⟨h2, h3⟩, by simp⟩

/-- some grid exists -/
theorem Grid.init_rt (lo0 lo1 hi0 hi1 : ℝ) (n0 n1 m : ℕ) (h0 : 2 ≤ n0) (h1 : 2 ≤ n1) (hm : 1 ≤ m)
    (b : Bool) :
    ∃ g : Grid ⟨2 * m - 1, n0, n1⟩,
      Grid.init "rt" [lo0, lo1] [hi0, hi1] [n0, n1] (some m) b = .ok ⟨_, g⟩ := by
  simp [Grid.init, mkAxis, h0, h1, hm, Bind.bind, Except.bind]

theorem Grid.init_xyt (lo0 lo1 lo2 hi0 hi1 hi2 : ℝ) (n0 n1 n2 : ℕ) (h0 : 2 ≤ n0) (h1 : 2 ≤ n1)
    (h2 : 2 ≤ n2) (m : Option ℕ) (b : Bool) :
    ∃ g : Grid ⟨n0, n1, n2⟩,
      Grid.init "xyt" [lo0, lo1, lo2] [hi0, hi1, hi2] [n0, n1, n2] m b = .ok ⟨_, g⟩ := by
  simp [Grid.init, mkAxis, h0, h1, h2, Bind.bind, Except.bind]

end Lasy
