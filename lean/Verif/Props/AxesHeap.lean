import Verif.Model.AxesHeap
import Mathlib.Algebra.BigOperators.Group.List.Basic
import Mathlib.Tactic.Linarith

/-!
# Properties C110, C111: several lasers and grids as objects
-/

namespace Lasy.Heap
open Phys

variable {F : Type}

/-- what the client sees of a laser: the time window (bounds and axis) and the field of `laser.grid` -/
structure View (F : Type) where
  lo : ℝ
  hi : ℝ
  axis : ℕ → ℝ
  field : F

/-- what the client sees of a grid object -/
def World.gridView (w : World F) (g : GridId) : View F :=
  ⟨(w.grids g).lo, (w.grids g).hi, w.arrays (w.grids g).axis, (w.grids g).field⟩

/-- what the client sees of a laser -/
def World.view (w : World F) (l : LaserId) : View F := w.gridView (w.laser l)

/-- lasers that were constructed separately: no common grid, no common time axis -/
def Separated (w : World F) : Prop :=
  ∀ l l', l ≠ l' → w.laser l ≠ w.laser l' ∧ (w.grids (w.laser l)).axis ≠ (w.grids (w.laser l')).axis

variable [Phys]

/-- no grid object is passed to `propagate` of one laser while it is the grid of another laser -/
def Exclusive (evolve : ℝ → GridId → GridId → F → F) : World F → List (Call F) → Prop
  | _, [] => True
  | w, call :: h =>
    (∀ l d g, call = .propagate l d (some g) → ∀ l', l' ≠ l → w.laser l' ≠ g) ∧ Exclusive evolve (w.call evolve call) h

/-- the distance by which the calls of a history move laser `l` -/
def travelled (l : LaserId) : List (Call F) → ℝ
  | [] => 0
  | .propagate l' d _ :: h => (if l' = l then d else 0) + travelled l h
  | .update _ _ :: h => travelled l h

omit [Phys] in
theorem adopt_laser (w : World F) (l : LaserId) (g : GridId) : (w.adopt l g).laser l = g := by simp [World.adopt]

omit [Phys] in
theorem adopt_laser_ne (w : World F) {l l' : LaserId} (h : l' ≠ l) (g : GridId) : (w.adopt l g).laser l' = w.laser l' := by
  simp [World.adopt, h]

omit [Phys] in
theorem adopt_grid (w : World F) (l : LaserId) (g : GridId) : (w.adopt l g).grids g =
    { w.grids g with lo := (w.grids (w.laser l)).lo, hi := (w.grids (w.laser l)).hi, axis := (w.grids (w.laser l)).axis } := by
  simp [World.adopt]

omit [Phys] in
theorem adopt_grid_ne (w : World F) (l : LaserId) {g g' : GridId} (h : g' ≠ g) : (w.adopt l g).grids g' = w.grids g' := by
  simp [World.adopt, h]

variable (evolve : ℝ → GridId → GridId → F → F)

/-- the axis object of a laser never changes, whatever grid it is moved to, and neither do other lasers' grids -/
theorem call_frame {w : World F} (hs : Separated w) {call : Call F}
    (hx : ∀ l d g, call = .propagate l d (some g) → ∀ l', l' ≠ l → w.laser l' ≠ g) {l : LaserId} (hl : call.subject ≠ l) :
    (w.call evolve call).laser l = w.laser l ∧ (w.call evolve call).grids (w.laser l) = w.grids (w.laser l) ∧
      (w.call evolve call).arrays (w.grids (w.laser l)).axis = w.arrays (w.grids (w.laser l)).axis := by
  cases call with
  | update l' u =>
    have := hs l l' (fun h => hl h.symm)
    simp only [World.call]
    exact ⟨trivial, by rw [Function.update_of_ne this.1], trivial⟩
  | propagate l' d onto =>
    have hne : l ≠ l' := fun h => hl h.symm
    have := hs l l' hne
    cases onto with
    | none =>
      simp only [World.call, World.shift]
      exact ⟨trivial, by rw [Function.update_of_ne this.1], by rw [Function.update_of_ne this.2]⟩
    | some g =>
      have hg := hx l' d g rfl l hne
      simp only [World.call, World.shift, adopt_laser, adopt_grid]
      refine ⟨adopt_laser_ne w hne g, ?_, ?_⟩
      · rw [Function.update_of_ne hg, adopt_grid_ne w l' hg]
      · rw [Function.update_of_ne this.2]; rfl

theorem call_axis (w : World F) (call : Call F) :
    ((w.call evolve call).grids ((w.call evolve call).laser call.subject)).axis = (w.grids (w.laser call.subject)).axis := by
  cases call with
  | update l u => simp [World.call, Call.subject]
  | propagate l d onto =>
    cases onto with
    | none => simp [World.call, World.shift, Call.subject]
    | some g => simp [World.call, World.shift, Call.subject, adopt_laser, adopt_grid]

theorem call_separated {w : World F} (hs : Separated w) {call : Call F}
    (hx : ∀ l d g, call = .propagate l d (some g) → ∀ l', l' ≠ l → w.laser l' ≠ g) : Separated (w.call evolve call) := by
  have haxis : ∀ l, ((w.call evolve call).grids ((w.call evolve call).laser l)).axis = (w.grids (w.laser l)).axis := by
    intro l
    by_cases h : call.subject = l
    · subst h; exact call_axis evolve w call
    · obtain ⟨h1, h2, -⟩ := call_frame evolve hs hx h
      rw [h1, h2]
  have hgrid : ∀ l, call.subject ≠ l → (w.call evolve call).laser call.subject ≠ w.laser l := by
    intro l hl
    cases call with
    | update l' u => exact (hs l' l hl).1
    | propagate l' d onto =>
      cases onto with
      | none => exact (hs l' l hl).1
      | some g =>
        have := hx l' d g rfl l (fun h => hl h.symm)
        simp only [World.call, World.shift, Call.subject, adopt_laser]
        exact fun h => this h.symm
  intro l l' hne
  refine ⟨?_, by rw [haxis, haxis]; exact (hs l l' hne).2⟩
  by_cases h : call.subject = l
  · have h' : call.subject ≠ l' := fun e => hne (h.symm.trans e)
    rw [(call_frame evolve hs hx h').1, ← h]
    exact hgrid l' h'
  · by_cases h' : call.subject = l'
    · rw [(call_frame evolve hs hx h).1, ← h']
      exact (hgrid l h).symm
    · rw [(call_frame evolve hs hx h).1, (call_frame evolve hs hx h').1]
      exact (hs l l' hne).1

/-- the effect of a call on what one sees of its own laser depends only on that -/
theorem call_own {w w' : World F} {call : Call F} (hl : w.laser call.subject = w'.laser call.subject)
    (hv : w.view call.subject = w'.view call.subject) :
    (w.call evolve call).laser call.subject = (w'.call evolve call).laser call.subject ∧
      (w.call evolve call).view call.subject = (w'.call evolve call).view call.subject := by
  unfold World.view World.gridView at hv
  simp only [View.mk.injEq] at hv
  rw [hl] at hv
  obtain ⟨h1, h2, h3, h4⟩ := hv
  cases call with
  | update l u =>
    simp only [Call.subject] at *
    refine ⟨hl, ?_⟩
    simp [World.view, World.gridView, World.call, hl, h1, h2, h3, h4]
  | propagate l d onto =>
    simp only [Call.subject] at *
    cases onto with
    | none =>
      refine ⟨hl, ?_⟩
      simp [World.view, World.gridView, World.call, World.shift, h1, h2, h3, h4, hl]
    | some g =>
      have ha : ∀ v : World F, (v.adopt l g).arrays = v.arrays := fun v => rfl
      refine ⟨by simp [World.call, World.shift, adopt_laser], ?_⟩
      simp [World.view, World.gridView, World.call, World.shift, adopt_laser, adopt_grid, h1, h2, h3, h4, hl, ha]

/-- **C110.** Lasers do not disturb each other. For lasers constructed separately and every history of calls on all of them
in any order, in which no grid object is passed to `propagate` of one laser while it is the grid of another, what one sees of
a laser (time window, axis, field) is what its own calls alone would have produced. -/
theorem C110_isolated {w : World F} (hs : Separated w) {h : List (Call F)} (hx : Exclusive evolve w h) (l : LaserId) :
    (w.run evolve h).view l = (w.run evolve (h.filter fun call => call.subject = l)).view l := by
  suffices H : ∀ (h : List (Call F)) (w w' : World F), Separated w → Exclusive evolve w h → w.laser l = w'.laser l →
      w.view l = w'.view l → (w.run evolve h).view l = (w'.run evolve (h.filter fun call => call.subject = l)).view l from
    H h w w hs hx rfl rfl
  intro h
  induction h with
  | nil => intro w w' _ _ _ hv; exact hv
  | cons call h ih =>
    intro w w' hs hx hl hv
    obtain ⟨hx1, hx2⟩ := hx
    have hs' := call_separated evolve hs hx1
    by_cases hc : call.subject = l
    · subst hc
      rw [List.filter_cons_of_pos (by simp)]
      obtain ⟨h1, h2⟩ := call_own evolve hl hv
      exact ih _ _ hs' hx2 h1 h2
    · rw [List.filter_cons_of_neg (by simpa using hc)]
      obtain ⟨h1, h2, h3⟩ := call_frame evolve hs hx1 hc
      refine ih _ _ hs' hx2 (h1.trans hl) ?_
      rw [← hv]
      unfold World.view World.gridView
      rw [h1, h2, h3]

/-- the window of a laser after its own call -/
theorem call_window (w : World F) (call : Call F) (l : LaserId) (hc : call.subject = l) :
    ((w.call evolve call).view l).lo = (w.view l).lo + travelled l [call] / c ∧
    ((w.call evolve call).view l).hi = (w.view l).hi + travelled l [call] / c ∧
    ∀ k, ((w.call evolve call).view l).axis k = (w.view l).axis k + travelled l [call] / c := by
  subst hc
  cases call with
  | update l u => simp [World.view, World.gridView, World.call, Call.subject, travelled]
  | propagate l d onto =>
    cases onto with
    | none => simp [World.view, World.gridView, World.call, World.shift, Call.subject, travelled]
    | some g =>
      have ha : ∀ v : World F, (v.adopt l g).arrays = v.arrays := fun v => rfl
      simp [World.view, World.gridView, World.call, World.shift, Call.subject, travelled, adopt_laser, adopt_grid, ha]

omit [Phys] in
theorem travelled_cons (l : LaserId) (call : Call F) (h : List (Call F)) :
    travelled l (call :: h) = travelled l [call] + travelled l h := by
  cases call <;> simp [travelled]

omit [Phys] in
theorem travelled_other {l : LaserId} {call : Call F} (h : call.subject ≠ l) : travelled l [call] = 0 := by
  cases call with
  | update l' u => simp [travelled]
  | propagate l' d o => simp only [Call.subject] at h; simp [travelled, h]

/-- **C110** (time window): under the same conditions bounds and axis of every laser have moved by the distance that its own
calls made it travel, divided by `c`; in particular they still fit together. -/
theorem C110_window {w : World F} (hs : Separated w) {h : List (Call F)} (hx : Exclusive evolve w h) (l : LaserId) :
    ((w.run evolve h).view l).lo = (w.view l).lo + travelled l h / c ∧
    ((w.run evolve h).view l).hi = (w.view l).hi + travelled l h / c ∧
    ∀ k, ((w.run evolve h).view l).axis k = (w.view l).axis k + travelled l h / c := by
  induction h generalizing w with
  | nil => simp [World.run, travelled]
  | cons call h ih =>
    obtain ⟨hx1, hx2⟩ := hx
    obtain ⟨i1, i2, i3⟩ := ih (call_separated evolve hs hx1) hx2
    have hrun : w.run evolve (call :: h) = (w.call evolve call).run evolve h := rfl
    rw [hrun, travelled_cons, add_div]
    by_cases hc : call.subject = l
    · obtain ⟨j1, j2, j3⟩ := call_window evolve w call l hc
      refine ⟨by rw [i1, j1]; ring, by rw [i2, j2]; ring, fun k => by rw [i3, j3]; ring⟩
    · have hv : (w.call evolve call).view l = w.view l := by
        obtain ⟨h1, h2, h3⟩ := call_frame evolve hs hx1 hc
        unfold World.view World.gridView
        rw [h1, h2, h3]
      rw [hv] at i1 i2 i3
      rw [travelled_other hc]
      refine ⟨by rw [i1]; ring, by rw [i2]; ring, fun k => by rw [i3]; ring⟩

/-- the condition of C110 is needed: `propagate` does not copy the grid it gets. Two lasers propagated onto the same grid object
are one and the same afterwards: the second call has replaced the field of the first laser. -/
theorem C110_shared (w : World F) {l l' : LaserId} (h : l ≠ l') (d d' : ℝ) (g : GridId) (hg : w.laser l' ≠ g) :
    ((w.run evolve [.propagate l d (some g), .propagate l' d' (some g)]).view l).field =
      evolve d' (w.laser l') g (w.view l').field := by
  simp only [World.run, List.foldl, World.call]
  have h' := h.symm
  simp [World.view, World.gridView, World.shift, World.adopt, h, h', hg]

/-- **C111 is false of the code**: a grid object taken from `laser.grid` before a propagation onto another grid does not stay as
it is: its time axis moves along with the laser, while its bounds do not, so that they fit together no more. -/
theorem C111_refuted (w : World F) (l : LaserId) {g : GridId} (hg : w.laser l ≠ g) {d : ℝ} (hd : d ≠ 0)
    (h0 : (w.view l).axis 0 = (w.view l).lo) :
    let old := (w.call evolve (.propagate l d (some g))).gridView (w.laser l)
    old.lo = (w.view l).lo ∧ (∀ k, old.axis k = (w.view l).axis k + d / c) ∧ old.axis 0 ≠ old.lo := by
  have hc := c_pos.ne'
  have e : ∀ k, ((w.call evolve (.propagate l d (some g))).gridView (w.laser l)).axis k = (w.view l).axis k + d / c := by
    intro k
    simp [World.view, World.gridView, World.call, World.shift, World.adopt, hg]
  have e2 : ((w.call evolve (.propagate l d (some g))).gridView (w.laser l)).lo = (w.view l).lo := by
    simp [World.view, World.gridView, World.call, World.shift, World.adopt, hg]
  refine ⟨e2, e, ?_⟩
  rw [e, e2, h0]
  intro h
  have : d / c = 0 := by linarith
  exact (div_ne_zero hd hc) this

/-- **C111** (what holds): after laser `l` has left its grid `g0` for another one, and as long as `g0` is not passed to `propagate`
again, no call on any laser changes bounds and field of `g0`; its axis moves by exactly what `l` travels. -/
theorem C111_left_partial {w : World F} (hs : Separated w) {l : LaserId} {g0 : GridId} (hg : ∀ l', w.laser l' ≠ g0)
    (ha : (w.grids g0).axis = (w.grids (w.laser l)).axis) {h : List (Call F)} (hx : Exclusive evolve w h)
    (hnot : ∀ l' d, Call.propagate l' d (some g0) ∉ h) :
    ((w.run evolve h).gridView g0).lo = (w.gridView g0).lo ∧ ((w.run evolve h).gridView g0).hi = (w.gridView g0).hi ∧
      ((w.run evolve h).gridView g0).field = (w.gridView g0).field ∧
      ∀ k, ((w.run evolve h).gridView g0).axis k = (w.gridView g0).axis k + travelled l h / c := by
  induction h generalizing w with
  | nil => simp [World.run, travelled]
  | cons call h ih =>
    obtain ⟨hx1, hx2⟩ := hx
    have hs' := call_separated evolve hs hx1
    have hrun : w.run evolve (call :: h) = (w.call evolve call).run evolve h := rfl
    -- the grid object itself
    have hgrid : (w.call evolve call).grids g0 = w.grids g0 := by
      cases call with
      | update l' u => simp only [World.call]; rw [Function.update_of_ne (hg l').symm]
      | propagate l' d onto =>
        cases onto with
        | none => simp only [World.call, World.shift]; rw [Function.update_of_ne (hg l').symm]
        | some g =>
          have hgg : g0 ≠ g := by rintro rfl; exact hnot l' d (by simp)
          simp only [World.call, World.shift, adopt_laser]
          rw [Function.update_of_ne hgg, adopt_grid_ne w l' hgg]
    have hl' : ∀ l', (w.call evolve call).laser l' ≠ g0 := by
      intro l'
      by_cases hc : call.subject = l'
      · subst hc
        cases call with
        | update l' u => exact hg l'
        | propagate l' d onto =>
          cases onto with
          | none => exact hg l'
          | some g =>
            have hgg : g0 ≠ g := by rintro rfl; exact hnot l' d (by simp)
            simp only [World.call, World.shift, Call.subject, adopt_laser]
            exact hgg.symm
      · rw [(call_frame evolve hs hx1 hc).1]; exact hg l'
    have hax : ((w.call evolve call).grids ((w.call evolve call).laser l)).axis = (w.grids (w.laser l)).axis := by
      by_cases hc : call.subject = l
      · subst hc; exact call_axis evolve w call
      · obtain ⟨h1, h2, -⟩ := call_frame evolve hs hx1 hc
        rw [h1, h2]
    obtain ⟨i1, i2, i3, i4⟩ := ih hs' hl' (by rw [hgrid, hax, ha]) hx2 (fun l' d hm => hnot l' d (by simp [hm]))
    rw [hrun]
    have harr : ∀ k, ((w.call evolve call).gridView g0).axis k = (w.gridView g0).axis k + travelled l [call] / c := by
      intro k
      have e1 : ((w.call evolve call).gridView g0).axis = ((w.call evolve call).view l).axis := by
        unfold World.view World.gridView
        simp only
        rw [hgrid, hax, ha]
      have e2 : (w.gridView g0).axis = (w.view l).axis := by
        unfold World.view World.gridView
        simp only
        rw [ha]
      rw [e1, e2]
      by_cases hc : call.subject = l
      · exact (call_window evolve w call l hc).2.2 k
      · obtain ⟨h1, h2, h3⟩ := call_frame evolve hs hx1 hc
        rw [travelled_other hc]
        unfold World.view World.gridView
        rw [h1, h2, h3]
        simp
    refine ⟨i1.trans ?_, i2.trans ?_, i3.trans ?_, fun k => ?_⟩
    · unfold World.gridView; rw [hgrid]
    · unfold World.gridView; rw [hgrid]
    · unfold World.gridView; rw [hgrid]
    · rw [i4, harr, travelled_cons l call h]; ring

/-- separately constructed lasers exist: laser `n` has grid `n` with axis `n`; and a history that uses a spare grid is
exclusive -/
example : ∃ w : World ℝ, Separated w ∧ Exclusive (fun _ _ _ f => f) w [.propagate 0 1 none, .propagate 1 2 none] ∧
    (w.view 0).axis 0 = (w.view 0).lo :=
  ⟨⟨fun _ k => k, fun g => ⟨0, 1, g, 1⟩, fun l => l⟩, fun _ _ h => ⟨h, h⟩, by
    refine ⟨?_, ?_, trivial⟩ <;> intro l d g h <;> simp at h, by simp [World.view, World.gridView]⟩

/-- ... with two lasers on even grids and the odd ones to spare -/
example : ∃ w : World ℝ, Separated w ∧ Exclusive (fun _ _ _ f => f) w [.propagate 0 1 (some 1), .propagate 1 2 none, .propagate 0 1 (some 3)] :=
  ⟨⟨fun _ k => k, fun g => ⟨0, 1, g, 1⟩, fun l => 2 * l⟩, fun _ _ h => ⟨fun e => h (by simpa using e), fun e => h (by simpa using e)⟩, by
    refine ⟨?_, ?_, ?_, trivial⟩
    · rintro l d g h l' -
      simp only [Call.propagate.injEq, Option.some.injEq] at h
      obtain ⟨rfl, -, rfl⟩ := h
      show (2 * l' : ℕ) ≠ 1
      omega
    · rintro l d g h; simp at h
    · rintro l d g h l' hl
      simp only [Call.propagate.injEq, Option.some.injEq] at h
      obtain ⟨rfl, -, rfl⟩ := h
      have h1 : (World.call (fun _ _ _ f => f) (World.call (fun _ _ _ f => f) (⟨fun _ k => k, fun g => ⟨0, 1, g, 1⟩, fun l => 2 * l⟩ : World ℝ)
        (.propagate 0 1 (some 1))) (.propagate 1 2 none)).laser l' = 2 * l' := by
        simp [World.call, World.shift, World.adopt, hl]
      rw [h1]
      show (2 * l' : ℕ) ≠ 3
      omega⟩

end Lasy.Heap
