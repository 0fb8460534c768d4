import Verif.Model.PhaseRetrieval
import Verif.Spec.PhaseRetrieval
import Verif.Props.Propagate2
import Mathlib.Algebra.Order.Chebyshev
import Mathlib.Algebra.Order.BigOperators.Ring.Finset

/-!
# Properties C60, C61: the Gerchberg–Saxton algorithm
-/

namespace Lasy
open Spec Phys Complex

variable {s : Shape}

/-! ## C60: the inputs are left alone -/

/-- a program that changes no object below address `N` -/
def KeepsBelow (N : ℕ) {α : Type} (m : Py (LHeap s) α) : Prop := ∀ h : LHeap s, ∀ r < N, (m h).2.obj r = h.obj r

theorem keepsBelow_bind {N : ℕ} {α β : Type} {m : Py (LHeap s) α} {f : α → Py (LHeap s) β} (hm : KeepsBelow N m)
    (hf : ∀ a, KeepsBelow N (f a)) : KeepsBelow N (m >>= f) := by
  intro h r hr
  rw [Py.bind_apply]
  rcases e : m h with ⟨e' | a, h'⟩
  · have := hm h r hr; rw [e] at this; exact this
  · have h1 := hm h r hr
    rw [e] at h1
    exact (hf a h' r hr).trans h1

theorem keepsBelow_atObj {N r : ℕ} {α : Type} (m : Py (Laser s) α) (hr : N ≤ r) : KeepsBelow N (atObj r m) := by
  intro h r' hr'
  have : r' ≠ r := by omega
  simp [atObj, Function.update_of_ne this]

theorem keepsBelow_pure {N : ℕ} {α : Type} (a : α) : KeepsBelow N (pure a : Py (LHeap s) α) := fun _ _ _ => rfl

theorem keepsBelow_raise {N : ℕ} {α : Type} (e : PyErr) : KeepsBelow N (Py.raise e : Py (LHeap s) α) :=
  fun _ _ _ => rfl

variable [Phys]

theorem keepsBelow_body (ax : Axiprop) {N l1 l2 : ℕ} (h1 : N ≤ l1) (h2 : N ≤ l2) (dz : ℝ) (a1 a2 φ : RArr s) :
    KeepsBelow N (gsBody ax l1 l2 dz a1 a2 φ) := by
  unfold gsBody
  refine keepsBelow_bind (keepsBelow_atObj _ h1) fun _ => keepsBelow_bind (keepsBelow_atObj _ h1) fun _ =>
    keepsBelow_bind (keepsBelow_atObj _ h1) fun _ => keepsBelow_bind (keepsBelow_atObj _ h2) fun _ =>
    keepsBelow_bind (keepsBelow_atObj _ h2) fun _ => keepsBelow_bind (keepsBelow_atObj _ h2) fun _ =>
    keepsBelow_pure _

theorem keepsBelow_loop (ax : Axiprop) {N l1 l2 : ℕ} (h1 : N ≤ l1) (h2 : N ≤ l2) (dz : ℝ) (a1 a2 : RArr s)
    (cond : GSCond) (fuel i : ℕ) (last : Option (GSOut s)) :
    KeepsBelow N (gsLoop ax l1 l2 dz a1 a2 cond fuel i last) := by
  induction fuel generalizing i last with
  | zero => exact keepsBelow_pure _
  | succ fuel ih =>
    unfold gsLoop
    split
    · exact keepsBelow_bind (keepsBelow_body ax h1 h2 dz a1 a2 _) fun _ => ih _ _
    · cases last
      · exact keepsBelow_raise _
      · exact keepsBelow_pure _

/-- **C60 (inputs).** `gerchberg_saxton_algo` changes no object that existed before the call, in particular neither
of the two lasers, whatever its arguments and whether it returns, raises or is interrupted after any number of
iterations. -/
theorem C60_inputs_unchanged (ax : Axiprop) (r1 r2 : ℕ) (dz : ℝ) (cond : Option GSCond) (fuel : ℕ) (h : LHeap s)
    (r : ℕ) (hr : r < h.next) : (gerchbergSaxton ax r1 r2 dz cond fuel h).2.obj r = h.obj r := by
  unfold gerchbergSaxton
  rw [Py.bind_ok (show deepcopy r1 h = (.ok h.next, _) from rfl),
    Py.bind_ok (show deepcopy r2 _ = (.ok (h.next + 1), _) from rfl)]
  have key : ∀ h' : LHeap s, (∀ r < h.next, h'.obj r = h.obj r) → ∀ m : Py (LHeap s) (Option (GSOut s)),
      KeepsBelow h.next m → (m h').2.obj r = h.obj r := fun h' hh m hm => (hm h' r hr).trans (hh r hr)
  refine key _ ?_ _ ?_
  · intro r hr
    have h1 : r ≠ h.next := by omega
    have h2 : r ≠ h.next + 1 := by omega
    simp [Function.update_of_ne h1, Function.update_of_ne h2]
  · refine keepsBelow_bind (keepsBelow_atObj _ le_rfl) fun _ =>
      keepsBelow_bind (keepsBelow_atObj _ (Nat.le_succ _)) fun _ => ?_
    cases cond
    · exact keepsBelow_raise _
    · exact keepsBelow_loop ax le_rfl (Nat.le_succ _) _ _ _ _ _ _ _

/-! ## C60: the iterations -/

/-- a working copy of the laser `l`: any field, but the same grid, frequencies, profile and propagator -/
structure WorksLike (l' l : Laser s) (b : String) : Prop where
  has : ∃ f, l'.Has f
  geom : l'.grid.geom = l.grid.geom
  omega : l'.omega1d = l.omega1d
  profile : l'.profile = l.profile
  uses : l'.Uses b "NP"

theorem WorksLike.set {l' l : Laser s} {b : String} (h : WorksLike l' l b) (f : Field s) :
    ∃ l2, Laser.onGrid (Grid.setTemporalField (Arr.toNd ⟨.c128, f⟩)) l' = (.ok (), l2) ∧ l2.Has f ∧
      WorksLike l2 l b := by
  obtain ⟨f0, hf0⟩ := h.has
  obtain ⟨g, e, hg, h1, h2⟩ := Grid.Holds.setT hf0 f
  refine ⟨{ l' with grid := g }, onGrid_eq e, hg, ⟨f, hg⟩, h1.trans h.geom, h.omega, h.profile, ?_⟩
  rcases h.uses with u | u
  · exact .inl u
  · exact .inr (u.trans (buildProp_congr (l := l') (l' := { l' with grid := g }) h1 rfl b).symm)

theorem WorksLike.step {l' l : Laser s} {b : String} (h : WorksLike l' l b) {f : Field s} (hf : l'.Has f)
    (ax : Axiprop) (d : ℝ) :
    ∃ l2, Laser.propagateHere ax d none "NP" l' = (.ok (), l2) ∧ l2.Has (l.propagated ax b d f) ∧
      WorksLike l2 l b := by
  obtain ⟨l2, e, h1, h2, h3, h4, h5, h6, h7⟩ := propagateHere_ok ax d b "NP" l' f hf h.uses none (w := fun _ _ => 1) rfl
  simp only [ofReal_one, mul_one] at h1
  rw [propagated_congr h.geom h.omega h.profile] at h1
  exact ⟨l2, e, h1, ⟨_, h1⟩, h2.trans h.geom, h5.trans h.omega, h4.trans h.profile,
    .inr (h6.trans (buildProp_congr h2 h5 b).symm)⟩

theorem WorksLike.get {l' l : Laser s} {b : String} (h : WorksLike l' l b) {f : Field s} (hf : l'.Has f) :
    ∃ l2, Laser.onGrid Grid.getTemporalField l' = (.ok ⟨.c128, f⟩, l2) ∧ l2.Has f ∧ WorksLike l2 l b := by
  obtain ⟨g, e, hg, h1, h2⟩ := Grid.Holds.getT hf
  refine ⟨{ l' with grid := g }, onGrid_eq e, hg, ⟨f, hg⟩, h1.trans h.geom, h.omega, h.profile, ?_⟩
  rcases h.uses with u | u
  · exact .inl u
  · exact .inr (u.trans (buildProp_congr (l := l') (l' := { l' with grid := g }) h1 rfl b).symm)

omit [Phys] in
theorem atObj_eq {α : Type} {r : ℕ} {m : Py (Laser s) α} {h : LHeap s} {x : Except PyErr α} {l' : Laser s}
    (e : m (h.obj r) = (x, l')) : atObj r m h = (x, { h with obj := Function.update h.obj r l' }) := by
  simp [atObj, e]

omit [Phys] in
theorem polar_eq (a φ : RArr s) : polar a φ = withPhase a φ := rfl

/-- one iteration -/
theorem gsBody_ok (ax : Axiprop) (l1 l2 : Laser s) (b1 b2 : String) {r1 r2 : ℕ} (hne : r1 ≠ r2) (dz : ℝ)
    (a1 a2 φ : RArr s) (h : LHeap s) (h1 : WorksLike (h.obj r1) l1 b1) (h2 : WorksLike (h.obj r2) l2 b2) :
    ∃ h' : LHeap s, gsBody ax r1 r2 dz a1 a2 φ h =
        (.ok { phase1 := phases (l2.propagated ax b2 (-dz) (withPhase a2 (gsForth (l1.propagated ax b1 dz) a1 φ)))
               phase2 := gsForth (l1.propagated ax b1 dz) a1 φ
               err := total fun i j k =>
                 amplitudes (l2.propagated ax b2 (-dz) (withPhase a2 (gsForth (l1.propagated ax b1 dz) a1 φ))) i j k -
                   a1 i j k }, h') ∧
      WorksLike (h'.obj r1) l1 b1 ∧ WorksLike (h'.obj r2) l2 b2 := by
  obtain ⟨m1, e1, f1, w1⟩ := h1.set (polar a1 φ)
  obtain ⟨m2, e2, f2, w2⟩ := w1.step f1 ax dz
  obtain ⟨m3, e3, f3, w3⟩ := w2.get f2
  obtain ⟨n1, p1, q1, v1⟩ := h2.set (polar a2 (gsForth (l1.propagated ax b1 dz) a1 φ))
  obtain ⟨n2, p2, q2, v2⟩ := v1.step q1 ax (-dz)
  obtain ⟨n3, p3, q3, v3⟩ := v2.get q2
  have hne' := hne.symm
  refine ⟨{ h with obj := Function.update (Function.update h.obj r1 m3) r2 n3 }, ?_, ?_, ?_⟩
  · unfold gsBody
    rw [Py.bind_ok (atObj_eq e1), Py.bind_ok (atObj_eq (l' := m2) (by simpa using e2)),
      Py.bind_ok (atObj_eq (l' := m3) (by simpa using e3))]
    simp only [Function.update_idem]
    rw [Py.bind_ok (atObj_eq (l' := n1) (by simp only [Function.update_of_ne hne']; exact p1)),
      Py.bind_ok (atObj_eq (l' := n2) (by simpa using p2)),
      Py.bind_ok (atObj_eq (l' := n3) (by simpa using p3))]
    simp only [Function.update_idem]
    rfl
  · simpa [Function.update_of_ne hne] using w3
  · simpa using v3

/-- what the algorithm has computed after `n + 1` iterations, by specification -/
noncomputable def gsResult (U V : Field s → Field s) (a1 a2 : RArr s) (n : ℕ) : GSOut s where
  phase1 := gsPhase U V a1 a2 (n + 1)
  phase2 := gsForth U a1 (gsPhase U V a1 a2 n)
  err := ∑ i, ∑ j, ∑ k, (amplitudes (V (withPhase a2 (gsForth U a1 (gsPhase U V a1 a2 n)))) i j k - a1 i j k)

/-- what the loop has assigned after `n` iterations -/
noncomputable def gsState (U V : Field s → Field s) (a1 a2 : RArr s) : ℕ → Option (GSOut s)
  | 0 => none
  | n + 1 => some (gsResult U V a1 a2 n)

open Classical in
theorem gsLoop_succ (ax : Axiprop) (r1 r2 : ℕ) (dz : ℝ) (a1 a2 : RArr s) (cond : GSCond) (fuel i : ℕ)
    (last : Option (GSOut s)) : gsLoop ax r1 r2 dz a1 a2 cond (fuel + 1) i last =
    if cond.goesOn (total a1) i (last.map GSOut.err) then do
      let out ← gsBody ax r1 r2 dz a1 a2 (match last with
        | some o => o.phase1
        | none => fun _ _ _ => 0)
      gsLoop ax r1 r2 dz a1 a2 cond fuel (i + 1) (some out)
    else
      match last with
      | some o => return some o
      | none => Py.raise .unbound := rfl

/-- the loop -/
theorem gsLoop_ok (ax : Axiprop) (l1 l2 : Laser s) (b1 b2 : String) {r1 r2 : ℕ} (hne : r1 ≠ r2) (dz : ℝ)
    (a1 a2 : RArr s) (cond : GSCond) (U V : Field s → Field s) (hU : U = l1.propagated ax b1 dz)
    (hV : V = l2.propagated ax b2 (-dz)) (fuel n : ℕ) (h : LHeap s) (h1 : WorksLike (h.obj r1) l1 b1)
    (h2 : WorksLike (h.obj r2) l2 b2)
    (hgo : ∀ i, n ≤ i → i < n + fuel → cond.goesOn (total a1) i ((gsState U V a1 a2 i).map GSOut.err)) (fuel' : ℕ) :
    ∃ h' : LHeap s, gsLoop ax r1 r2 dz a1 a2 cond (fuel + fuel') n (gsState U V a1 a2 n) h =
        gsLoop ax r1 r2 dz a1 a2 cond fuel' (n + fuel) (gsState U V a1 a2 (n + fuel)) h' ∧
      WorksLike (h'.obj r1) l1 b1 ∧ WorksLike (h'.obj r2) l2 b2 := by
  induction fuel generalizing n h with
  | zero => exact ⟨h, by simp, h1, h2⟩
  | succ fuel ih =>
    obtain ⟨h', e, w1, w2⟩ := gsBody_ok ax l1 l2 b1 b2 hne dz a1 a2 (gsPhase U V a1 a2 n) h h1 h2
    obtain ⟨h'', e2, w3⟩ := ih (n + 1) h' w1 w2 (fun i hi hi' => hgo i (by omega) (by omega))
    refine ⟨h'', ?_, w3⟩
    have hφ : (match gsState U V a1 a2 n with
        | some o => o.phase1
        | none => fun _ _ _ => 0) = gsPhase U V a1 a2 n := by
      cases n <;> rfl
    have hf : fuel + 1 + fuel' = (fuel + fuel') + 1 := by ring
    rw [hf, gsLoop_succ, if_pos (hgo n le_rfl (by omega)), hφ, Py.bind_ok e]
    have hn : n + (fuel + 1) = n + 1 + fuel := by ring
    rw [hn, ← e2]
    subst hU hV
    rfl

/-- the run up to the loop -/
theorem gs_start (ax : Axiprop) (r1 r2 : ℕ) (dz : ℝ) (cond : GSCond) (fuel : ℕ) (h : LHeap s) (f1 f2 : Field s)
    (b1 b2 : String) (h1 : (h.obj r1).Has f1) (h2 : (h.obj r2).Has f2) (u1 : (h.obj r1).Uses b1 "NP")
    (u2 : (h.obj r2).Uses b2 "NP") (hr2 : r2 < h.next) :
    ∃ h' : LHeap s, gerchbergSaxton ax r1 r2 dz (some cond) fuel h =
        gsLoop ax h.next (h.next + 1) dz (amplitudes f1) (amplitudes f2) cond fuel 0 none h' ∧
      WorksLike (h'.obj h.next) (h.obj r1) b1 ∧ WorksLike (h'.obj (h.next + 1)) (h.obj r2) b2 := by
  have w1 : WorksLike (h.obj r1) (h.obj r1) b1 := ⟨⟨_, h1⟩, rfl, rfl, rfl, u1⟩
  have w2 : WorksLike (h.obj r2) (h.obj r2) b2 := ⟨⟨_, h2⟩, rfl, rfl, rfl, u2⟩
  obtain ⟨m1, e1, f1', w1'⟩ := w1.get h1
  obtain ⟨m2, e2, f2', w2'⟩ := w2.get h2
  have n2 : r2 ≠ h.next := by omega
  refine ⟨{ obj := Function.update (Function.update h.obj h.next m1) (h.next + 1) m2, next := h.next + 1 + 1 },
    ?_, ?_, ?_⟩
  · unfold gerchbergSaxton
    rw [Py.bind_ok (show deepcopy r1 h = (.ok h.next, _) from rfl),
      Py.bind_ok (show deepcopy r2 _ = (.ok (h.next + 1), _) from rfl)]
    simp only [Function.update_of_ne n2]
    rw [Py.bind_ok (atObj_eq (l' := m1) (by simpa using e1)),
      Py.bind_ok (atObj_eq (l' := m2) (by simpa using e2))]
    simp only
    congr 1
    congr 1
    funext r
    by_cases ha : r = h.next
    · subst ha; simp
    · by_cases hb : r = h.next + 1
      · subst hb; simp
      · simp [ha, hb]
  · simpa using w1'
  · simpa using w2'

/-- **C60 (iterations).** With `condition='max_iterations'` and `max_iterations = n + 1`, for two lasers with fields
`f1`, `f2`: the call has not returned after `n + 1` iterations have been started, and then it returns; what it returns
are the phases of exactly `n + 1` Gerchberg–Saxton iterations and the summed amplitude error of the last. -/
theorem C60_iterations (ax : Axiprop) (r1 r2 : ℕ) (dz : ℝ) (h : LHeap s) (f1 f2 : Field s)
    (b1 b2 : String) (h1 : (h.obj r1).Has f1) (h2 : (h.obj r2).Has f2) (u1 : (h.obj r1).Uses b1 "NP")
    (u2 : (h.obj r2).Uses b2 "NP") (hr2 : r2 < h.next) (n : ℕ) :
    (∀ fuel ≤ n + 1, (gerchbergSaxton ax r1 r2 dz (some (.maxIterations (n + 1))) fuel h).1 = .ok none) ∧
    ∀ fuel > n + 1, (gerchbergSaxton ax r1 r2 dz (some (.maxIterations (n + 1))) fuel h).1 = .ok (some
      (gsResult ((h.obj r1).propagated ax b1 dz) ((h.obj r2).propagated ax b2 (-dz)) (amplitudes f1)
        (amplitudes f2) n)) := by
  have hne : h.next ≠ h.next + 1 := by omega
  constructor
  · intro fuel hf
    obtain ⟨h', e, w1, w2⟩ := gs_start ax r1 r2 dz (.maxIterations (n + 1)) fuel h f1 f2 b1 b2 h1 h2 u1 u2 hr2
    obtain ⟨h'', e2, -⟩ := gsLoop_ok ax _ _ b1 b2 hne dz (amplitudes f1) (amplitudes f2) (.maxIterations (n + 1)) _ _
      rfl rfl fuel 0 h' w1 w2 (fun i hi hi' => by simp only [GSCond.goesOn]; omega) 0
    rw [e, ← add_zero fuel]
    exact congrArg Prod.fst e2
  · intro fuel hf
    obtain ⟨h', e, w1, w2⟩ := gs_start ax r1 r2 dz (.maxIterations (n + 1)) fuel h f1 f2 b1 b2 h1 h2 u1 u2 hr2
    obtain ⟨h'', e2, -⟩ := gsLoop_ok ax _ _ b1 b2 hne dz (amplitudes f1) (amplitudes f2) (.maxIterations (n + 1)) _ _
      rfl rfl (n + 1) 0 h' w1 w2 (fun i hi hi' => by simp only [GSCond.goesOn]; omega) (fuel - (n + 1))
    have e3 : fuel = n + 1 + (fuel - (n + 1)) := by omega
    rw [e, e3]
    refine (congrArg Prod.fst e2).trans ?_
    obtain ⟨m, hm⟩ : ∃ m, fuel - (n + 1) = m + 1 := ⟨fuel - (n + 1) - 1, by omega⟩
    rw [hm, gsLoop_succ, if_neg (by simp [GSCond.goesOn])]
    simp [gsState]

/-- **C60 is false of the code (no iterations).** With `max_iterations ≤ 0`, or with a `condition` that is neither of
the two documented strings, the call raises `UnboundLocalError`. -/
theorem C60_no_iterations (ax : Axiprop) (r1 r2 : ℕ) (dz : ℝ) (h : LHeap s) (f1 f2 : Field s)
    (h1 : (h.obj r1).Has f1) (h2 : (h.obj r2).Has f2) (hr2 : r2 < h.next) (fuel : ℕ) :
    (∀ n : ℤ, n ≤ 0 →
      (gerchbergSaxton ax r1 r2 dz (some (.maxIterations n)) (fuel + 1) h).1 = .error .unbound) ∧
    (gerchbergSaxton ax r1 r2 dz none fuel h).1 = .error .unbound := by
  obtain ⟨g1, e1, -⟩ := Grid.Holds.getT h1
  obtain ⟨g2, e2, -⟩ := Grid.Holds.getT h2
  have n2 : r2 ≠ h.next := by omega
  constructor
  · intro n hn
    unfold gerchbergSaxton
    rw [Py.bind_ok (show deepcopy r1 h = (.ok h.next, _) from rfl),
      Py.bind_ok (show deepcopy r2 _ = (.ok (h.next + 1), _) from rfl)]
    simp only [Function.update_of_ne n2]
    rw [Py.bind_ok (atObj_eq (l' := { h.obj r1 with grid := g1 }) (by simpa using onGrid_eq e1)),
      Py.bind_ok (atObj_eq (l' := { h.obj r2 with grid := g2 }) (by simpa using onGrid_eq e2))]
    simp only
    rw [gsLoop_succ, if_neg (by simp [GSCond.goesOn]; omega)]
    rfl
  · unfold gerchbergSaxton
    rw [Py.bind_ok (show deepcopy r1 h = (.ok h.next, _) from rfl),
      Py.bind_ok (show deepcopy r2 _ = (.ok (h.next + 1), _) from rfl)]
    simp only [Function.update_of_ne n2]
    rw [Py.bind_ok (atObj_eq (l' := { h.obj r1 with grid := g1 }) (by simpa using onGrid_eq e1)),
      Py.bind_ok (atObj_eq (l' := { h.obj r2 with grid := g2 }) (by simpa using onGrid_eq e2))]
    rfl

/-! ## C60: the condition `amplitude_error` -/

/-- the norm of the field, cell by cell -/
noncomputable def cellNorm (g : Grid s) (f : Field s) : ℝ := ∑ i, ∑ j, ∑ k, g.cellVolume j * ‖f i j k‖ ^ 2

theorem pulseEnergy_cellNorm (g : Grid s) (f : Field s) : pulseEnergy g f = eps0 * 0.5 * cellNorm g f := by
  simp only [pulseEnergy, cellNorm, Finset.mul_sum, Finset.sum_mul]
  refine Finset.sum_congr rfl fun i _ => Finset.sum_congr rfl fun j _ => Finset.sum_congr rfl fun k _ => ?_
  ring

theorem cellNorm_propagated (ax : Axiprop) (hax : ax.Unitary) (l : Laser s) (b : String) (d : ℝ) (f : Field s) :
    cellNorm l.grid (l.propagated ax b d f) = cellNorm l.grid f := by
  have := energy_propagated ax hax l b d f
  rw [pulseEnergy_cellNorm, pulseEnergy_cellNorm] at this
  have h0 := eps0_pos
  exact mul_left_cancel₀ (by positivity) this

/-- in Cartesian geometry all cells have the same volume: the sum of the squares is preserved -/
theorem sumsq_propagated (ax : Axiprop) (hax : ax.Unitary) (l : Laser s) (b : String) (d : ℝ) (f : Field s)
    {x : Axis s.n0} {y : Axis s.n1} (hgeo : l.grid.geom = .xyt x y) (hV : x.dx * y.dx * l.grid.t.dx ≠ 0) :
    ∑ i, ∑ j, ∑ k, ‖l.propagated ax b d f i j k‖ ^ 2 = ∑ i, ∑ j, ∑ k, ‖f i j k‖ ^ 2 := by
  have := cellNorm_propagated ax hax l b d f
  simp only [cellNorm, Grid.cellVolume, hgeo, cellVolumeXYT, ← Finset.mul_sum] at this
  have h0 := c_pos
  refine mul_left_cancel₀ (a := x.dx * y.dx * (l.grid.t.dx * c)) ?_ this
  rw [← mul_assoc]
  exact mul_ne_zero hV h0.ne'

omit [Phys] in
theorem norm_withPhase {a φ : RArr s} (ha : ∀ i j k, 0 ≤ a i j k) (i j k) : ‖withPhase a φ i j k‖ = a i j k := by
  simp only [withPhase, norm_mul, mul_comm I, Complex.norm_exp_ofReal_mul_I, mul_one, Complex.norm_real,
    Real.norm_of_nonneg (ha i j k)]

omit [Phys] in
/-- the sum as a sum over one index -/
theorem total_flat (a : RArr s) : total a = ∑ p : Fin s.n0 × Fin s.n1 × Fin s.nt, a p.1 p.2.1 p.2.2 := by
  simp only [total, Fintype.sum_prod_type]

omit [Phys] in
/-- `‖a‖₂² ≤ ‖a‖₁²` -/
theorem total_sq_le (a : RArr s) (ha : ∀ i j k, 0 ≤ a i j k) : (total fun i j k => a i j k ^ 2) ≤ total a ^ 2 := by
  rw [total_flat, total_flat]
  exact Finset.sum_sq_le_sq_sum_of_nonneg fun _ _ => ha _ _ _

omit [Phys] in
/-- `‖a‖₁² ≤ N ‖a‖₂²` -/
theorem sq_total_le (a : RArr s) :
    total a ^ 2 ≤ (s.n0 * (s.n1 * s.nt) : ℝ) * total fun i j k => a i j k ^ 2 := by
  rw [total_flat, total_flat]
  have := sq_sum_le_card_mul_sum_sq (s := (Finset.univ : Finset (Fin s.n0 × Fin s.n1 × Fin s.nt)))
    (f := fun p => a p.1 p.2.1 p.2.2)
  simpa using this

/-- the error after an iteration is at least `sqrt(sum(amp2²)) - sum(amp1)` and at most
`sqrt(N sum(amp2²)) - sum(amp1)` -/
theorem gsResult_err (ax : Axiprop) (hax : ax.Unitary) (l : Laser s) (b : String) (d : ℝ) (U : Field s → Field s)
    {x : Axis s.n0} {y : Axis s.n1} (hgeo : l.grid.geom = .xyt x y) (hV : x.dx * y.dx * l.grid.t.dx ≠ 0)
    (a1 a2 : RArr s) (ha2 : ∀ i j k, 0 ≤ a2 i j k) (n : ℕ) :
    (total fun i j k => a2 i j k ^ 2) ≤ ((gsResult U (l.propagated ax b d) a1 a2 n).err + total a1) ^ 2 ∧
    ((gsResult U (l.propagated ax b d) a1 a2 n).err + total a1) ^ 2 ≤
      (s.n0 * (s.n1 * s.nt) : ℝ) * (total fun i j k => a2 i j k ^ 2) ∧
    0 ≤ (gsResult U (l.propagated ax b d) a1 a2 n).err + total a1 := by
  set w : RArr s := amplitudes (l.propagated ax b d (withPhase a2 (gsForth U a1 (gsPhase U (l.propagated ax b d) a1 a2 n))))
    with hw
  have hw0 : ∀ i j k, 0 ≤ w i j k := fun i j k => norm_nonneg _
  have herr : (gsResult U (l.propagated ax b d) a1 a2 n).err + total a1 = total w := by
    simp only [gsResult, total, Finset.sum_sub_distrib, ← hw]
    ring
  have hsq : (total fun i j k => w i j k ^ 2) = total fun i j k => a2 i j k ^ 2 := by
    have := sumsq_propagated ax hax l b d (withPhase a2 (gsForth U a1 (gsPhase U (l.propagated ax b d) a1 a2 n))) hgeo hV
    simp only [norm_withPhase ha2] at this
    exact this
  rw [herr, ← hsq]
  refine ⟨total_sq_le w hw0, sq_total_le w, ?_⟩
  exact Finset.sum_nonneg fun i _ => Finset.sum_nonneg fun j _ => Finset.sum_nonneg fun k _ => hw0 i j k

/-- **C60 is false of the code (termination).** With `condition='amplitude_error'` the argument `max_iterations` has no
effect (the loop does not look at it), and the loop need not end: for every norm-preserving propagator and distance, if
the second laser is so much more intense than the first that `sqrt(sum(amp2²)) > (1 + amplitude_error) sum(amp1)`, the
call never returns. -/
theorem C60_termination_refuted (ax : Axiprop) (hax : ax.Unitary) (r1 r2 : ℕ) (dz : ℝ) (h : LHeap s) (f1 f2 : Field s)
    (b1 b2 : String) (h1 : (h.obj r1).Has f1) (h2 : (h.obj r2).Has f2) (u1 : (h.obj r1).Uses b1 "NP")
    (u2 : (h.obj r2).Uses b2 "NP") (hr2 : r2 < h.next)
    {x : Axis s.n0} {y : Axis s.n1} (hgeo : (h.obj r2).grid.geom = .xyt x y)
    (hV : x.dx * y.dx * (h.obj r2).grid.t.dx ≠ 0) (a : ℝ)
    (hpos : 0 < total (amplitudes f1)) (hstart : a * total (amplitudes f1) < 9 * 10 ^ 30)
    (hbig : ((1 + a) * total (amplitudes f1)) ^ 2 < total fun i j k => amplitudes f2 i j k ^ 2) (fuel : ℕ) :
    (gerchbergSaxton ax r1 r2 dz (some (.amplitudeError a)) fuel h).1 = .ok none := by
  have hne : h.next ≠ h.next + 1 := by omega
  obtain ⟨h', e, w1, w2⟩ := gs_start ax r1 r2 dz (.amplitudeError a) fuel h f1 f2 b1 b2 h1 h2 u1 u2 hr2
  obtain ⟨h'', e2, -⟩ := gsLoop_ok ax _ _ b1 b2 hne dz (amplitudes f1) (amplitudes f2) (.amplitudeError a) _ _
    rfl rfl fuel 0 h' w1 w2 (fun i hi hi' => by
      simp only [GSCond.goesOn]
      rw [lt_div_iff₀ hpos]
      cases i with
      | zero => simpa [gsState] using hstart
      | succ n =>
        simp only [gsState, Option.map_some, Option.getD_some]
        obtain ⟨k1, -, k3⟩ := gsResult_err ax hax (h.obj r2) b2 (-dz) ((h.obj r1).propagated ax b1 dz) hgeo hV
          (amplitudes f1) (amplitudes f2) (fun i j k => norm_nonneg _) n
        have := lt_of_pow_lt_pow_left₀ 2 k3 (lt_of_lt_of_le hbig k1)
        linarith) 0
  rw [e, ← add_zero fuel]
  exact congrArg Prod.fst e2

/-- **C60 is false of the code (stopping condition).** The error that is compared with `amplitude_error` is a signed
sum, in which too small and too large amplitudes cancel: for every norm-preserving propagator, distance and threshold
`amplitude_error ≥ 0`, if `sqrt(N sum(amp2²)) ≤ sum(amp1)` the loop ends after its first iteration, however far the
amplitudes are from those of the first laser. -/
theorem C60_residual_refuted (ax : Axiprop) (hax : ax.Unitary) (r1 r2 : ℕ) (dz : ℝ) (h : LHeap s) (f1 f2 : Field s)
    (b1 b2 : String) (h1 : (h.obj r1).Has f1) (h2 : (h.obj r2).Has f2) (u1 : (h.obj r1).Uses b1 "NP")
    (u2 : (h.obj r2).Uses b2 "NP") (hr2 : r2 < h.next)
    {x : Axis s.n0} {y : Axis s.n1} (hgeo : (h.obj r2).grid.geom = .xyt x y)
    (hV : x.dx * y.dx * (h.obj r2).grid.t.dx ≠ 0) (a : ℝ) (ha : 0 ≤ a)
    (hpos : 0 < total (amplitudes f1)) (hstart : a * total (amplitudes f1) < 9 * 10 ^ 30)
    (hsmall : (s.n0 * (s.n1 * s.nt) : ℝ) * (total fun i j k => amplitudes f2 i j k ^ 2) ≤ total (amplitudes f1) ^ 2)
    (fuel : ℕ) :
    (gerchbergSaxton ax r1 r2 dz (some (.amplitudeError a)) (fuel + 2) h).1 = .ok (some
      (gsResult ((h.obj r1).propagated ax b1 dz) ((h.obj r2).propagated ax b2 (-dz)) (amplitudes f1)
        (amplitudes f2) 0)) := by
  have hne : h.next ≠ h.next + 1 := by omega
  obtain ⟨h', e, w1, w2⟩ := gs_start ax r1 r2 dz (.amplitudeError a) (fuel + 2) h f1 f2 b1 b2 h1 h2 u1 u2 hr2
  obtain ⟨h'', e2, -⟩ := gsLoop_ok ax _ _ b1 b2 hne dz (amplitudes f1) (amplitudes f2) (.amplitudeError a) _ _
    rfl rfl 1 0 h' w1 w2 (fun i hi hi' => by
      obtain rfl : i = 0 := by omega
      simp only [GSCond.goesOn]
      rw [lt_div_iff₀ hpos]
      simpa [gsState] using hstart) (fuel + 1)
  rw [e, show fuel + 2 = 1 + (fuel + 1) by ring]
  refine (congrArg Prod.fst e2).trans ?_
  rw [gsLoop_succ, if_neg]
  · simp [gsState]
  · simp only [GSCond.goesOn, gsState, Option.map_some, Option.getD_some, not_lt]
    obtain ⟨-, k2, k3⟩ := gsResult_err ax hax (h.obj r2) b2 (-dz) ((h.obj r1).propagated ax b1 dz) hgeo hV
      (amplitudes f1) (amplitudes f2) (fun i j k => norm_nonneg _) 0
    have := le_of_sq_le_sq (k2.trans hsmall) hpos.le
    rw [div_le_iff₀ hpos]
    nlinarith [mul_nonneg ha hpos.le]

/-! ### The hypotheses are met -/

/-- any laser with any field -/
theorem exists_laser_with (f : Field ⟨2, 2, 2⟩) : ∃ (l : Laser ⟨2, 2, 2⟩) (x y : Axis 2), l.Has f ∧
    l.Uses "NP" "NP" ∧ l.grid.geom = .xyt x y ∧ x.dx * y.dx * l.grid.t.dx ≠ 0 ∧ l.prop = .absent ∧
    (∀ j, 0 ≤ l.grid.cellVolume j) := by
  obtain ⟨l, -, hl, hf, -⟩ := constLaser
  obtain ⟨g, f', hg, -, hgeo, ht, -, -, hp, -⟩ := Laser.init_facts hl
  obtain ⟨-, -, -, -, hc⟩ := Grid.init_ok hg
  rcases hc with ⟨_, _, _, _, _, _, _, _, h, -⟩ |
    ⟨l0, l1, l2, u0, u1, u2, x, y, t, -, e2, e3, e4, e5, e6, e7, e8, e9⟩
  · exact absurd h (by decide)
  simp only [List.cons.injEq, and_true] at e2 e3
  obtain ⟨rfl, rfl, rfl⟩ := e2
  obtain ⟨rfl, rfl, rfl⟩ := e3
  obtain ⟨_, hx⟩ := mkAxis_ok e5
  obtain ⟨_, hy⟩ := mkAxis_ok e6
  obtain ⟨_, htt⟩ := mkAxis_ok e7
  obtain ⟨g2, e, h2, h3, h4⟩ := Grid.Holds.setT hf f
  have hgeo2 : g2.geom = .xyt x y := by rw [h3, hgeo, e9]
  have ht2 : g2.t = t := by rw [h4, ht, e8]
  have d1 : x.dx = 1 := by rw [hx]; simp [linspace]; norm_num
  have d2 : y.dx = 1 := by rw [hy]; simp [linspace]; norm_num
  have d3 : t.dx = 1 := by rw [htt]; simp [linspace]; norm_num
  have hc := c_pos
  refine ⟨{ l with grid := g2 }, x, y, h2, .inl ⟨hp, rfl⟩, hgeo2, ?_, hp, ?_⟩
  · simp [ht2, d1, d2, d3]
  · intro j
    simp only [Grid.cellVolume, hgeo2, cellVolumeXYT, ht2, d1, d2, d3]
    positivity

/-- a heap with two lasers of the given fields -/
theorem exists_heap (f1 f2 : Field ⟨2, 2, 2⟩) : ∃ (h : LHeap ⟨2, 2, 2⟩) (x y : Axis 2), (h.obj 0).Has f1 ∧
    (h.obj 1).Has f2 ∧ (h.obj 0).Uses "NP" "NP" ∧ (h.obj 1).Uses "NP" "NP" ∧ (1 < h.next) ∧
    (h.obj 1).grid.geom = .xyt x y ∧ x.dx * y.dx * (h.obj 1).grid.t.dx ≠ 0 := by
  obtain ⟨l1, x1, y1, a1, a2, a3, a4, -⟩ := exists_laser_with f1
  obtain ⟨l2, x2, y2, b1, b2, b3, b4, -⟩ := exists_laser_with f2
  exact ⟨⟨fun r => if r = 0 then l1 else l2, 2⟩, x2, y2, by simpa using a1, by simpa using b1, by simpa using a2,
    by simpa using b2, by simp, by simpa using b3, by simpa using b4⟩

/-- a call that never returns: amplitudes 1 and 10, default `amplitude_error = 1`, any distance -/
example (dz : ℝ) : ∃ h : LHeap ⟨2, 2, 2⟩, ∀ fuel,
    (gerchbergSaxton .freeSpace 0 1 dz (some (.amplitudeError 1)) fuel h).1 = .ok none := by
  obtain ⟨h, x, y, h1, h2, h3, h4, h5, h6, h7⟩ := exists_heap (fun _ _ _ => 1) (fun _ _ _ => 10)
  refine ⟨h, C60_termination_refuted _ Axiprop.freeSpace_unitary 0 1 dz h _ _ "NP" "NP" h1 h2 h3 h4 h5 h6 h7 1 ?_ ?_ ?_⟩
  all_goals simp [total, amplitudes]; try norm_num

/-- a call that stops at once: amplitudes 1 and 0, `amplitude_error = 0` -/
example (dz : ℝ) : ∃ (h : LHeap ⟨2, 2, 2⟩) (o : GSOut ⟨2, 2, 2⟩),
    (gerchbergSaxton .freeSpace 0 1 dz (some (.amplitudeError 0)) 2 h).1 = .ok (some o) := by
  obtain ⟨h, x, y, h1, h2, h3, h4, h5, h6, h7⟩ := exists_heap (fun _ _ _ => 1) (fun _ _ _ => 0)
  refine ⟨h, _, C60_residual_refuted _ Axiprop.freeSpace_unitary 0 1 dz h _ _ "NP" "NP" h1 h2 h3 h4 h5 h6 h7 0 le_rfl
    ?_ ?_ ?_ 0⟩
  all_goals simp [total, amplitudes]

/-! ## C61 -/

theorem propagated_sub (ax : Axiprop) (hax : ax.Linear) (l : Laser s) (b : String) (d : ℝ) (f g : Field s) :
    l.propagated ax b d (fun i j k => f i j k - g i j k) =
      fun i j k => l.propagated ax b d f i j k - l.propagated ax b d g i j k := by
  have hd : ∀ F G : Field s, dft (fun i j k => F i j k - G i j k) = fun i j k => dft F i j k - dft G i j k := by
    intro F G
    funext i j k
    simp only [dft_eq, fft, sub_mul, Finset.sum_sub_distrib]
  have hi : ∀ F G : Field s, idft (fun i j k => F i j k - G i j k) = fun i j k => idft F i j k - idft G i j k := by
    intro F G
    funext i j k
    simp only [idft_eq, ifft, sub_mul, Finset.sum_sub_distrib, sub_div]
  have hs : ∀ F G : Field s, l.stepped ax b d (fun i j k => F i j k - G i j k) =
      fun i j k => l.stepped ax b d F i j k - l.stepped ax b d G i j k := by
    intro F G
    funext i j k
    simp only [Laser.stepped]
    rcases l.grid.geom with ⟨x, y⟩ | ⟨n, hn, r⟩ <;> simp only
    · rw [hax.xy _ _ _ _ _ (fun k i j => F i j k) (fun k i j => G i j k)]
    · rw [hax.rt _ _ _ _ _ (fun k j => F i j k) (fun k j => G i j k)]
  simp only [Laser.propagated, hi, hs, sub_mul, hd]

/-- the distance between two fields, cell by cell -/
noncomputable def cellDist (g : Grid s) (f f' : Field s) : ℝ :=
  ∑ i, ∑ j, ∑ k, g.cellVolume j * ‖f i j k - f' i j k‖ ^ 2

theorem cellDist_propagated (ax : Axiprop) (hu : ax.Unitary) (hl : ax.Linear) (l : Laser s) (b : String) (d : ℝ)
    (f g : Field s) : cellDist l.grid (l.propagated ax b d f) (l.propagated ax b d g) = cellDist l.grid f g := by
  have := cellNorm_propagated ax hu l b d (fun i j k => f i j k - g i j k)
  rw [propagated_sub ax hl] at this
  exact this

theorem cellDist_mono (g : Grid s) (hv : ∀ j, 0 ≤ g.cellVolume j) (f1 f2 f3 f4 : Field s)
    (h : ∀ i j k, ‖f1 i j k - f2 i j k‖ ≤ ‖f3 i j k - f4 i j k‖) : cellDist g f1 f2 ≤ cellDist g f3 f4 := by
  refine Finset.sum_le_sum fun i _ => Finset.sum_le_sum fun j _ => Finset.sum_le_sum fun k _ => ?_
  exact mul_le_mul_of_nonneg_left (pow_le_pow_left₀ (norm_nonneg _) (h i j k) 2) (hv j)

omit [Phys] in
/-- giving a field the prescribed amplitude and keeping its phase: the distance is the difference of the amplitudes -/
theorem dist_keepPhase (z : ℂ) (a : ℝ) : ‖z - (a : ℂ) * exp (I * arg z)‖ = |‖z‖ - a| := by
  have h1 : z - (a : ℂ) * exp (I * arg z) = ((‖z‖ - a : ℝ) : ℂ) * exp (arg z * I) := by
    have := Complex.norm_mul_exp_arg_mul_I z
    nth_rewrite 1 [← this]
    push_cast
    rw [mul_comm I]
    ring
  rw [h1, norm_mul, Complex.norm_exp_ofReal_mul_I, mul_one, Complex.norm_real, Real.norm_eq_abs]

omit [Phys] in
/-- ... and no other phase is nearer -/
theorem keepPhase_nearest (z : ℂ) {a : ℝ} (ha : 0 ≤ a) (θ : ℝ) :
    ‖z - (a : ℂ) * exp (I * arg z)‖ ≤ ‖z - (a : ℂ) * exp (I * θ)‖ := by
  rw [dist_keepPhase]
  have := abs_norm_sub_norm_le z ((a : ℂ) * exp (I * θ))
  rwa [norm_mul, mul_comm I, Complex.norm_exp_ofReal_mul_I, mul_one, Complex.norm_real, Real.norm_of_nonneg ha,
    mul_comm (θ : ℂ)] at this

/-- The squared amplitude error of a retrieved phase: give the second laser's amplitudes this phase in plane 2,
propagate back to plane 1, and compare the amplitudes with those of the first laser, cell by cell. -/
noncomputable def amplitudeError2 (g : Grid s) (V : Field s → Field s) (a1 a2 φ2 : RArr s) : ℝ :=
  ∑ i, ∑ j, ∑ k, g.cellVolume j * (amplitudes (V (withPhase a2 φ2)) i j k - a1 i j k) ^ 2

theorem error_reduction (ax : Axiprop) (hadd : ax.Additive) (hu : ax.Unitary) (hl : ax.Linear) (l : Laser s)
    (b : String) (dz : ℝ) (hv : ∀ j, 0 ≤ l.grid.cellVolume j) (a1 a2 : RArr s) (ha1 : ∀ i j k, 0 ≤ a1 i j k)
    (ha2 : ∀ i j k, 0 ≤ a2 i j k) (n : ℕ) :
    amplitudeError2 l.grid (l.propagated ax b (-dz)) a1 a2
        (gsResult (l.propagated ax b dz) (l.propagated ax b (-dz)) a1 a2 (n + 1)).phase2 ≤
    amplitudeError2 l.grid (l.propagated ax b (-dz)) a1 a2
        (gsResult (l.propagated ax b dz) (l.propagated ax b (-dz)) a1 a2 n).phase2 := by
  set U := l.propagated ax b dz
  set V := l.propagated ax b (-dz)
  have hUV : ∀ f, V (U f) = f := by
    intro f
    have h1 := (propagated_add ax hadd l b dz (-dz) f).1
    have h2 := (propagated_add ax hadd l b dz (-dz) f).2
    rw [add_neg_cancel, h2] at h1
    exact h1
  -- the error is a distance
  have herr : ∀ φ2 : RArr s, amplitudeError2 l.grid V a1 a2 φ2 =
      cellDist l.grid (V (withPhase a2 φ2)) (withPhase a1 (phases (V (withPhase a2 φ2)))) := by
    intro φ2
    unfold amplitudeError2 cellDist
    refine Finset.sum_congr rfl fun i _ => Finset.sum_congr rfl fun j _ => Finset.sum_congr rfl fun k _ => ?_
    simp only [withPhase, phases]
    rw [dist_keepPhase, sq_abs]
    rfl
  let φ : ℕ → RArr s := gsPhase U V a1 a2
  have hA : amplitudeError2 l.grid V a1 a2 (gsForth U a1 (φ n)) =
      cellDist l.grid (V (withPhase a2 (gsForth U a1 (φ n)))) (withPhase a1 (φ (n + 1))) := herr _
  have hB : cellDist l.grid (V (withPhase a2 (gsForth U a1 (φ n)))) (withPhase a1 (φ (n + 1))) =
      cellDist l.grid (withPhase a2 (gsForth U a1 (φ n))) (U (withPhase a1 (φ (n + 1)))) := by
    have := cellDist_propagated ax hu hl l b (-dz) (withPhase a2 (gsForth U a1 (φ n))) (U (withPhase a1 (φ (n + 1))))
    rw [← this]
    exact congrArg (cellDist l.grid (V (withPhase a2 (gsForth U a1 (φ n))))) (hUV _).symm
  have hC : cellDist l.grid (withPhase a2 (gsForth U a1 (φ (n + 1)))) (U (withPhase a1 (φ (n + 1)))) ≤
      cellDist l.grid (withPhase a2 (gsForth U a1 (φ n))) (U (withPhase a1 (φ (n + 1)))) := by
    refine cellDist_mono _ hv _ _ _ _ fun i j k => ?_
    rw [norm_sub_rev, norm_sub_rev (withPhase a2 _ i j k)]
    exact keepPhase_nearest _ (ha2 i j k) _
  have hD : cellDist l.grid (withPhase a2 (gsForth U a1 (φ (n + 1)))) (U (withPhase a1 (φ (n + 1)))) =
      cellDist l.grid (V (withPhase a2 (gsForth U a1 (φ (n + 1))))) (withPhase a1 (φ (n + 1))) := by
    have := cellDist_propagated ax hu hl l b (-dz) (withPhase a2 (gsForth U a1 (φ (n + 1)))) (U (withPhase a1 (φ (n + 1))))
    rw [← this]
    exact congrArg (cellDist l.grid (V (withPhase a2 (gsForth U a1 (φ (n + 1)))))) (hUV _)
  have hE : cellDist l.grid (V (withPhase a2 (gsForth U a1 (φ (n + 1))))) (withPhase a1 (φ (n + 2))) ≤
      cellDist l.grid (V (withPhase a2 (gsForth U a1 (φ (n + 1))))) (withPhase a1 (φ (n + 1))) :=
    cellDist_mono _ hv _ _ _ _ fun i j k => keepPhase_nearest _ (ha1 i j k) _
  have hF : amplitudeError2 l.grid V a1 a2 (gsForth U a1 (φ (n + 1))) =
      cellDist l.grid (V (withPhase a2 (gsForth U a1 (φ (n + 1))))) (withPhase a1 (φ (n + 2))) := herr _
  show amplitudeError2 l.grid V a1 a2 (gsForth U a1 (φ (n + 1))) ≤ amplitudeError2 l.grid V a1 a2 (gsForth U a1 (φ n))
  rw [hA, hB, hF]
  exact hE.trans (hD ▸ hC)

/-- **C61.** For a linear, norm-preserving propagator whose steps compose, and two lasers of the same frequencies on the
same transverse grid: the phases returned for `max_iterations = n + 2` have a squared amplitude error (in the plane of the
first laser, cell by cell) not larger than those returned for `max_iterations = n + 1`. -/
theorem C61_error_reduction (ax : Axiprop) (hadd : ax.Additive) (hu : ax.Unitary) (hl : ax.Linear) (r1 r2 : ℕ) (dz : ℝ)
    (h : LHeap s) (f1 f2 : Field s) (h1 : (h.obj r1).Has f1) (h2 : (h.obj r2).Has f2)
    (p1 : (h.obj r1).prop = .absent) (p2 : (h.obj r2).prop = .absent) (hr2 : r2 < h.next)
    (hg : (h.obj r1).grid.geom = (h.obj r2).grid.geom) (ho : (h.obj r1).omega1d = (h.obj r2).omega1d)
    (hp : (h.obj r1).profile.omega0 = (h.obj r2).profile.omega0) (hv : ∀ j, 0 ≤ (h.obj r2).grid.cellVolume j) (n : ℕ) :
    ∃ o o' : GSOut s,
      (gerchbergSaxton ax r1 r2 dz (some (.maxIterations (n + 1))) (n + 2) h).1 = .ok (some o) ∧
      (gerchbergSaxton ax r1 r2 dz (some (.maxIterations (n + 2))) (n + 3) h).1 = .ok (some o') ∧
      amplitudeError2 (h.obj r2).grid ((h.obj r2).propagated ax "NP" (-dz)) (amplitudes f1) (amplitudes f2) o'.phase2 ≤
      amplitudeError2 (h.obj r2).grid ((h.obj r2).propagated ax "NP" (-dz)) (amplitudes f1) (amplitudes f2) o.phase2 := by
  have hU : (h.obj r1).propagated ax "NP" dz = (h.obj r2).propagated ax "NP" dz := by
    funext f
    simp only [Laser.propagated, stepped_congr hg ho, ho, hp]
  have e1 := (C60_iterations ax r1 r2 dz h f1 f2 "NP" "NP" h1 h2 (.inl ⟨p1, rfl⟩) (.inl ⟨p2, rfl⟩) hr2 n).2 (n + 2)
    (by omega)
  have e2 := (C60_iterations ax r1 r2 dz h f1 f2 "NP" "NP" h1 h2 (.inl ⟨p1, rfl⟩) (.inl ⟨p2, rfl⟩) hr2 (n + 1)).2 (n + 3)
    (by omega)
  rw [show ((n : ℤ) + 2) = ((n + 1 : ℕ) : ℤ) + 1 by push_cast; ring]
  refine ⟨_, _, e1, e2, ?_⟩
  rw [hU]
  exact error_reduction ax hadd hu hl (h.obj r2) "NP" dz hv _ _ (fun _ _ _ => norm_nonneg _) (fun _ _ _ => norm_nonneg _) n

omit [Phys] in
theorem fft2_sub {nx ny : ℕ} (u v : Fin nx → Fin ny → ℂ) :
    fft2 (fun i j => u i j - v i j) = fun i j => fft2 u i j - fft2 v i j := by
  funext i j
  simp only [fft2, fft, sub_mul, Finset.sum_sub_distrib]

omit [Phys] in
theorem ifft2_sub {nx ny : ℕ} (u v : Fin nx → Fin ny → ℂ) :
    ifft2 (fun i j => u i j - v i j) = fun i j => ifft2 u i j - ifft2 v i j := by
  funext i j
  simp only [ifft2, ifft, sub_mul, Finset.sum_sub_distrib, sub_div]

omit [Phys] in
theorem Axiprop.freeSpace_linear : Axiprop.freeSpace.Linear where
  rt := by
    intro nr nt r kz m b d u v
    funext k j
    simp only [freeSpace]
    ring
  xy := by
    intro nx ny nt Lx Ly kz b d u v
    funext k
    simp only [freeSpace, fft2_sub, sub_mul, ifft2_sub]

/-- C60 and C61 apply to two copies of a laser with different fields -/
example (dz : ℝ) (f1 f2 : Field ⟨2, 2, 2⟩) : ∃ h : LHeap ⟨2, 2, 2⟩, (h.obj 0).Has f1 ∧ (h.obj 1).Has f2 ∧ ∀ n : ℕ,
    ∃ o o' : GSOut ⟨2, 2, 2⟩,
      (gerchbergSaxton .freeSpace 0 1 dz (some (.maxIterations (n + 1))) (n + 2) h).1 = .ok (some o) ∧
      (gerchbergSaxton .freeSpace 0 1 dz (some (.maxIterations (n + 2))) (n + 3) h).1 = .ok (some o') ∧
      amplitudeError2 (h.obj 1).grid ((h.obj 1).propagated .freeSpace "NP" (-dz)) (amplitudes f1) (amplitudes f2)
        o'.phase2 ≤
      amplitudeError2 (h.obj 1).grid ((h.obj 1).propagated .freeSpace "NP" (-dz)) (amplitudes f1) (amplitudes f2)
        o.phase2 := by
  obtain ⟨l, x, y, a1, a2, a3, a4, a5, a6⟩ := exists_laser_with f2
  obtain ⟨g, e, hg, k1, k2⟩ := Grid.Holds.setT a1 f1
  let h : LHeap ⟨2, 2, 2⟩ := ⟨fun r => if r = 0 then { l with grid := g } else l, 2⟩
  refine ⟨h, hg, a1, fun n => ?_⟩
  exact C61_error_reduction _ Axiprop.freeSpace_additive Axiprop.freeSpace_unitary Axiprop.freeSpace_linear 0 1 dz h f1 f2
    hg a1 a5 a5 (by simp [h]) k1 rfl rfl a6 n

end Lasy
