import Verif.Props.PhaseRetrieval

/-!
# Property C137: Gerchberg–Saxton keeps exact solutions
-/

namespace Lasy
open Spec Phys Complex

variable {s : Shape}

/-- a field is given by its amplitudes and phases -/
theorem withPhase_phases (f : Field s) : withPhase (amplitudes f) (phases f) = f := by
  funext i j k
  simp only [withPhase, amplitudes, phases]
  rw [mul_comm I]
  exact Complex.norm_mul_exp_arg_mul_I _

/-- the phase of a positive amplitude times a phase factor, if that phase is one NumPy returns -/
theorem arg_withPhase {a : ℝ} (ha : 0 < a) (z : ℂ) : arg ((a : ℂ) * exp (I * (arg z : ℝ))) = arg z := by
  rw [Complex.arg_real_mul _ ha, mul_comm I, Complex.arg_exp_mul_I]
  exact toIocMod_eq_self _ |>.2 ⟨Complex.neg_pi_lt_arg z, by linarith [Complex.arg_le_pi z]⟩

/-- if an iteration has reproduced the amplitudes in the first plane, nothing changes any more -/
theorem gs_fixed {U V : Field s → Field s} (hUV : ∀ f, U (V f) = f) (a1 a2 : Fin s.n0 → Fin s.n1 → Fin s.nt → ℝ)
    (ha2 : ∀ i j k, 0 ≤ a2 i j k) (n : ℕ)
    (hex : amplitudes (V (withPhase a2 (gsForth U a1 (gsPhase U V a1 a2 n)))) = a1) :
    gsPhase U V a1 a2 (n + 2) = gsPhase U V a1 a2 (n + 1) ∧
    withPhase a2 (gsForth U a1 (gsPhase U V a1 a2 (n + 1))) = withPhase a2 (gsForth U a1 (gsPhase U V a1 a2 n)) ∧
    (∀ i j k, 0 < a2 i j k → gsForth U a1 (gsPhase U V a1 a2 (n + 1)) i j k = gsForth U a1 (gsPhase U V a1 a2 n) i j k) ∧
    U (withPhase a1 (gsPhase U V a1 a2 (n + 1))) = withPhase a2 (gsForth U a1 (gsPhase U V a1 a2 n)) := by
  set φ2 := gsForth U a1 (gsPhase U V a1 a2 n) with hφ2
  have h1 : withPhase a1 (gsPhase U V a1 a2 (n + 1)) = V (withPhase a2 φ2) := by
    have h := withPhase_phases (V (withPhase a2 φ2))
    rw [hex] at h
    exact h
  have h2 : U (withPhase a1 (gsPhase U V a1 a2 (n + 1))) = withPhase a2 φ2 := by rw [h1, hUV]
  have h3 : ∀ i j k, 0 < a2 i j k → gsForth U a1 (gsPhase U V a1 a2 (n + 1)) i j k = φ2 i j k := by
    intro i j k hpos
    have hφ : φ2 i j k = arg (U (withPhase a1 (gsPhase U V a1 a2 n)) i j k) := rfl
    show arg (U (withPhase a1 (gsPhase U V a1 a2 (n + 1))) i j k) = _
    rw [h2]
    simp only [withPhase]
    rw [hφ]
    exact arg_withPhase hpos _
  have h4 : withPhase a2 (gsForth U a1 (gsPhase U V a1 a2 (n + 1))) = withPhase a2 φ2 := by
    funext i j k
    rcases (ha2 i j k).eq_or_lt with h0 | h0
    · simp only [withPhase, ← h0, Complex.ofReal_zero, zero_mul]
    · simp only [withPhase, h3 i j k h0]
  refine ⟨?_, h4, h3, h2⟩
  show phases (V (withPhase a2 (gsForth U a1 (gsPhase U V a1 a2 (n + 1))))) = phases (V (withPhase a2 φ2))
  rw [h4]

/-- ... for all later iterations -/
theorem gs_fixed_all {U V : Field s → Field s} (hUV : ∀ f, U (V f) = f) (a1 a2 : Fin s.n0 → Fin s.n1 → Fin s.nt → ℝ)
    (ha2 : ∀ i j k, 0 ≤ a2 i j k) (n : ℕ)
    (hex : amplitudes (V (withPhase a2 (gsForth U a1 (gsPhase U V a1 a2 n)))) = a1) (q : ℕ) :
    amplitudes (V (withPhase a2 (gsForth U a1 (gsPhase U V a1 a2 (n + q))))) = a1 ∧
    gsPhase U V a1 a2 (n + q + 1) = gsPhase U V a1 a2 (n + 1) ∧
    (∀ i j k, 0 < a2 i j k → gsForth U a1 (gsPhase U V a1 a2 (n + q)) i j k = gsForth U a1 (gsPhase U V a1 a2 n) i j k) ∧
    U (withPhase a1 (gsPhase U V a1 a2 (n + q + 1))) = withPhase a2 (gsForth U a1 (gsPhase U V a1 a2 (n + q))) := by
  induction q with
  | zero => exact ⟨hex, rfl, fun _ _ _ _ => rfl, (gs_fixed hUV a1 a2 ha2 n hex).2.2.2⟩
  | succ q ih =>
    obtain ⟨i1, i2, i3, i4⟩ := ih
    obtain ⟨k1, k2, k3, k4⟩ := gs_fixed hUV a1 a2 ha2 (n + q) i1
    have hex' : amplitudes (V (withPhase a2 (gsForth U a1 (gsPhase U V a1 a2 (n + q + 1))))) = a1 := by rw [k2]; exact i1
    exact ⟨hex', k1.trans i2, fun i j k h => (k3 i j k h).trans (i3 i j k h),
      (gs_fixed hUV a1 a2 ha2 (n + q + 1) hex').2.2.2⟩

variable [Phys]

/-- the two propagations of the algorithm undo each other -/
theorem propagated_inverse (ax : Axiprop) (hadd : ax.Additive) (l : Laser s) (b : String) (dz : ℝ) (f : Field s) :
    l.propagated ax b dz (l.propagated ax b (-dz) f) = f ∧ l.propagated ax b (-dz) (l.propagated ax b dz f) = f := by
  have h1 := propagated_add ax hadd l b (-dz) dz f
  have h2 := propagated_add ax hadd l b dz (-dz) f
  rw [neg_add_cancel] at h1
  rw [add_neg_cancel] at h2
  exact ⟨h1.1.trans h1.2, h2.1.trans h2.2⟩

/-- **C137 (exact solutions stay).** Two lasers of the same frequencies on the same transverse grid, a propagator whose
steps compose. If the phase returned for the second plane with `max_iterations = n + 1` is exact (propagated back, the
field with the second laser's amplitudes and that phase has the first laser's amplitudes), then with any larger
`max_iterations` the same phases are returned (that of the second plane wherever its amplitude is not zero), the error is
zero, and the fields with the given amplitudes and the returned phases are one beam: the first propagates into the
second. -/
theorem C137_exact_stays (ax : Axiprop) (hadd : ax.Additive) (r1 r2 : ℕ) (dz : ℝ)
    (h : LHeap s) (f1 f2 : Field s) (h1 : (h.obj r1).Has f1) (h2 : (h.obj r2).Has f2)
    (p1 : (h.obj r1).prop = .absent) (p2 : (h.obj r2).prop = .absent) (hr2 : r2 < h.next)
    (hg : (h.obj r1).grid.geom = (h.obj r2).grid.geom) (ho : (h.obj r1).omega1d = (h.obj r2).omega1d)
    (hp : (h.obj r1).profile.omega0 = (h.obj r2).profile.omega0) (n : ℕ) (o : GSOut s)
    (hrun : (gerchbergSaxton ax r1 r2 dz (some (.maxIterations (n + 1))) (n + 2) h).1 = .ok (some o))
    (hex : ∀ i j k, ‖(h.obj r2).propagated ax "NP" (-dz) (withPhase (amplitudes f2) o.phase2) i j k‖ = ‖f1 i j k‖) (q : ℕ) :
    ∃ o' : GSOut s,
      (gerchbergSaxton ax r1 r2 dz (some (.maxIterations ((n + q : ℕ) + 1))) (n + q + 2) h).1 = .ok (some o') ∧
      o'.phase1 = o.phase1 ∧ (∀ i j k, f2 i j k ≠ 0 → o'.phase2 i j k = o.phase2 i j k) ∧ o'.err = 0 ∧
      (h.obj r1).propagated ax "NP" dz (withPhase (amplitudes f1) o'.phase1) = withPhase (amplitudes f2) o'.phase2 := by
  have hU : (h.obj r1).propagated ax "NP" dz = (h.obj r2).propagated ax "NP" dz := by
    funext f
    simp only [Laser.propagated, stepped_congr hg ho, ho, hp]
  have e := fun n => (C60_iterations ax r1 r2 dz h f1 f2 "NP" "NP" h1 h2 (.inl ⟨p1, rfl⟩) (.inl ⟨p2, rfl⟩) hr2 n).2 (n + 2)
    (by omega)
  obtain rfl : gsResult _ _ _ _ n = o := Option.some.inj (Except.ok.inj ((e n).symm.trans hrun))
  have hUV : ∀ f, (h.obj r1).propagated ax "NP" dz ((h.obj r2).propagated ax "NP" (-dz) f) = f := by
    intro f
    rw [hU]
    exact (propagated_inverse ax hadd (h.obj r2) "NP" dz f).1
  obtain ⟨k1, k2, k3, k4⟩ := gs_fixed_all hUV (amplitudes f1) (amplitudes f2) (fun _ _ _ => norm_nonneg _) n
    (funext fun i => funext fun j => funext fun k => hex i j k) q
  refine ⟨_, e (n + q), k2, fun i j k hne => k3 i j k (norm_pos_iff.2 hne), ?_, k4⟩
  show ∑ i, ∑ j, ∑ k, (amplitudes _ i j k - amplitudes f1 i j k) = 0
  rw [k1]
  simp

/-- **C137 (flat phase).** If the amplitudes are those of a beam whose phase is flat in the first plane (the second
laser's amplitudes are those the first laser's amplitudes, as a field of phase zero, propagate into), then the algorithm
finds it in one iteration and stays there: with any `max_iterations = n + 1` it returns the phase zero in the first plane,
the phase of the propagated beam in the second plane, and the error zero. With `condition='amplitude_error'` and a
non-negative tolerance it stops after the first iteration, with the same result. -/
theorem C137_flat (ax : Axiprop) (hadd : ax.Additive) (r1 r2 : ℕ) (dz : ℝ)
    (h : LHeap s) (f1 f2 : Field s) (h1 : (h.obj r1).Has f1) (h2 : (h.obj r2).Has f2)
    (p1 : (h.obj r1).prop = .absent) (p2 : (h.obj r2).prop = .absent) (hr2 : r2 < h.next)
    (hg : (h.obj r1).grid.geom = (h.obj r2).grid.geom) (ho : (h.obj r1).omega1d = (h.obj r2).omega1d)
    (hp : (h.obj r1).profile.omega0 = (h.obj r2).profile.omega0)
    (hflat : ∀ i j k, ‖f2 i j k‖ = ‖(h.obj r1).propagated ax "NP" dz (fun i j k => (‖f1 i j k‖ : ℂ)) i j k‖) :
    (∀ n : ℕ, ∃ o : GSOut s,
      (gerchbergSaxton ax r1 r2 dz (some (.maxIterations (n + 1))) (n + 2) h).1 = .ok (some o) ∧
      (∀ i j k, o.phase1 i j k = 0) ∧ o.err = 0 ∧
      ∀ i j k, o.phase2 i j k = arg ((h.obj r1).propagated ax "NP" dz (fun i j k => (‖f1 i j k‖ : ℂ)) i j k)) ∧
    ∀ (a : ℝ) (fuel : ℕ), 0 ≤ a → a < 9 * 10 ^ 30 / total (fun i j k => ‖f1 i j k‖) → ∃ o : GSOut s,
      (gerchbergSaxton ax r1 r2 dz (some (.amplitudeError a)) (fuel + 2) h).1 = .ok (some o) ∧
      (∀ i j k, o.phase1 i j k = 0) ∧ o.err = 0 ∧
      ∀ i j k, o.phase2 i j k = arg ((h.obj r1).propagated ax "NP" dz (fun i j k => (‖f1 i j k‖ : ℂ)) i j k) := by
  have hU : (h.obj r1).propagated ax "NP" dz = (h.obj r2).propagated ax "NP" dz := by
    funext f
    simp only [Laser.propagated, stepped_congr hg ho, ho, hp]
  set U := (h.obj r1).propagated ax "NP" dz with hUdef
  set V := (h.obj r2).propagated ax "NP" (-dz) with hVdef
  have hVU : ∀ f, V (U f) = f := by
    intro f
    rw [hU]
    exact (propagated_inverse ax hadd (h.obj r2) "NP" dz f).2
  have hzero : withPhase (amplitudes f1) (fun _ _ _ => 0) = fun i j k => (‖f1 i j k‖ : ℂ) := by
    funext i j k
    simp [withPhase, amplitudes]
  have hamp : amplitudes f2 = amplitudes (U fun i j k => (‖f1 i j k‖ : ℂ)) :=
    funext fun i => funext fun j => funext fun k => hflat i j k
  have hforth : gsForth U (amplitudes f1) (fun _ _ _ => 0) = phases (U fun i j k => (‖f1 i j k‖ : ℂ)) := by
    show phases (U (withPhase (amplitudes f1) _)) = _
    rw [hzero]
  have hback : V (withPhase (amplitudes f2) (gsForth U (amplitudes f1) (fun _ _ _ => 0))) = fun i j k => (‖f1 i j k‖ : ℂ) := by
    rw [hforth, hamp, withPhase_phases, hVU]
  have hphase : ∀ n, gsPhase U V (amplitudes f1) (amplitudes f2) n = fun _ _ _ => 0 := by
    intro n
    induction n with
    | zero => rfl
    | succ n ih =>
      show phases (V (withPhase (amplitudes f2) (gsForth U (amplitudes f1) (gsPhase U V (amplitudes f1) (amplitudes f2) n)))) = _
      rw [ih, hback]
      funext i j k
      exact Complex.arg_ofReal_of_nonneg (norm_nonneg _)
  have hres : ∀ n, (∀ i j k, (gsResult U V (amplitudes f1) (amplitudes f2) n).phase1 i j k = 0) ∧
      (gsResult U V (amplitudes f1) (amplitudes f2) n).err = 0 ∧
      ∀ i j k, (gsResult U V (amplitudes f1) (amplitudes f2) n).phase2 i j k =
        arg (U (fun i j k => (‖f1 i j k‖ : ℂ)) i j k) := by
    intro n
    refine ⟨fun i j k => congrFun (congrFun (congrFun (hphase (n + 1)) i) j) k, ?_, fun i j k => ?_⟩
    · show ∑ i, ∑ j, ∑ k, (amplitudes (V (withPhase (amplitudes f2) (gsForth U (amplitudes f1)
        (gsPhase U V (amplitudes f1) (amplitudes f2) n)))) i j k - amplitudes f1 i j k) = 0
      rw [hphase, hback]
      simp [amplitudes]
    · show gsForth U (amplitudes f1) (gsPhase U V (amplitudes f1) (amplitudes f2) n) i j k = _
      rw [hphase, hforth]
      rfl
  refine ⟨fun n => ?_, fun a fuel ha hbig => ?_⟩
  · exact ⟨_, (C60_iterations ax r1 r2 dz h f1 f2 "NP" "NP" h1 h2 (.inl ⟨p1, rfl⟩) (.inl ⟨p2, rfl⟩) hr2 n).2 (n + 2)
      (by omega), hres n⟩
  · have hne : h.next ≠ h.next + 1 := by omega
    obtain ⟨h', e, w1, w2⟩ := gs_start ax r1 r2 dz (.amplitudeError a) (fuel + 2) h f1 f2 "NP" "NP" h1 h2 (.inl ⟨p1, rfl⟩)
      (.inl ⟨p2, rfl⟩) hr2
    obtain ⟨h'', e2, -⟩ := gsLoop_ok ax _ _ "NP" "NP" hne dz (amplitudes f1) (amplitudes f2) (.amplitudeError a) U V
      rfl rfl 1 0 h' w1 w2 (fun i hi hi' => by
        obtain rfl : i = 0 := by omega
        exact hbig) (fuel + 1)
    refine ⟨_, ?_, hres 0⟩
    have hstop : ¬ (GSCond.amplitudeError a).goesOn (total (amplitudes f1)) (0 + 1)
        ((gsState U V (amplitudes f1) (amplitudes f2) (0 + 1)).map GSOut.err) := by
      simp only [GSCond.goesOn, gsState, Option.map_some, Option.getD_some, (hres 0).2.1, zero_div, not_lt]
      exact ha
    rw [e, show fuel + 2 = 1 + (fuel + 1) by ring]
    have e2' : gsLoop ax h.next (h.next + 1) dz (amplitudes f1) (amplitudes f2) (.amplitudeError a) (1 + (fuel + 1)) 0 none h' = _ := e2
    rw [e2', gsLoop_succ, if_neg hstop]
    rfl

/-! ## Cases which meet the hypotheses -/

/-- C137 applies: any amplitudes in the first plane, a flat phase, and the image of that beam in the second plane -/
example (dz : ℝ) (f1 : Field ⟨2, 2, 2⟩) : ∃ (h : LHeap ⟨2, 2, 2⟩) (f2 : Field ⟨2, 2, 2⟩) (o : GSOut ⟨2, 2, 2⟩),
    (h.obj 0).Has f1 ∧ (h.obj 1).Has f2 ∧
    (gerchbergSaxton .freeSpace 0 1 dz (some (.maxIterations 10)) 11 h).1 = .ok (some o) ∧ o.err = 0 := by
  obtain ⟨l, x, y, a1, a2, a3, a4, a5, a6⟩ := exists_laser_with f1
  obtain ⟨g, e, hg, k1, k2⟩ := Grid.Holds.setT a1 (l.propagated .freeSpace "NP" dz (fun i j k => (‖f1 i j k‖ : ℂ)))
  let h : LHeap ⟨2, 2, 2⟩ := ⟨fun r => if r = 0 then l else { l with grid := g }, 2⟩
  obtain ⟨o, h1, -, h3, -⟩ := (C137_flat _ Axiprop.freeSpace_additive 0 1 dz h f1 _ a1 hg a5 a5 (by simp [h]) k1.symm rfl rfl
    (fun _ _ _ => rfl)).1 9
  exact ⟨h, _, o, a1, hg, h1, h3⟩

end Lasy
