import Verif.Props.OpenPMD
import Mathlib.Data.Nat.Digits.Lemmas

/-!
# Property C35: file names of successive writes
-/

namespace Lasy
open Spec Phys Complex

variable [Phys]

/-! ## What a user can do between writes -/

/-- a call on the laser -/
inductive Step
  | write (a : WriteArgs)
  | propagate (a : PropCall)
  | optics (el : OpticalElement)
  | normalize (value : Option ℝ) (kind : String)

/-- a laser and the disk -/
abbrev FileWorld := (Σ s, Laser s) × Disk

/-- one successful write: its arguments, the disk before and the disk after it -/
structure Written where
  args : WriteArgs
  before : Disk
  after : Disk

/-- one call of `write_to_file` -/
noncomputable def runWrite {s : Shape} (a : WriteArgs) (l : Laser s) (d : Disk) : Option Written × FileWorld :=
  match writeToFile a (l, d) with
  | (.ok _, (l', d')) => (some ⟨a, d, d'⟩, (⟨s, l'⟩, d'))
  | (.error _, (l', d')) => (none, (⟨s, l'⟩, d'))

/-- One call; exceptions are caught by the caller, the laser is used as the call left it. The first component
records the call if it was a successful write. -/
noncomputable def Step.run (ax : Axiprop) : Step → FileWorld → Option Written × FileWorld
  | .write a, (⟨_, l⟩, d) => runWrite a l d
  | .propagate a, (L, d) => (none, ((Laser.propagate ax a.distance a.nrBoundary a.grid a.backend L).2, d))
  | .optics el, (⟨s, l⟩, d) => (none, (⟨s, (Laser.applyOptics el l).2⟩, d))
  | .normalize v k, (⟨s, l⟩, d) => (none, (⟨s, (Laser.normalize v k l).2⟩, d))

/-- the successful writes of a history, in order, and the final world -/
noncomputable def runAll (ax : Axiprop) : List Step → FileWorld → List Written × FileWorld
  | [], w => ([], w)
  | st :: sts, w =>
    let r := st.run ax w
    let rest := runAll ax sts r.2
    (r.1.toList ++ rest.1, rest.2)

/-! ## The counter -/

variable {s s' : Shape} {α β : Type}

/-- the method does not touch the counter, whether it raises or not -/
def Keeps (m : Py (Laser s) α) : Prop := ∀ l, (m l).2.outputIteration = l.outputIteration

omit [Phys] in
theorem Keeps.bind {m : Py (Laser s) α} {f : α → Py (Laser s) β} (hm : Keeps m) (hf : ∀ a, Keeps (f a)) :
    Keeps (m >>= f) := by
  intro l
  rw [Py.bind_apply]
  have h1 := hm l
  rcases hl : m l with ⟨e | a, l1⟩
  · rw [hl] at h1; exact h1
  · rw [hl] at h1; exact (hf a l1).trans h1

omit [Phys] in
theorem Keeps.onGrid (m : Py (Grid s) α) : Keeps (Laser.onGrid m) := by
  intro l
  rfl

omit [Phys] in
theorem Keeps.get : Keeps (Py.get : Py (Laser s) (Laser s)) := fun _ => rfl
omit [Phys] in
theorem Keeps.require (b : Prop) [Decidable b] : Keeps (Py.require b : Py (Laser s) Unit) := by
  intro l
  rw [Py.require_apply]
  split <;> rfl
omit [Phys] in
theorem Keeps.raise (e : PyErr) : Keeps (Py.raise e : Py (Laser s) α) := fun _ => rfl
omit [Phys] in
theorem Keeps.ret (a : α) : Keeps (Pure.pure a : Py (Laser s) α) := fun _ => rfl

omit [Phys] in
theorem keeps_applyOptics (el : OpticalElement) : Keeps (Laser.applyOptics el : Py (Laser s) Unit) :=
  (Keeps.onGrid _).bind fun _ => Keeps.get.bind fun _ => Keeps.onGrid _

theorem keeps_normalize (v : Option ℝ) (k : String) : Keeps (Laser.normalize v k : Py (Laser s) Unit) := by
  unfold Laser.normalize
  split_ifs
  · exact Keeps.onGrid _
  · exact Keeps.onGrid _
  · exact Keeps.onGrid _
  · exact Keeps.raise _

omit [Phys] in
theorem keeps_absorb (n : Option ℤ) : Keeps (Laser.absorb n : Py (Laser s) Unit) := by
  unfold Laser.absorb
  cases n with
  | none => exact Keeps.ret _
  | some k =>
    refine (Keeps.require _).bind fun _ => (Keeps.onGrid _).bind fun _ => Keeps.get.bind fun l => ?_
    cases l.layer k.toNat with
    | error e => exact Keeps.raise e
    | ok w => exact Keeps.onGrid _

theorem keeps_finish (d : ℝ) (F : Field s) : Keeps (Laser.finish d F) :=
  Keeps.get.bind fun _ => (Keeps.onGrid _).bind fun _ => fun _ => rfl

theorem keeps_propagateHere (ax : Axiprop) (d : ℝ) (n : Option ℤ) (b : String) :
    Keeps (Laser.propagateHere ax d n b : Py (Laser s) Unit) := by
  refine Keeps.get.bind fun _ => (Keeps.require _).bind fun _ => (keeps_absorb n).bind fun _ =>
    (Keeps.onGrid _).bind fun _ => Keeps.bind ?_ fun _ => Keeps.bind ?_ fun _ => keeps_finish d _
  · intro l
    simp only [Laser.ensureProp, Py.modify_apply]
    split <;> rfl
  · intro l
    unfold Laser.stepHere
    split
    · rfl
    · split <;> rfl
    · rfl

theorem keeps_propagateOnto (ax : Axiprop) (d : ℝ) (n : Option ℤ) (g' : Grid s') (b : String) (l : Laser s) :
    (Laser.propagateOnto ax d n g' b l).2.2.outputIteration = l.outputIteration := by
  unfold Laser.propagateOnto
  have h1 : Keeps (do Py.require ((← Py.get).grid.isEnvelope = true)
                      Laser.absorb n
                      Laser.onGrid Grid.getSpectralField : Py (Laser s) (Arr s)) :=
    Keeps.get.bind fun _ => (Keeps.require _).bind fun _ => (keeps_absorb n).bind fun _ => Keeps.onGrid _
  have h2 := h1 l
  split
  · rename_i e l1 heq; rw [heq] at h2; exact h2
  · rename_i sp l1 heq
    rw [heq] at h2
    have hg : (Laser.adoptTime (s := s) g' l1.grid.t).geom = g'.geom := rfl
    dsimp only
    rw [hg]
    rcases l1.grid.geom with ⟨x, y⟩ | ⟨m, hm, r⟩ <;> rcases g'.geom with ⟨x', y'⟩ | ⟨m', hm', r'⟩
    · exact h2
    · exact h2
    · exact h2
    · dsimp only
      generalize stepModes ax _ d sp.val (fun _ _ _ => 0 : Field s') = R
      cases R with
      | error e => exact h2
      | ok F => exact (keeps_finish d F _).trans h2

/-- `propagate`, `apply_optics` and `normalize` leave the iteration number alone -/
theorem keeps_propagate (ax : Axiprop) (a : PropCall) (L : Σ s, Laser s) :
    (Laser.propagate ax a.distance a.nrBoundary a.grid a.backend L).2.2.outputIteration =
      L.2.outputIteration := by
  unfold Laser.propagate
  have here := keeps_propagateHere ax a.distance a.nrBoundary a.backend L.2
  rcases a.grid with _ | g'
  · exact here
  · rcases L.2.grid.geom with ⟨x, y⟩ | ⟨m, hm, r⟩
    · exact here
    · exact keeps_propagateOnto ..

/-- one write: the counter advances exactly on success; only the file of the present number is touched -/
theorem writeToFile_effect (a : WriteArgs) (l : Laser s) (d : Disk) :
    (∀ p, p ≠ filePath a.dir a.pre a.fmt l.outputIteration → (writeToFile a (l, d)).2.2 p = d p) ∧
    (∀ e, (writeToFile a (l, d)).1 = .error e →
      (writeToFile a (l, d)).2.1.outputIteration = l.outputIteration) ∧
    (∀ u, (writeToFile a (l, d)).1 = .ok u →
      (writeToFile a (l, d)).2.1.outputIteration = l.outputIteration + 1 ∧
      ∃ m, (writeToFile a (l, d)).2.2 (filePath a.dir a.pre a.fmt l.outputIteration) = some m) := by
  unfold writeToFile writeMesh
  have hup : ∀ (p : Path) (v : Option Mesh), p ≠ filePath a.dir a.pre a.fmt l.outputIteration →
      Function.update d (filePath a.dir a.pre a.fmt l.outputIteration) v p = d p :=
    fun p v hp => Function.update_of_ne hp _ _
  have h1 := Keeps.onGrid (s := s) Grid.getTemporalField l
  rcases e1 : Laser.onGrid Grid.getTemporalField l with ⟨e | arr, l1⟩
  · rw [e1] at h1
    simp only at h1 ⊢
    exact ⟨fun _ _ => trivial, fun _ _ => h1, fun _ h => by cases h⟩
  · rw [e1] at h1
    simp only at h1 ⊢
    have h2 := Keeps.onGrid (s := s) (fieldToVectorPotential (2 * Real.pi * c / l1.profile.lambda0)) l1
    rcases e2 : Laser.onGrid (fieldToVectorPotential (2 * Real.pi * c / l1.profile.lambda0)) l1 with ⟨e | v, l2⟩ <;>
    rw [e2] at h2 <;> simp only at h2 <;> cases a.fault <;> cases a.asVectorPotential <;>
    simp [h1, h2] <;> exact fun p hp => hup p _ hp

/-! ## The names -/

omit [Phys] in
/-- what follows the last underscore -/
theorem lastPart (a b c d : List Char) (hb : '_' ∉ b) (hd : '_' ∉ d) (h : a ++ '_' :: b = c ++ '_' :: d) :
    b = d := by
  have key : ∀ (a c : List Char), a ++ '_' :: b = c ++ '_' :: d → a.length ≤ c.length → b = d := by
    intro a
    induction a with
    | nil =>
      intro c h _
      cases c with
      | nil => simpa using h
      | cons x c =>
        simp only [List.nil_append, List.cons_append, List.cons.injEq] at h
        exact absurd (by rw [h.2]; simp) hb
    | cons y a ih =>
      intro c h hl
      cases c with
      | nil => simp at hl
      | cons x c =>
        simp only [List.cons_append, List.cons.injEq] at h
        exact ih c h.2 (by simpa using hl)
  have key' : ∀ (a c : List Char), a ++ '_' :: b = c ++ '_' :: d → c.length ≤ a.length → b = d := by
    intro a
    induction a with
    | nil =>
      intro c h hl
      have : c = [] := by simpa using hl
      subst this
      simpa using h
    | cons y a ih =>
      intro c h hl
      cases c with
      | nil =>
        simp only [List.nil_append, List.cons_append, List.cons.injEq] at h
        exact absurd (by rw [← h.2]; simp) hd
      | cons x c =>
        simp only [List.cons_append, List.cons.injEq] at h
        exact ih c h.2 (by simpa using hl)
  rcases le_total a.length c.length with hl | hl
  · exact key a c h hl
  · exact key' a c h hl

omit [Phys] in
theorem firstPart (b b' f f' : List Char) (hb : '.' ∉ b) (hb' : '.' ∉ b')
    (h : b ++ '.' :: f = b' ++ '.' :: f') : b = b' := by
  induction b generalizing b' with
  | nil =>
    cases b' with
    | nil => rfl
    | cons x b' =>
      simp only [List.nil_append, List.cons_append, List.cons.injEq] at h
      exact absurd (by simp [← h.1]) hb'
  | cons y b ih =>
    cases b' with
    | nil =>
      simp only [List.nil_append, List.cons_append, List.cons.injEq] at h
      exact absurd (by simp [h.1]) hb
    | cons x b' =>
      simp only [List.cons_append, List.cons.injEq] at h
      rw [h.1, ih b' (fun hh => hb (by simp [hh])) (fun hh => hb' (by simp [hh])) h.2]

omit [Phys] in
theorem digitChar_inj {a b : ℕ} (ha : a < 10) (hb : b < 10) (h : Nat.digitChar a = Nat.digitChar b) : a = b := by
  interval_cases a <;> interval_cases b <;> first | rfl | (exact absurd h (by decide))

omit [Phys] in
theorem pad5_chars (k : ℕ) : ∀ ch ∈ pad5 k, ch ≠ '_' ∧ ch ≠ '.' := by
  intro ch hch
  simp only [pad5, List.mem_map, List.mem_append, List.mem_replicate, List.mem_reverse] at hch
  obtain ⟨d, hd, rfl⟩ := hch
  have hd10 : d < 10 := by
    rcases hd with ⟨-, rfl⟩ | hd
    · norm_num
    · exact Nat.digits_lt_base (by norm_num) hd
  interval_cases d <;> decide

omit [Phys] in
theorem pad5_injective {a b : ℕ} (h : pad5 a = pad5 b) : a = b := by
  have hinj : ∀ (u v : List ℕ), (∀ d ∈ u, d < 10) → (∀ d ∈ v, d < 10) →
      u.map Nat.digitChar = v.map Nat.digitChar → u = v := by
    intro u
    induction u with
    | nil => intro v _ _ h; simpa using h.symm
    | cons x u ih =>
      intro v hu hv h
      cases v with
      | nil => simp at h
      | cons y v =>
        simp only [List.map_cons, List.cons.injEq] at h
        rw [digitChar_inj (hu x (by simp)) (hv y (by simp)) h.1,
          ih v (fun d hd => hu d (by simp [hd])) (fun d hd => hv d (by simp [hd])) h.2]
  have hlt : ∀ k : ℕ, ∀ d ∈ List.replicate (5 - (Nat.digits 10 k).length) 0 ++ (Nat.digits 10 k).reverse,
      d < 10 := by
    intro k d hd
    simp only [List.mem_append, List.mem_replicate, List.mem_reverse] at hd
    rcases hd with ⟨-, rfl⟩ | hd
    · norm_num
    · exact Nat.digits_lt_base (by norm_num) hd
  have h1 := hinj _ _ (hlt a) (hlt b) h
  have h2 := congrArg (fun l => Nat.ofDigits 10 l.reverse) h1
  have hval : ∀ k : ℕ, Nat.ofDigits 10 (List.replicate (5 - (Nat.digits 10 k).length) 0 ++
      (Nat.digits 10 k).reverse).reverse = k := by
    intro k
    rw [List.reverse_append, List.reverse_reverse, List.reverse_replicate, Nat.ofDigits_append_replicate_zero,
      Nat.ofDigits_digits]
  simpa only [hval] using h2

omit [Phys] in
/-- the file name is a suffix of the path -/
theorem joinPath_suffix (a b : Path) : ∃ p, joinPath a b = p ++ b := by
  unfold joinPath
  split_ifs
  · exact ⟨[], rfl⟩
  · exact ⟨a, rfl⟩
  · exact ⟨a ++ ['/'], by simp⟩

/-- the number that a list of decimal digits stands for -/
def decimalValue (num : List Char) : ℕ := num.foldl (fun a ch => 10 * a + (ch.toNat - '0'.toNat)) 0

omit [Phys] in
theorem decimalValue_digits (ds : List ℕ) (h : ∀ d ∈ ds, d < 10) (a : ℕ) :
    (ds.map Nat.digitChar).foldl (fun a ch => 10 * a + (ch.toNat - '0'.toNat)) a = a * 10 ^ ds.length + Nat.ofDigits 10 ds.reverse := by
  induction ds generalizing a with
  | nil => simp
  | cons d ds ih =>
    have hd : (Nat.digitChar d).toNat - '0'.toNat = d := by
      have := h d (by simp)
      interval_cases d <;> rfl
    rw [List.map_cons, List.foldl_cons, ih (fun d hd => h d (by simp [hd])), hd, List.reverse_cons, Nat.ofDigits_append,
      Nat.ofDigits_singleton, List.length_cons, List.length_reverse]
    ring

omit [Phys] in
/-- **C35** (location). The file of iteration `k` is called `<prefix>_<k in decimal, padded with zeros to at least five
digits>.<format>` and lies in the given directory, whether that is written with or without a slash at its end, or in the working
directory if it is empty; the directory is ignored only if the prefix is itself an absolute path. -/
theorem C35_location (dir pre fmt : Path) (k : ℕ) :
    ∃ num : List Char, (∀ ch ∈ num, ch.isDigit = true) ∧ 5 ≤ num.length ∧ (k < 10 ^ 5 → num.length = 5) ∧ decimalValue num = k ∧
      (pre.head? ≠ some '/' → dir ≠ [] → dir.getLast? ≠ some '/' →
        filePath dir pre fmt k = dir ++ "/".toList ++ pre ++ "_".toList ++ num ++ ".".toList ++ fmt) ∧
      (pre.head? ≠ some '/' → (dir = [] ∨ dir.getLast? = some '/') →
        filePath dir pre fmt k = dir ++ pre ++ "_".toList ++ num ++ ".".toList ++ fmt) ∧
      (pre.head? = some '/' → filePath dir pre fmt k = pre ++ "_".toList ++ num ++ ".".toList ++ fmt) := by
  have hlt : ∀ d ∈ List.replicate (5 - (Nat.digits 10 k).length) 0 ++ (Nat.digits 10 k).reverse, d < 10 := by
    intro d hd
    simp only [List.mem_append, List.mem_replicate, List.mem_reverse] at hd
    rcases hd with ⟨-, rfl⟩ | hd
    · norm_num
    · exact Nat.digits_lt_base (by norm_num) hd
  have hhead : pre.head? ≠ some '/' → (pre ++ '_' :: (pad5 k ++ '.' :: fmt)).head? ≠ some '/' := by
    intro h
    cases pre with
    | nil => simp
    | cons x p => simpa using h
  refine ⟨pad5 k, ?_, ?_, ?_, ?_, ?_, ?_, ?_⟩
  · intro ch hch
    obtain ⟨d, hd, rfl⟩ := List.mem_map.1 hch
    have := hlt d hd
    interval_cases d <;> rfl
  · simp [pad5]
    omega
  · intro hk
    have := (Nat.digits_length_le_iff (b := 10) (by norm_num) k (k := 5)).2 hk
    simp [pad5]
    omega
  · rw [decimalValue, pad5, decimalValue_digits _ hlt, List.reverse_append, List.reverse_reverse, List.reverse_replicate,
      Nat.ofDigits_append_replicate_zero, Nat.ofDigits_digits]
    simp
  · intro h1 h2 h3
    rw [filePath, joinPath, if_neg (hhead h1), if_neg (by simp [h2, h3])]
    simp
  · intro h1 h2
    rw [filePath, joinPath, if_neg (hhead h1), if_pos h2]
    simp
  · intro h1
    rw [filePath, joinPath, if_pos ?_]
    · simp
    · cases pre with
      | nil => simp at h1
      | cons x p => simpa using h1

/-- the default names -/
example : filePath "diags".toList "laser".toList "h5".toList 12 = "diags/laser_00012.h5".toList := by
  simp [filePath, joinPath, pad5, Nat.digitChar]

omit [Phys] in
/-- **C35** (names). Files of different iterations have different names, whatever the directories, prefixes
and formats are (as long as the format, `h5` or `bp`, has no underscore). -/
theorem C35_names (d d' p p' f f' : Path) (hf : '_' ∉ f) (hf' : '_' ∉ f') (k k' : ℕ) (hk : k ≠ k') :
    filePath d p f k ≠ filePath d' p' f' k' := by
  intro h
  unfold filePath at h
  obtain ⟨q, hq⟩ := joinPath_suffix d (p ++ '_' :: (pad5 k ++ '.' :: f))
  obtain ⟨q', hq'⟩ := joinPath_suffix d' (p' ++ '_' :: (pad5 k' ++ '.' :: f'))
  rw [hq, hq', ← List.append_assoc, ← List.append_assoc] at h
  have hno : ∀ (f : Path) (k : ℕ), '_' ∉ f → '_' ∉ pad5 k ++ '.' :: f := by
    intro f k hf hm
    simp only [List.mem_append, List.mem_cons] at hm
    rcases hm with hm | hm | hm
    · exact (pad5_chars k _ hm).1 rfl
    · exact absurd hm (by decide)
    · exact hf hm
  have h1 := lastPart _ _ _ _ (hno f k hf) (hno f' k' hf') h
  exact hk (pad5_injective (firstPart _ _ _ _ (fun hm => (pad5_chars k _ hm).2 rfl)
    (fun hm => (pad5_chars k' _ hm).2 rfl) h1))

/-! ## Histories -/

/-- the format of every write has no underscore -/
def PlainFormats (sts : List Step) : Prop := ∀ a, Step.write a ∈ sts → '_' ∉ a.fmt

theorem run_write_ok (ax : Axiprop) {a : WriteArgs} {l l' : Laser s} {d d' : Disk} {u : Unit}
    (h : writeToFile a (l, d) = (.ok u, (l', d'))) :
    (Step.write a).run ax (⟨s, l⟩, d) = (some ⟨a, d, d'⟩, (⟨s, l'⟩, d')) := by
  change runWrite a l d = _
  unfold runWrite
  rw [h]

theorem run_write_error (ax : Axiprop) {a : WriteArgs} {l l' : Laser s} {d d' : Disk} {e : PyErr}
    (h : writeToFile a (l, d) = (.error e, (l', d'))) :
    (Step.write a).run ax (⟨s, l⟩, d) = (none, (⟨s, l'⟩, d')) := by
  change runWrite a l d = _
  unfold runWrite
  rw [h]

/-- one step: counter, and the files of earlier iterations -/
theorem run_effect (ax : Axiprop) (st : Step) (w : FileWorld) :
    (st.run ax w).2.1.2.outputIteration = w.1.2.outputIteration + (st.run ax w).1.toList.length ∧
    (∀ p, (∀ a, st = .write a → p ≠ filePath a.dir a.pre a.fmt w.1.2.outputIteration) →
      (st.run ax w).2.2 p = w.2 p) ∧
    (∀ r, (st.run ax w).1 = some r → st = .write r.args ∧ r.before = w.2 ∧ r.after = (st.run ax w).2.2 ∧
      ∃ m, r.after (filePath r.args.dir r.args.pre r.args.fmt w.1.2.outputIteration) = some m) := by
  obtain ⟨⟨s, l⟩, d⟩ := w
  cases st with
  | write a =>
    obtain ⟨h1, h2, h3⟩ := writeToFile_effect a l d
    rcases hw : writeToFile a (l, d) with ⟨e | u, l', d'⟩
    · rw [hw] at h1 h2
      rw [run_write_error ax hw]
      refine ⟨h2 e rfl, fun p hp => h1 p (hp a rfl), ?_⟩
      intro r hr
      cases hr
    · rw [hw] at h1 h3
      rw [run_write_ok ax hw]
      refine ⟨(h3 u rfl).1, fun p hp => h1 p (hp a rfl), ?_⟩
      intro r hr
      cases hr
      exact ⟨rfl, rfl, rfl, (h3 u rfl).2⟩
  | propagate a =>
    refine ⟨?_, fun p _ => rfl, ?_⟩
    · simpa [Step.run] using keeps_propagate ax a ⟨s, l⟩
    · intro r hr
      simp [Step.run] at hr
  | optics el =>
    refine ⟨?_, fun p _ => rfl, ?_⟩
    · simpa [Step.run] using keeps_applyOptics el l
    · intro r hr
      simp [Step.run] at hr
  | normalize v k =>
    refine ⟨?_, fun p _ => rfl, ?_⟩
    · simpa [Step.run] using keeps_normalize v k l
    · intro r hr
      simp [Step.run] at hr

/-- **C35** (counting). In every history of writes (successful or not), propagations, optics and
normalisations, starting at iteration `k0`, the final iteration number is `k0` plus the number of successful
writes: a failing write does not consume a number, and nothing else does. -/
theorem C35_counter (ax : Axiprop) (sts : List Step) (w : FileWorld) :
    (runAll ax sts w).2.1.2.outputIteration = w.1.2.outputIteration + (runAll ax sts w).1.length := by
  induction sts generalizing w with
  | nil => simp [runAll]
  | cons st sts ih =>
    simp only [runAll, List.length_append]
    rw [ih, (run_effect ax st w).1]
    omega

/-- files of iterations below the present one are never touched -/
theorem runAll_keeps (ax : Axiprop) (sts : List Step) (hpl : PlainFormats sts) (w : FileWorld)
    (d p f : Path) (hf : '_' ∉ f) (k : ℕ) (hk : k < w.1.2.outputIteration) :
    (runAll ax sts w).2.2 (filePath d p f k) = w.2 (filePath d p f k) := by
  induction sts generalizing w with
  | nil => rfl
  | cons st sts ih =>
    simp only [runAll]
    rw [ih (fun a ha => hpl a (by simp [ha])) _ (by rw [(run_effect ax st w).1]; omega)]
    refine (run_effect ax st w).2.1 _ ?_
    intro a ha
    exact C35_names _ _ _ _ _ _ hf (hpl a (by simp [ha])) _ _ (by omega)

/-- **C35.** Take any history as above, starting at iteration `k0` (`0` for a new laser, `C35_new`). The
`j`-th successful write (counting from 0) writes exactly one file, the one of iteration `k0 + j`; and at the
end of the history this file still has the content which that write gave it. -/
theorem C35_files (ax : Axiprop) (sts : List Step) (hpl : PlainFormats sts) (w : FileWorld) (j : ℕ) (r : Written)
    (hr : (runAll ax sts w).1[j]? = some r) :
    (∃ m, r.after (filePath r.args.dir r.args.pre r.args.fmt (w.1.2.outputIteration + j)) = some m) ∧
    (∀ p, p ≠ filePath r.args.dir r.args.pre r.args.fmt (w.1.2.outputIteration + j) → r.after p = r.before p) ∧
    (runAll ax sts w).2.2 (filePath r.args.dir r.args.pre r.args.fmt (w.1.2.outputIteration + j)) =
      r.after (filePath r.args.dir r.args.pre r.args.fmt (w.1.2.outputIteration + j)) := by
  induction sts generalizing w j with
  | nil => simp [runAll] at hr
  | cons st sts ih =>
    obtain ⟨h1, h2, h3⟩ := run_effect ax st w
    have hpl' : PlainFormats sts := fun a ha => hpl a (by simp [ha])
    simp only [runAll] at hr ⊢
    rcases ho : (st.run ax w).1 with _ | r0
    · simp only [ho, Option.toList_none, List.nil_append, List.length_nil, add_zero] at hr h1
      have := ih hpl' _ j hr
      rwa [h1] at this
    · simp only [ho, Option.toList_some, List.length_cons, List.length_nil, zero_add] at hr h1
      cases j with
      | zero =>
        simp only [List.cons_append, List.nil_append, List.getElem?_cons_zero, Option.some.injEq] at hr
        subst hr
        obtain ⟨e1, e2, e3, e4⟩ := h3 _ ho
        refine ⟨e4, ?_, ?_⟩
        · intro p hp
          rw [e3, e2]
          refine h2 p ?_
          intro a ha
          rw [e1] at ha
          injection ha with ha
          subst ha
          exact hp
        · rw [runAll_keeps ax sts hpl' _ _ _ _ (hpl _ (by simp [e1])) _ (by rw [h1]; omega), e3]
      | succ j =>
        simp only [List.cons_append, List.nil_append, List.getElem?_cons_succ] at hr
        have := ih hpl' _ j hr
        rw [h1] at this
        rwa [show w.1.2.outputIteration + 1 + j = w.1.2.outputIteration + (j + 1) by omega] at this

/-- **C35** (start). A new laser is at iteration 0. -/
theorem C35_new {dim : String} {lo hi : List ℝ} {np : List ℕ} {p : ProfileObj}
    {m : Option ℕ} {N : Option ℕ} {l : Laser s} (h : Laser.init dim lo hi np p m N = .ok ⟨s, l⟩) :
    l.outputIteration = 0 := by
  obtain ⟨g, f, -, -, -, -, -, h0, -⟩ := Laser.init_facts h
  exact h0

/-- not vacuous: a new laser, a failing write, a write, a propagation, a write; two files, numbers 0 and 1 -/
example (ax : Axiprop) : ∃ (l : Laser ⟨2, 2, 2⟩) (r r' : Written),
    (runAll ax [.write { fault := .flush .runtime }, .write {}, .propagate ⟨1, none, none, "b"⟩, .write {}]
      (⟨_, l⟩, fun _ => none)).1 = [r, r'] ∧ l.outputIteration = 0 := by
  obtain ⟨l, E0, h, hf, -⟩ := constLaser
  have hk : ∀ (l : Laser ⟨2, 2, 2⟩) (f : Field ⟨2, 2, 2⟩), l.Has f → ∀ d : Disk, ∃ l' d' r, l'.Has f ∧
      l'.prop = l.prop ∧
      (Step.write {}).run ax (⟨_, l⟩, d) = (some r, (⟨_, l'⟩, d')) := by
    intro l f hf d
    obtain ⟨g', e, h', -⟩ := writeToFile_ok {} l f hf d rfl rfl
    exact ⟨{ l with grid := g', outputIteration := l.outputIteration + 1 }, _, _, h', rfl,
      run_write_ok ax e⟩
  have hfail : ∀ (l : Laser ⟨2, 2, 2⟩) (f : Field ⟨2, 2, 2⟩), l.Has f → ∀ d : Disk, ∃ l' d', l'.Has f ∧
      l'.prop = l.prop ∧
      (Step.write { fault := .flush .runtime }).run ax (⟨_, l⟩, d) = (none, (⟨_, l'⟩, d')) := by
    intro l f hf d
    obtain ⟨g', e, h', -⟩ := Grid.Holds.getT hf
    refine ⟨{ l with grid := g' },
      Function.update d (filePath "diags".toList "laser".toList "h5".toList l.outputIteration) none, h', rfl,
      run_write_error ax (e := .runtime) ?_⟩
    unfold writeToFile writeMesh
    simp only [onGrid_eq e]
    simp
  have hr := Laser.ready_of_init h
  obtain ⟨l1, d1, f1, p1, e1⟩ := hfail l _ hf (fun _ => none)
  obtain ⟨l2, d2, r2, f2, p2, e2⟩ := hk l1 _ f1 d1
  have hprop : l.prop = .absent := by
    obtain ⟨g, f, -, -, -, -, -, -, hp, -⟩ := Laser.init_facts h
    exact hp
  have hr2 : l2.Ready := ⟨⟨_, f2⟩, .inl (by rw [p2, p1, hprop])⟩
  obtain ⟨l3, e3, hr3⟩ := propagateAll_succeeds ax [⟨1, none, none, "b"⟩] l2 hr2 (by simp)
  obtain ⟨⟨f3, hf3⟩, -⟩ := hr3
  obtain ⟨l4, d4, r4, -, -, e4⟩ := hk l3 f3 hf3 d2
  refine ⟨l, r2, r4, ?_, C35_new h⟩
  have e3' : (Step.propagate ⟨1, none, none, "b"⟩).run ax (⟨_, l2⟩, d2) = (none, (⟨_, l3⟩, d2)) := by
    simp only [propagateAll, Py.bind_apply] at e3
    simp only [Step.run]
    rcases hq : Laser.propagate ax 1 none none "b" ⟨_, l2⟩ with ⟨e | u, L⟩
    · simp [hq] at e3
    · simp only [hq, Py.pure_apply, Prod.mk.injEq, true_and] at e3
      rw [e3]
  simp only [runAll, e1, e2, e3', e4]
  rfl

end Lasy

namespace Lasy
open Spec Phys Complex

variable [Phys] {s : Shape}

/-! ## C68 -/

/-- the full property C68: a successful write never changes a file that exists already -/
def NeverOverwrites : Prop :=
  ∀ (s : Shape) (l : Laser s) (a : WriteArgs) (d : Disk) (m : Mesh) (p : Path),
    d p = some m → (writeToFile a (l, d)).1 = .ok () → (writeToFile a (l, d)).2.2 p = some m

/-- **C68 is false of the code.** Two lasers that are written with the default arguments use the same file:
the second write destroys the first laser's output without any exception. -/
theorem C68_refuted : ¬ NeverOverwrites ∧
    ∃ (l1 l2 : Laser ⟨2, 2, 2⟩) (d1 d2 : Disk) (m1 m2 : Mesh),
      l1.outputIteration = 0 ∧ l2.outputIteration = 0 ∧
      (writeToFile {} (l1, fun _ => none)).2.2 = d1 ∧ d1 (filePath "diags".toList "laser".toList "h5".toList 0) = some m1 ∧
      (writeToFile {} (l2, d1)).1 = .ok () ∧ (writeToFile {} (l2, d1)).2.2 = d2 ∧
      d2 (filePath "diags".toList "laser".toList "h5".toList 0) = some m2 ∧ m1 ≠ m2 := by
  let ax : Axis 2 := ⟨0, 1, 1, fun k => (k : ℕ)⟩
  let mk : ℂ → Laser ⟨2, 2, 2⟩ := fun z =>
    { grid := Grid.holding (.xyt ax ax) ax (fun _ _ _ => z)
      profile := { omega0 := 1, lambda0 := 1, pol := (1, 0), laserEnergy := none, dtype := .c128
                   evaluate := fun _ _ _ _ _ _ => 0 }
      outputIteration := 0, omega1d := fun _ => 1, prop := .absent }
  have hmk : ∀ z, (mk z).Has (fun _ _ _ => z) := fun z => Grid.holding_holds _ _ _
  obtain ⟨g1, e1, -⟩ := writeToFile_ok {} (mk 1) _ (hmk 1) (fun _ => none) rfl rfl
  obtain ⟨g2, e2, -⟩ := writeToFile_ok {} (mk 2) _ (hmk 2) (writeToFile {} (mk 1, fun _ => none)).2.2 rfl rfl
  have key : ∃ (l1 l2 : Laser ⟨2, 2, 2⟩) (d1 d2 : Disk) (m1 m2 : Mesh),
      l1.outputIteration = 0 ∧ l2.outputIteration = 0 ∧
      (writeToFile {} (l1, fun _ => none)).2.2 = d1 ∧ d1 (filePath "diags".toList "laser".toList "h5".toList 0) = some m1 ∧
      (writeToFile {} (l2, d1)).1 = .ok () ∧ (writeToFile {} (l2, d1)).2.2 = d2 ∧
      d2 (filePath "diags".toList "laser".toList "h5".toList 0) = some m2 ∧ m1 ≠ m2 := by
    refine ⟨mk 1, mk 2, _, _, mkMesh (mk 1).grid 1 (1, 0) false ⟨.c128, fun _ _ _ => 1⟩,
      mkMesh (mk 2).grid 1 (1, 0) false ⟨.c128, fun _ _ _ => 2⟩, rfl, rfl, rfl, ?_, ?_, rfl, ?_, ?_⟩
    · rw [e1]
      dsimp only [mk]
      rw [Function.update_self]
    · rw [e2]
    · rw [e2]
      dsimp only [mk]
      rw [Function.update_self]
    · intro h
      have h0 := congrArg (fun m : Mesh => m.data.get [0, 0, 0]) h
      simp [mkMesh, mk, Grid.holding, dataXYT, Arr.toNd] at h0
  refine ⟨?_, key⟩
  intro hno
  obtain ⟨l1, l2, d1, d2, m1, m2, -, -, -, h1, h2, h3, h4, hne⟩ := key
  have := hno _ l2 {} d1 m1 _ h1 h2
  rw [h3, h4] at this
  exact hne (by injection this with this; exact this.symm)

omit [Phys] in
/-- **C68, what remains.** Within one directory and format, different prefixes (or iterations) give different
files, so lasers written with prefixes of their own never overwrite each other. Missing: nothing protects
against an existing file of the same name. -/
theorem C68_prefix_partial (d p p' f : Path) (hf : '_' ∉ f) (hp : p.head? ≠ some '/') (hp' : p'.head? ≠ some '/')
    (k k' : ℕ) (h : filePath d p f k = filePath d p' f k') : p = p' ∧ k = k' := by
  have hk : k = k' := by
    by_contra hne
    exact C35_names d d p p' f f hf hf k k' hne h
  subst hk
  refine ⟨?_, rfl⟩
  have hhead : ∀ (p q : Path), p.head? ≠ some '/' → (p ++ '_' :: q).head? ≠ some '/' := by
    intro p q hp
    cases p with
    | nil => simp
    | cons x p => simpa using hp
  unfold filePath joinPath at h
  rw [if_neg (hhead p _ hp), if_neg (hhead p' _ hp')] at h
  split_ifs at h
  · have := List.append_cancel_left h
    exact List.append_cancel_right this
  · have := List.append_cancel_left h
    simp only [List.cons.injEq, true_and] at this
    exact List.append_cancel_right this

/-- not vacuous -/
example : filePath "diags".toList "laser".toList "h5".toList 0 ≠ filePath "diags".toList "other".toList "h5".toList 0 := by
  intro h
  exact absurd (C68_prefix_partial _ _ _ _ (by decide) (by decide) (by decide) _ _ h).1 (by decide)

end Lasy
