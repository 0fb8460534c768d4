import Verif.Model.TransverseHeap

/-!
# Properties C38 (transverse profiles) and C44 (offsets)
-/

namespace Lasy

/-- references go to older objects -/
def THeap.WF (h : THeap) : Prop := ∀ i < h.size, match (h.obj i).node with
  | .leaf _ => True
  | .summed parts => ∀ j ∈ parts, j < i
  | .scaled j _ => j < i

theorem THeap.WF.empty : THeap.empty.WF := fun i hi => absurd hi (by simp [THeap.empty])

theorem THeap.WF.alloc {h : THeap} (hw : h.WF) {n : TNode} (hn : match n with
    | .leaf _ => True
    | .summed parts => ∀ j ∈ parts, j < h.size
    | .scaled j _ => j < h.size) : (h.alloc n).2.WF := by
  intro i hi
  simp only [THeap.alloc] at hi ⊢
  by_cases he : i = h.size
  · subst he
    rw [Function.update_self]
    exact hn
  · rw [Function.update_of_ne he]
    exact hw i (by omega)

theorem THeap.WF.step {h : THeap} (hw : h.WF) (op : TOp) : (h.step op).2.WF := by
  cases op with
  | new f => exact hw.alloc (n := .leaf f) trivial
  | sum parts =>
    simp only [THeap.step]
    split
    · rename_i hp
      exact hw.alloc (n := .summed parts) hp
    · exact hw
  | scale j k =>
    simp only [THeap.step]
    split
    · exact hw
    · split
      · rename_i hp
        exact hw.alloc (n := .scaled j _) hp
      · exact hw
  | setOffset i a b =>
    simp only [THeap.step]
    split
    · intro l hl
      simp only at hl ⊢
      have := hw l hl
      by_cases he : l = i
      · subst he
        rw [Function.update_self]
        exact this
      · rw [Function.update_of_ne he]
        exact this
    · exact hw

theorem THeap.WF.run {h : THeap} (hw : h.WF) (ops : List TOp) : (h.run ops).WF := by
  induction ops generalizing h with
  | nil => exact hw
  | cons op ops ih => exact ih (hw.step op)

/-- a statement does not change what existing objects are, only offsets -/
theorem THeap.step_node {h : THeap} (op : TOp) {i : ℕ} (hi : i < h.size) :
    ((h.step op).2.obj i).node = (h.obj i).node ∧ i < (h.step op).2.size := by
  have al : ∀ n, ((h.alloc n).2.obj i).node = (h.obj i).node ∧ i < (h.alloc n).2.size := by
    intro n
    simp only [THeap.alloc]
    rw [Function.update_of_ne (by omega)]
    exact ⟨rfl, by omega⟩
  cases op with
  | new f => exact al _
  | sum parts =>
    simp only [THeap.step]
    split
    · exact al _
    · exact ⟨rfl, hi⟩
  | scale j k =>
    simp only [THeap.step]
    split
    · exact ⟨rfl, hi⟩
    · split
      · exact al _
      · exact ⟨rfl, hi⟩
  | setOffset l a b =>
    simp only [THeap.step]
    split
    · refine ⟨?_, hi⟩
      simp only
      by_cases he : i = l
      · subst he
        rw [Function.update_self]
      · rw [Function.update_of_ne he]
    · exact ⟨rfl, hi⟩

theorem THeap.run_node {h : THeap} (ops : List TOp) {i : ℕ} (hi : i < h.size) :
    ((h.run ops).obj i).node = (h.obj i).node ∧ i < (h.run ops).size := by
  induction ops generalizing h with
  | nil => exact ⟨rfl, hi⟩
  | cons op ops ih =>
    obtain ⟨h1, h2⟩ := THeap.step_node op hi
    obtain ⟨h3, h4⟩ := ih h2
    exact ⟨h3.trans h1, h4⟩

theorem THeap.evaluate_leaf {h : THeap} {i : ℕ} {f} (hi : (h.obj i).node = .leaf f) (x y : ℝ) :
    h.evaluate i x y = f (x + (h.obj i).xOffset) (y + (h.obj i).yOffset) := by
  rw [THeap.evaluate, hi]

theorem THeap.evaluate_summed {h : THeap} {i : ℕ} {parts} (hi : (h.obj i).node = .summed parts)
    (hp : ∀ j ∈ parts, j < i) (x y : ℝ) :
    h.evaluate i x y = (parts.map fun j => h.evaluate j x y).sum := by
  rw [THeap.evaluate, hi]
  simp only
  congr 1
  conv_rhs => rw [← List.attach_map_subtype_val parts, List.map_map]
  refine List.map_congr_left fun j _ => ?_
  simp [hp j.1 j.2]

theorem THeap.evaluate_scaled {h : THeap} {i j : ℕ} {k} (hi : (h.obj i).node = .scaled j k) (hj : j < i)
    (x y : ℝ) : h.evaluate i x y = h.evaluate j x y * k := by
  rw [THeap.evaluate, hi]
  simp [hj]

/-- **C38** (sums of transverse profiles). In every program: the object made by `SummedTransverseProfile(*ps)`
evaluates, now and after whatever else the program does (also to the summands), to the sum of what the
summands evaluate to at that time. -/
theorem C38_transverse_sum (before after : List TOp) (parts : List ℕ) (n : ℕ) (h1 : THeap)
    (hs : (THeap.empty.run before).step (.sum parts) = (.ok n, h1)) (x y : ℝ) :
    (h1.run after).evaluate n x y = (parts.map fun j => (h1.run after).evaluate j x y).sum := by
  have hw := THeap.WF.empty.run before
  have hw1 : h1.WF := by have := hw.step (.sum parts); rwa [hs] at this
  simp only [THeap.step] at hs
  split at hs
  · rename_i hp
    simp only [THeap.alloc, Prod.mk.injEq, Except.ok.injEq] at hs
    obtain ⟨rfl, rfl⟩ := hs
    obtain ⟨h2, h3⟩ := THeap.run_node after (i := (THeap.empty.run before).size)
      (h := { size := (THeap.empty.run before).size + 1
              obj := Function.update (THeap.empty.run before).obj (THeap.empty.run before).size
                ⟨0, 0, .summed parts⟩ }) (by simp)
    refine THeap.evaluate_summed (h2.trans (by simp)) hp x y
  · cases hs

/-- **C38** (multiples of transverse profiles). The same for `p * k` and `k * p`, with integer, real and complex
factors. -/
theorem C38_transverse_scaled (before after : List TOp) (p : ℕ) (k : PyVal) (n : ℕ) (h1 : THeap)
    (hs : (THeap.empty.run before).step (.scale p k) = (.ok n, h1)) (x y : ℝ) :
    (h1.run after).evaluate n x y = k.toC * (h1.run after).evaluate p x y := by
  simp only [THeap.step] at hs
  split at hs
  · cases hs
  · split at hs
    · rename_i hp
      simp only [THeap.alloc, Prod.mk.injEq, Except.ok.injEq] at hs
      obtain ⟨rfl, rfl⟩ := hs
      obtain ⟨h2, h3⟩ := THeap.run_node after (i := (THeap.empty.run before).size)
        (h := { size := (THeap.empty.run before).size + 1
                obj := Function.update (THeap.empty.run before).obj (THeap.empty.run before).size
                  ⟨0, 0, .scaled p k.toC⟩ }) (by simp)
      rw [THeap.evaluate_scaled (k := k.toC) (h2.trans (by simp)) hp, mul_comm]
    · cases hs

/-! ## C44 -/

/-- **C44** (profiles with their own `_evaluate`). In every state of every program, after `p.set_offset(a, b)`
the profile evaluates at `(x, y)` to what it would evaluate to at `(x + a, y + b)` with offset zero. -/
theorem C44_leaf_partial (ops : List TOp) (i : ℕ) (f : ℝ → ℝ → ℂ) (hi : i < (THeap.empty.run ops).size)
    (hn : ((THeap.empty.run ops).obj i).node = .leaf f) (a b x y : ℝ) :
    let offset := fun a b => ((THeap.empty.run ops).step (.setOffset i a b)).2
    (offset a b).evaluate i x y = (offset 0 0).evaluate i (x + a) (y + b) := by
  intro offset
  have e : ∀ a b x y, (offset a b).evaluate i x y = f (x + a) (y + b) := by
    intro a b x y
    have hnode := (THeap.step_node (h := THeap.empty.run ops) (.setOffset i a b) hi).1.trans hn
    rw [THeap.evaluate_leaf hnode]
    simp [THeap.step, hi]
  rw [e, e]
  simp

/-- **C44** is false of the code for sums and multiples: `set_offset` on such an object has no effect at all on
what it evaluates to. -/
theorem C44_refuted (ops : List TOp) (i : ℕ) (hi : i < (THeap.empty.run ops).size)
    (hn : ∀ f, ((THeap.empty.run ops).obj i).node ≠ .leaf f) (a b x y : ℝ) :
    ((THeap.empty.run ops).step (.setOffset i a b)).2.evaluate i x y = (THeap.empty.run ops).evaluate i x y := by
  have hw := THeap.WF.empty.run ops
  set h := THeap.empty.run ops with hh
  set h' := (h.step (.setOffset i a b)).2 with hh'
  have hobj : ∀ j, j ≠ i → h'.obj j = h.obj j := by
    intro j hj
    simp [hh', THeap.step, hi, Function.update_of_ne hj]
  have hlow : ∀ j, j < i → h'.evaluate j x y = h.evaluate j x y := by
    intro j
    induction j using Nat.strong_induction_on with
    | _ j ih =>
      intro hj
      have ho := hobj j hj.ne
      have hwj := hw j (by omega)
      match hnode : (h.obj j).node with
      | .leaf f => rw [THeap.evaluate_leaf hnode, THeap.evaluate_leaf (by rw [ho]; exact hnode), ho]
      | .summed parts =>
        rw [hnode] at hwj
        rw [THeap.evaluate_summed hnode hwj, THeap.evaluate_summed (by rw [ho]; exact hnode) hwj]
        congr 1
        exact List.map_congr_left fun l hl => ih l (hwj l hl) ((hwj l hl).trans hj)
      | .scaled l k =>
        rw [hnode] at hwj
        rw [THeap.evaluate_scaled hnode hwj, THeap.evaluate_scaled (by rw [ho]; exact hnode) hwj,
          ih l hwj (lt_trans hwj hj)]
  have hnode' := (THeap.step_node (h := h) (.setOffset i a b) hi).1
  have hwi := hw i hi
  match hnode : (h.obj i).node with
  | .leaf f => exact absurd hnode (hn f)
  | .summed parts =>
    rw [hnode] at hwi
    rw [THeap.evaluate_summed hnode hwi, THeap.evaluate_summed (hnode'.trans hnode) hwi]
    congr 1
    exact List.map_congr_left fun l hl => hlow l (hwi l hl)
  | .scaled l k =>
    rw [hnode] at hwi
    rw [THeap.evaluate_scaled hnode hwi, THeap.evaluate_scaled (hnode'.trans hnode) hwi, hlow l hwi]

/-- C44 is really false: a program whose sum, offset by `(1, 0)`, does not evaluate to the shifted sum -/
example : ∃ (ops : List TOp) (i : ℕ) (x : ℝ),
    ((THeap.empty.run ops).step (.setOffset i 1 0)).2.evaluate i x 0 ≠ (THeap.empty.run ops).evaluate i (x + 1) 0 := by
  let ops : List TOp := [.new fun x _ => x, .new fun _ _ => 5, .sum [0, 1]]
  have hnode : ((THeap.empty.run ops).obj 2).node = .summed [0, 1] := by
    simp [ops, THeap.run, THeap.step, THeap.alloc, THeap.empty]
  refine ⟨ops, 2, 0, ?_⟩
  rw [C44_refuted ops 2 (by simp [ops, THeap.run, THeap.step, THeap.alloc, THeap.empty])
    (by rw [hnode]; simp)]
  have e : ∀ x y, (THeap.empty.run ops).evaluate 2 x y = x + 5 := by
    intro x y
    rw [THeap.evaluate_summed hnode (by simp)]
    have h0 : ((THeap.empty.run ops).obj 0) = ⟨0, 0, .leaf fun x _ => x⟩ := by
      simp [ops, THeap.run, THeap.step, THeap.alloc, THeap.empty, Function.update]
    have h1 : ((THeap.empty.run ops).obj 1) = ⟨0, 0, .leaf fun _ _ => 5⟩ := by
      simp [ops, THeap.run, THeap.step, THeap.alloc, THeap.empty, Function.update]
    simp [THeap.evaluate_leaf (f := fun x _ => (x : ℂ)) (i := 0) (by rw [h0]),
      THeap.evaluate_leaf (f := fun _ _ => 5) (i := 1) (by rw [h1]), h0]
  rw [e, e]
  simp

/-- `h.Part j i`: object `i` is, or is made of (at any depth), the profile `j` with its own `_evaluate` -/
inductive THeap.Part (h : THeap) : ℕ → ℕ → Prop
  | self {i : ℕ} {f : ℝ → ℝ → ℂ} : (h.obj i).node = .leaf f → h.Part i i
  | summed {i l j : ℕ} {parts : List ℕ} : (h.obj i).node = .summed parts → l ∈ parts → h.Part j l → h.Part j i
  | scaled {i l j : ℕ} {k : ℂ} : (h.obj i).node = .scaled l k → h.Part j l → h.Part j i

/-- shifting all parts shifts the whole -/
theorem THeap.evaluate_shift {h h' : THeap} (hw : h.WF) (hnode : ∀ i < h.size, (h'.obj i).node = (h.obj i).node)
    (a b : ℝ) {i : ℕ} (hi : i < h.size)
    (hp : ∀ j, h.Part j i → (h'.obj j).xOffset = (h.obj j).xOffset + a ∧
      (h'.obj j).yOffset = (h.obj j).yOffset + b) (x y : ℝ) :
    h'.evaluate i x y = h.evaluate i (x + a) (y + b) := by
  induction i using Nat.strong_induction_on with
  | _ i ih =>
    have hwi := hw i hi
    have ho := hnode i hi
    match hn : (h.obj i).node with
    | .leaf f =>
      obtain ⟨h1, h2⟩ := hp i (.self hn)
      rw [THeap.evaluate_leaf hn, THeap.evaluate_leaf (ho.trans hn), h1, h2]
      congr 1 <;> ring
    | .summed parts =>
      rw [hn] at hwi
      rw [THeap.evaluate_summed hn hwi, THeap.evaluate_summed (ho.trans hn) hwi]
      congr 1
      exact List.map_congr_left fun l hl => ih l (hwi l hl) ((hwi l hl).trans hi)
        fun j hj => hp j (.summed hn hl hj)
    | .scaled l k =>
      rw [hn] at hwi
      rw [THeap.evaluate_scaled hn hwi, THeap.evaluate_scaled (ho.trans hn) hwi,
        ih l hwi (lt_trans hwi hi) fun j hj => hp j (.scaled hn hj)]

/-- **C44**, what does hold for sums and multiples: if all the profiles an object is made of have offset zero,
and `set_offset(a, b)` is called on each of them (in any order, on any further profiles as well), then the
object is shifted by `(a, b)`. -/
theorem C44_parts_partial (ops : List TOp) (i : ℕ) (hi : i < (THeap.empty.run ops).size) (a b : ℝ)
    (L : List ℕ) (hL : ∀ j ∈ L, j < (THeap.empty.run ops).size)
    (hp : ∀ j, (THeap.empty.run ops).Part j i → j ∈ L ∧ ((THeap.empty.run ops).obj j).xOffset = 0 ∧
      ((THeap.empty.run ops).obj j).yOffset = 0) (x y : ℝ) :
    ((THeap.empty.run ops).run (L.map fun j => .setOffset j a b)).evaluate i x y =
      (THeap.empty.run ops).evaluate i (x + a) (y + b) := by
  have hw := THeap.WF.empty.run ops
  generalize THeap.empty.run ops = h at *
  have key : ∀ (L : List ℕ) (h : THeap), (∀ j ∈ L, j < h.size) → ∀ j ∈ L,
      ((h.run (L.map fun j => .setOffset j a b)).obj j).xOffset = a ∧
      ((h.run (L.map fun j => .setOffset j a b)).obj j).yOffset = b := by
    intro L
    induction L using List.reverseRecOn with
    | nil => intro h _ j hj; cases hj
    | append_singleton L l ih =>
      intro h hL j hj
      have hrun : h.run ((L ++ [l]).map fun j => TOp.setOffset j a b) =
          ((h.run (L.map fun j => TOp.setOffset j a b)).step (.setOffset l a b)).2 := by
        simp [THeap.run, List.foldl_append]
      have hl := (THeap.run_node (h := h) (L.map fun j => TOp.setOffset j a b) (hL l (by simp))).2
      rw [hrun]
      simp only [THeap.step, hl, if_true]
      by_cases he : j = l
      · subst he
        simp
      · rw [Function.update_of_ne he]
        refine ih h (fun j hj => hL j (by simp [hj])) j ?_
        simpa [he] using hj
  refine THeap.evaluate_shift hw (fun i hi => (THeap.run_node _ hi).1) a b hi ?_ x y
  intro j hj
  obtain ⟨h1, h2, h3⟩ := hp j hj
  obtain ⟨h4, h5⟩ := key L h hL j h1
  rw [h4, h5, h2, h3]
  simp

end Lasy
