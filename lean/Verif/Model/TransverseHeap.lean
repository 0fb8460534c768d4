import Verif.Model.Transverse

/-!
# Model of `lasy/profiles/transverse/transverse_profile.py`: objects, offsets, sums and multiples

A Python program holds references to transverse profile objects; sums and multiples refer to their summands,
and `set_offset` changes an object in place. The heap makes this sharing visible.
-/

namespace Lasy

/-- the three kinds of objects: an object with its own `_evaluate`; `SummedTransverseProfile`
(`transverse_profile.py:93-117`); `ScaledTransverseProfile` (`transverse_profile.py:120-149`) -/
inductive TNode
  | leaf (f : ℝ → ℝ → ℂ)
  | summed (parts : List ℕ)
  | scaled (part : ℕ) (factor : ℂ)

/-- an object: `x_offset`, `y_offset` (`transverse_profile.py:18-21`) and its kind -/
structure TObj where
  xOffset : ℝ
  yOffset : ℝ
  node : TNode

/-- the objects created so far are those with numbers below `size` -/
structure THeap where
  size : ℕ
  obj : ℕ → TObj

/-- no object yet -/
def THeap.empty : THeap := ⟨0, fun _ => ⟨0, 0, .summed []⟩⟩

/-- `evaluate` (`transverse_profile.py:55-71, 114-117, 146-149`) of object `i` at one point. Sums and multiples
override `evaluate` and do not use their own offset. An object refers only to older objects (`j < i`; references
to others do not occur, see `THeap.WF`). -/
noncomputable def THeap.evaluate (h : THeap) (i : ℕ) (x y : ℝ) : ℂ :=
  match (h.obj i).node with
  | .leaf f => f (x + (h.obj i).xOffset) (y + (h.obj i).yOffset)
  | .summed parts => (parts.attach.map fun j => if _h : j.1 < i then h.evaluate j.1 x y else 0).sum
  | .scaled j k => if _h : j < i then h.evaluate j x y * k else 0
termination_by i

/-- one statement of a program -/
inductive TOp
  /-- construct a Gaussian, Hermite-Gauss, ... profile -/
  | new (f : ℝ → ℝ → ℂ)
  /-- `SummedTransverseProfile(*profiles)`; `p + q` is the case of two -/
  | sum (parts : List ℕ)
  /-- `p * k`, `k * p` -/
  | scale (part : ℕ) (k : PyVal)
  /-- `p.set_offset(a, b)` -/
  | setOffset (i : ℕ) (a b : ℝ)

/-- add an object (`__init__` sets the offsets to 0) -/
def THeap.alloc (h : THeap) (n : TNode) : Except PyErr ℕ × THeap :=
  (.ok h.size, { size := h.size + 1, obj := Function.update h.obj h.size ⟨0, 0, n⟩ })

/-- execution of a statement; the result is the reference that the expression returns. A number that is not a
reference to an object stands for something that is not a transverse profile: the constructors refuse it
(`transverse_profile.py:109-111, 138-142`; `int`, `float` and `complex` factors are accepted), and it has no
method `set_offset`. -/
noncomputable def THeap.step (h : THeap) : TOp → Except PyErr ℕ × THeap
  | .new f => h.alloc (.leaf f)
  | .sum parts => if ∀ j ∈ parts, j < h.size then h.alloc (.summed parts) else (.error .assertion, h)
  | .scale j k => match k with
    | .other => (.error .assertion, h)
    | k => if j < h.size then h.alloc (.scaled j k.toC) else (.error .assertion, h)
  | .setOffset i a b =>
    if i < h.size then
      (.ok i, { h with obj := Function.update h.obj i { h.obj i with xOffset := a, yOffset := b } })
    else (.error .attribute, h)

/-- a whole program -/
noncomputable def THeap.run (h : THeap) (ops : List TOp) : THeap := ops.foldl (fun h op => (h.step op).2) h

end Lasy
