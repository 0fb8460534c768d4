import Verif.Model.Grid
import Verif.Spec.Isolation

/-!
# `Grid` with array references

The same methods as in `Model/Grid.lean`, for an envelope grid, but on a heap of mutable arrays: the
attributes `temporal_field` and `spectral_field` are references, a setter copies *into* the array it
refers to, an FFT binds the attribute to a fresh array, a getter hands out a reference to a fresh copy.
-/

namespace Lasy
open Spec

/-- caller and grid on one heap -/
structure World (s : Shape) where
  /-- array stored at an address -/
  heap : ℕ → NdArray
  /-- first unused address -/
  next : ℕ
  /-- addresses of the arrays the caller holds -/
  client : List ℕ
  /-- `self.temporal_field` (`grid.py:71`) -/
  tRef : ℕ
  /-- `self.temporal_field_valid` (`grid.py:72`) -/
  tValid : Bool
  /-- `self.spectral_field` (`grid.py:73`) -/
  sRef : ℕ
  /-- `self.spectral_field_valid` (`grid.py:74`) -/
  sValid : Bool

namespace World
variable {s : Shape}

/-- a fresh envelope grid and a caller without arrays (`grid.py:71-74`) -/
def init (s : Shape) : World s where
  heap := fun _ => Arr.toNd (s := s) ⟨.c128, fun _ _ _ => 0⟩
  next := 2
  client := []
  tRef := 0
  tValid := false
  sRef := 1
  sValid := false

/-- store `a` at a fresh address -/
def alloc (w : World s) (a : NdArray) : ℕ × World s :=
  (w.next, { w with heap := Function.update w.heap w.next a, next := w.next + 1 })

/-- overwrite the array at an address in place -/
def store (w : World s) (p : ℕ) (a : NdArray) : World s :=
  { w with heap := Function.update w.heap p a }

/-- `dst[:, :, :] = src`: element-wise copy into an existing array, which keeps shape and dtype -/
def copyInto (w : World s) (dst src : ℕ) : World s :=
  w.store dst (Arr.toNd (s := s) ⟨(w.heap dst).dtype, (w.heap src).content s⟩)

/-- `Grid.set_temporal_field` (`grid.py:94-107`) -/
def setTemporal (w : World s) (p : ℕ) : Option PyErr × World s :=
  if (w.heap p).shape = (w.heap w.tRef).shape ∧ (w.heap p).dtype = .c128 then
    (none, { w.copyInto w.tRef p with tValid := true, sValid := false })
  else (some .assertion, w)

/-- `Grid.set_spectral_field` (`grid.py:109-122`) -/
def setSpectral (w : World s) (p : ℕ) : Option PyErr × World s :=
  if (w.heap p).shape = (w.heap w.sRef).shape ∧ (w.heap p).dtype = .c128 then
    (none, { w.copyInto w.sRef p with sValid := true, tValid := false })
  else (some .assertion, w)

/-- `Grid.spectral2temporal_fft` (`grid.py:181-191`): `np.fft.fft` returns a new array -/
noncomputable def spectral2temporal (w : World s) : World s :=
  let (p, w) := w.alloc (Arr.toNd (s := s) ⟨.c128, fun i j => fft ((w.heap w.sRef).content s i j)⟩)
  { w with tRef := p, tValid := true }

/-- `Grid.temporal2spectral_fft` (`grid.py:169-179`) -/
noncomputable def temporal2spectral (w : World s) : World s :=
  let (p, w) := w.alloc (Arr.toNd (s := s) ⟨.c128, fun i j => ifft ((w.heap w.tRef).content s i j)⟩)
  { w with sRef := p, sValid := true }

/-- `return a.copy()`, with the caller binding the result -/
def handOutCopy (w : World s) (p : ℕ) : World s :=
  let (q, w) := w.alloc (w.heap p)
  { w with client := w.client ++ [q] }

/-- `Grid.get_temporal_field` (`grid.py:124-144`) -/
noncomputable def getTemporal (w : World s) : Option PyErr × World s :=
  if w.tValid then (none, w.handOutCopy w.tRef)
  else if w.sValid then
    let w := w.spectral2temporal
    (none, w.handOutCopy w.tRef)
  else (some .value, w)

/-- `Grid.get_spectral_field` (`grid.py:146-167`); `is_envelope` holds -/
noncomputable def getSpectral (w : World s) : Option PyErr × World s :=
  if w.sValid then (none, w.handOutCopy w.sRef)
  else if w.tValid then
    let w := w.temporal2spectral
    (none, w.handOutCopy w.sRef)
  else (some .value, w)

/-- one action of the caller -/
noncomputable def step (w : World s) : Act → Option PyErr × World s
  | .new a =>
      let (q, w) := w.alloc a
      (none, { w with client := w.client ++ [q] })
  | .write i idx v =>
      match w.client[i]? with
      | some p => (none, w.store p (poke (w.heap p) idx v))
      | none => (some .key, w)
  | .setTemporal i =>
      match w.client[i]? with
      | some p => w.setTemporal p
      | none => (some .key, w)
  | .setSpectral i =>
      match w.client[i]? with
      | some p => w.setSpectral p
      | none => (some .key, w)
  | .getTemporal => w.getTemporal
  | .getSpectral => w.getSpectral

/-- what the caller sees along a history -/
noncomputable def trace (w : World s) : List Act → List (Option PyErr × List NdArray)
  | [] => []
  | a :: as => ((w.step a).1, (w.step a).2.client.map (w.step a).2.heap) :: (w.step a).2.trace as

end World
end Lasy
