import Verif.Model.GridHeap
import Verif.Lemmas.Grid

/-!
# C04: arrays handed out or handed in are isolated from the grid
-/

namespace Lasy
open Spec

variable {s : Shape}

/-- what relates a heap to a world of values -/
structure World.Rel (w : World s) (v : Values s) : Prop where
  t_lt : w.tRef < w.next
  s_lt : w.sRef < w.next
  ne : w.tRef ≠ w.sRef
  c_lt : ∀ p ∈ w.client, p < w.next
  nodup : w.client.Nodup
  t_nin : w.tRef ∉ w.client
  s_nin : w.sRef ∉ w.client
  mine : w.client.map w.heap = v.mine
  t_arr : ∃ f : Field s, w.heap w.tRef = Arr.toNd ⟨.c128, f⟩ ∧
    (w.tValid = true → v.field = some f)
  s_arr : ∃ f : Field s, w.heap w.sRef = Arr.toNd ⟨.c128, f⟩ ∧
    (w.sValid = true → v.field = some (dft f))
  none : w.tValid = false → w.sValid = false → v.field = none

theorem World.Rel.init : (World.init s).Rel (⟨[], Option.none⟩ : Values s) := by
  refine ⟨?_, ?_, ?_, ?_, ?_, ?_, ?_, ?_, ?_, ?_, ?_⟩ <;> simp [World.init]
  · exact ⟨_, rfl⟩
  · exact ⟨_, rfl⟩

theorem map_update_of_notMem {l : List ℕ} {h : ℕ → NdArray} {p : ℕ} {a : NdArray} (hp : p ∉ l) :
    l.map (Function.update h p a) = l.map h := by
  apply List.map_congr_left
  intro q hq
  rw [Function.update_of_ne]
  rintro rfl
  exact hp hq

theorem map_update_nodup {l : List ℕ} {h : ℕ → NdArray} {p i : ℕ} {a : NdArray} (hn : l.Nodup)
    (hi : l[i]? = some p) : l.map (Function.update h p a) = (l.map h).set i a := by
  apply List.ext_getElem?
  intro k
  obtain ⟨hl, hil⟩ := List.getElem?_eq_some_iff.mp hi
  rw [List.getElem?_map, List.getElem?_set]
  by_cases hk : i = k
  · subst hk
    simp [hl, hil]
  · simp only [hk, if_false, List.getElem?_map]
    rcases hkp : l[k]? with _ | q
    · simp
    · simp only [Option.map_some]
      rw [Function.update_of_ne]
      rintro rfl
      obtain ⟨hl2, hkl⟩ := List.getElem?_eq_some_iff.mp hkp
      exact hk ((List.Nodup.getElem_inj_iff hn).mp (hil.trans hkl.symm))

/-- handing out a copy of a grid array -/
theorem World.Rel.handOut {w : World s} {v : Values s} (h : w.Rel v) (p : ℕ) :
    (w.handOutCopy p).Rel { v with mine := v.mine ++ [w.heap p] } := by
  have hc : w.next ∉ w.client := fun hm => lt_irrefl _ (h.c_lt _ hm)
  have ht : w.tRef ≠ w.next := ne_of_lt h.t_lt
  have hs : w.sRef ≠ w.next := ne_of_lt h.s_lt
  refine ⟨?_, ?_, ?_, ?_, ?_, ?_, ?_, ?_, ?_, ?_, ?_⟩ <;>
    simp only [World.handOutCopy, World.alloc]
  · exact Nat.lt_succ_of_lt h.t_lt
  · exact Nat.lt_succ_of_lt h.s_lt
  · exact h.ne
  · intro q hq
    rcases List.mem_append.mp hq with hq | hq
    · exact Nat.lt_succ_of_lt (h.c_lt q hq)
    · simp at hq; omega
  · exact List.nodup_append.mpr ⟨h.nodup, by simp, by simp; intro a ha; rintro rfl; exact hc ha⟩
  · simp [h.t_nin, ht]
  · simp [h.s_nin, hs]
  · simp [map_update_of_notMem hc, h.mine]
  · rw [Function.update_of_ne ht]; exact h.t_arr
  · rw [Function.update_of_ne hs]; exact h.s_arr
  · exact h.none

/-- an FFT that refreshes the temporal cache -/
theorem World.Rel.s2t {w : World s} {v : Values s} (h : w.Rel v) (hs : w.sValid = true) :
    w.spectral2temporal.Rel v ∧
      ∃ f, v.field = some f ∧ w.spectral2temporal.heap w.spectral2temporal.tRef =
        Arr.toNd (s := s) ⟨.c128, f⟩ := by
  have hc : w.next ∉ w.client := fun hm => lt_irrefl _ (h.c_lt _ hm)
  obtain ⟨F, hF, hv⟩ := h.s_arr
  have hF2 : (w.heap w.sRef).content s = F := by rw [hF, Arr.toNd_content]
  refine ⟨?_, dft F, hv hs, ?_⟩
  · refine ⟨?_, ?_, ?_, ?_, ?_, ?_, ?_, ?_, ?_, ?_, ?_⟩ <;>
      simp only [World.spectral2temporal, World.alloc]
    · exact Nat.lt_succ_self _
    · exact Nat.lt_succ_of_lt h.s_lt
    · exact (ne_of_lt h.s_lt).symm
    · exact fun q hq => Nat.lt_succ_of_lt (h.c_lt q hq)
    · exact h.nodup
    · exact hc
    · exact h.s_nin
    · rw [map_update_of_notMem hc, h.mine]
    · refine ⟨dft F, ?_, fun _ => hv hs⟩
      rw [hF2, Function.update_self, dft_eq]
    · rw [Function.update_of_ne (ne_of_lt h.s_lt)]; exact h.s_arr
    · simp
  · simp only [World.spectral2temporal, World.alloc]
    rw [hF2, Function.update_self, dft_eq]

/-- an FFT that refreshes the spectral cache -/
theorem World.Rel.t2s {w : World s} {v : Values s} (h : w.Rel v) (ht : w.tValid = true) :
    w.temporal2spectral.Rel v ∧
      ∃ f, v.field = some f ∧ w.temporal2spectral.heap w.temporal2spectral.sRef =
        Arr.toNd (s := s) ⟨.c128, idft f⟩ := by
  have hc : w.next ∉ w.client := fun hm => lt_irrefl _ (h.c_lt _ hm)
  obtain ⟨F, hF, hv⟩ := h.t_arr
  have hF2 : (w.heap w.tRef).content s = F := by rw [hF, Arr.toNd_content]
  refine ⟨?_, F, hv ht, ?_⟩
  · refine ⟨?_, ?_, ?_, ?_, ?_, ?_, ?_, ?_, ?_, ?_, ?_⟩ <;>
      simp only [World.temporal2spectral, World.alloc]
    · exact Nat.lt_succ_of_lt h.t_lt
    · exact Nat.lt_succ_self _
    · exact (ne_of_lt h.t_lt)
    · exact fun q hq => Nat.lt_succ_of_lt (h.c_lt q hq)
    · exact h.nodup
    · exact h.t_nin
    · exact hc
    · rw [map_update_of_notMem hc, h.mine]
    · rw [Function.update_of_ne (ne_of_lt h.t_lt)]; exact h.t_arr
    · refine ⟨idft F, ?_, fun _ => by rw [dft_idft]; exact hv ht⟩
      rw [hF2, Function.update_self, idft_eq]
    · simp
  · simp only [World.temporal2spectral, World.alloc]
    rw [hF2, Function.update_self, idft_eq]

/-- every action keeps the relation and raises the same exception -/
theorem World.Rel.step {w : World s} {v : Values s} (h : w.Rel v) (a : Act) :
    (w.step a).1 = (v.step a).1 ∧ (w.step a).2.Rel (v.step a).2 := by
  have hc : w.next ∉ w.client := fun hm => lt_irrefl _ (h.c_lt _ hm)
  have ht : w.tRef ≠ w.next := ne_of_lt h.t_lt
  have hs : w.sRef ≠ w.next := ne_of_lt h.s_lt
  have hget : ∀ i : ℕ, v.mine[i]? = (w.client[i]?).map w.heap := by
    intro i; rw [← h.mine, List.getElem?_map]
  obtain ⟨ft, hft, hft2⟩ := h.t_arr
  obtain ⟨fs, hfs, hfs2⟩ := h.s_arr
  cases a with
  | new a =>
    refine ⟨rfl, ?_⟩
    refine ⟨?_, ?_, ?_, ?_, ?_, ?_, ?_, ?_, ?_, ?_, ?_⟩ <;>
      simp only [World.step, World.alloc, Values.step]
    · exact Nat.lt_succ_of_lt h.t_lt
    · exact Nat.lt_succ_of_lt h.s_lt
    · exact h.ne
    · intro q hq
      rcases List.mem_append.mp hq with hq | hq
      · exact Nat.lt_succ_of_lt (h.c_lt q hq)
      · simp at hq; omega
    · exact List.nodup_append.mpr ⟨h.nodup, by simp, by simp; intro a ha; rintro rfl; exact hc ha⟩
    · simp [h.t_nin, ht]
    · simp [h.s_nin, hs]
    · simp [map_update_of_notMem hc, h.mine]
    · rw [Function.update_of_ne ht]; exact h.t_arr
    · rw [Function.update_of_ne hs]; exact h.s_arr
    · exact h.none
  | write i idx x =>
    simp only [World.step, Values.step, hget]
    rcases hi : w.client[i]? with _ | p
    · exact ⟨rfl, h⟩
    · simp only [Option.map_some]
      have hpm : p ∈ w.client := List.mem_of_getElem? hi
      refine ⟨trivial, ?_⟩
      refine ⟨h.t_lt, h.s_lt, h.ne, h.c_lt, h.nodup, h.t_nin, h.s_nin, ?_, ?_, ?_, h.none⟩ <;>
        simp only [World.store]
      · rw [map_update_nodup h.nodup hi, h.mine]
      · rw [Function.update_of_ne (by rintro rfl; exact h.t_nin hpm)]; exact h.t_arr
      · rw [Function.update_of_ne (by rintro rfl; exact h.s_nin hpm)]; exact h.s_arr
  | setTemporal i =>
    simp only [World.step, Values.step, hget]
    rcases hi : w.client[i]? with _ | p
    · exact ⟨rfl, h⟩
    · have hpm : p ∈ w.client := List.mem_of_getElem? hi
      simp only [Option.map_some, World.setTemporal, hft, Arr.toNd_shape]
      by_cases hf : fits s (w.heap p)
      · have hf' : (w.heap p).shape = s.toList ∧ (w.heap p).dtype = .c128 := hf
        rw [if_pos hf', if_pos hf]
        refine ⟨rfl, h.t_lt, h.s_lt, h.ne, h.c_lt, h.nodup, h.t_nin, h.s_nin, ?_, ?_, ?_, ?_⟩ <;>
          simp only [World.copyInto, World.store]
        · rw [map_update_of_notMem h.t_nin, h.mine]
        · rw [Function.update_self, hft]
          exact ⟨_, rfl, fun _ => rfl⟩
        · rw [Function.update_of_ne h.ne.symm]
          exact ⟨fs, hfs, by simp⟩
        · simp
      · have hf' : ¬ ((w.heap p).shape = s.toList ∧ (w.heap p).dtype = .c128) := hf
        rw [if_neg hf', if_neg hf]
        exact ⟨rfl, h⟩
  | setSpectral i =>
    simp only [World.step, Values.step, hget]
    rcases hi : w.client[i]? with _ | p
    · exact ⟨rfl, h⟩
    · have hpm : p ∈ w.client := List.mem_of_getElem? hi
      simp only [Option.map_some, World.setSpectral, hfs, Arr.toNd_shape]
      by_cases hf : fits s (w.heap p)
      · have hf' : (w.heap p).shape = s.toList ∧ (w.heap p).dtype = .c128 := hf
        rw [if_pos hf', if_pos hf]
        refine ⟨rfl, h.t_lt, h.s_lt, h.ne, h.c_lt, h.nodup, h.t_nin, h.s_nin, ?_, ?_, ?_, ?_⟩ <;>
          simp only [World.copyInto, World.store]
        · rw [map_update_of_notMem h.s_nin, h.mine]
        · rw [Function.update_of_ne h.ne]
          exact ⟨ft, hft, by simp⟩
        · rw [Function.update_self, hfs]
          exact ⟨_, rfl, fun _ => rfl⟩
        · simp
      · have hf' : ¬ ((w.heap p).shape = s.toList ∧ (w.heap p).dtype = .c128) := hf
        rw [if_neg hf', if_neg hf]
        exact ⟨rfl, h⟩
  | getTemporal =>
    simp only [World.step, Values.step, World.getTemporal]
    by_cases hv : w.tValid = true
    · simp only [hv, if_true, hft2 hv, true_and]
      rw [← hft]
      have := h.handOut w.tRef
      simpa [hft2 hv] using this
    · by_cases hv2 : w.sValid = true
      · simp only [hv, hv2, if_true]
        obtain ⟨h2, f, hf, hf2⟩ := h.s2t hv2
        simp only [hf]
        refine ⟨by simp, ?_⟩
        have := h2.handOut w.spectral2temporal.tRef
        rw [hf2] at this
        simpa [hf] using this
      · have := h.none (by simpa using hv) (by simpa using hv2)
        simp only [hv, hv2, this]
        exact ⟨by simp, by simpa using h⟩
  | getSpectral =>
    simp only [World.step, Values.step, World.getSpectral]
    by_cases hv : w.sValid = true
    · simp only [hv, if_true, hfs2 hv, true_and, idft_dft]
      rw [← hfs]
      have := h.handOut w.sRef
      simpa [hfs2 hv] using this
    · by_cases hv2 : w.tValid = true
      · simp only [hv, hv2, if_true]
        obtain ⟨h2, f, hf, hf2⟩ := h.t2s hv2
        simp only [hf]
        refine ⟨by simp, ?_⟩
        have := h2.handOut w.temporal2spectral.sRef
        rw [hf2] at this
        simpa [hf] using this
      · have := h.none (by simpa using hv2) (by simpa using hv)
        simp only [hv, hv2, this]
        exact ⟨by simp, by simpa using h⟩

/-- **C04.** For every interleaving of grid calls and in-place writes by the caller to any array it
holds, everything the caller sees — exceptions and the values of all its arrays after every action — is
what it would see if arrays were values: writes to a caller's array change neither the grid nor any
other array, and grid calls change no array the caller already holds. -/
theorem C04_isolation (as : List Act) :
    (World.init s).trace as = (⟨[], none⟩ : Values s).trace as := by
  have key : ∀ (as : List Act) (w : World s) (v : Values s), w.Rel v → w.trace as = v.trace as := by
    intro as
    induction as with
    | nil => intros; rfl
    | cons a as ih =>
      intro w v h
      obtain ⟨h1, h2⟩ := h.step a
      simp only [World.trace, Values.trace, h1, h2.mine, ih _ _ h2]
  exact key as _ _ World.Rel.init

/-- an interleaving: make an array, store it, overwrite it, read the grid, overwrite the result, read
again: the third array still holds the original value, both in the heap model and in the specification -/
example (f : Field ⟨1, 1, 2⟩) (v v' : ℂ) :
    ((World.init ⟨1, 1, 2⟩).trace
      [.new (Arr.toNd ⟨.c128, f⟩), .setTemporal 0, .write 0 [0, 0, 0] v, .getTemporal,
       .write 1 [0, 0, 1] v', .getTemporal]).getLast? =
    some (none, [poke (Arr.toNd ⟨.c128, f⟩) [0, 0, 0] v, poke (Arr.toNd ⟨.c128, f⟩) [0, 0, 1] v',
      Arr.toNd ⟨.c128, f⟩]) := by
  have hfit : fits ⟨1, 1, 2⟩ (Arr.toNd (s := ⟨1, 1, 2⟩) ⟨.c128, f⟩) := by simp [fits, Shape.toList]
  rw [C04_isolation]
  simp [Values.trace, Values.step, hfit, contents_eq]

end Lasy
