import Verif.Lemmas.Query
import Verif.Props.Run
/-
C10 fill, C11 find, C12 equal, C13 and C14 count.
`S` ranges over all shift semantics, so every `ok` below also shows that no oversized shift is performed.
-/
namespace BitLib
variable {w : Nat}

/-- C10: `fill` sets exactly the bits of the range. -/
theorem C10_fill (S : ShiftSem w) (m : Mem w) (first last : BitIter w) (v : Bool) (hr : Range m first last) :
    ∃ m', fill S first last v m = .ok ((), m') ∧
      ∀ i, bitAt m' i = if first.addr ≤ i ∧ i < last.addr then some v else bitAt m i := by
  obtain ⟨_, m', h, hm⟩ := wp_fill S (v := v) hr.1 hr.2 hr.3 hr.4
    (Q := fun _ m' => ∀ i, bitAt m' i = if first.addr ≤ i ∧ i < last.addr then some v else bitAt m i) (fun m' h i => h i)
  exact ⟨m', h, hm⟩

/-- C10: only words of the range are accessed. -/
theorem C10_fill_footprint (S : ShiftSem w) (m : Mem w) (first last : BitIter w) (v : Bool) (hr : Range m first last) :
    ∃ m', fill S first last v (m.only (HoldsBit w first.addr last.addr)) = .ok ((), m') := by
  obtain ⟨m', h, _⟩ := C10_fill S _ first last v (hr.only (fun _ h => h))
  exact ⟨m', h⟩

example : Range (memOf [0xa5#8, 0x3c#8, 0x99#8]) ⟨0, 6⟩ ⟨2, 3⟩ :=
  range_memOf (by decide) (by decide) (by decide) (by decide) (by decide)

example : runOn (fill S8 ⟨0, 6⟩ ⟨2, 3⟩ true) [0x25#8, 0x3c#8, 0x90#8] = .ok ((), [0xe5#8, 0xff#8, 0x97#8]) := by decide +kernel

/-- C11: `find` returns the first position with the value, or `last`, and leaves memory alone.
For an empty range whose iterator points inside a word, that word is read, so it has to exist. -/
theorem C11_find (S : ShiftSem w) (m : Mem w) (first last : BitIter w) (v : Bool) (hr : Range m first last)
    (hne : first.addr < last.addr ∨ first.pos = 0 ∨ (bitAt m first.addr).isSome) :
    ∃ r, find S first last v m = .ok (r, m) ∧ r.Valid ∧ FirstAt m v first.addr last.addr r.addr := by
  obtain ⟨r, m', h, h1, h2, rfl⟩ := wp_find S (v := v) hr.1 hr.2 hr.3 hr.4 hne
    (Q := fun r m' => r.Valid ∧ FirstAt m v first.addr last.addr r.addr ∧ m' = m) (fun r h1 h2 => ⟨h1, h2, rfl⟩)
  exact ⟨r, h, h1, h2⟩

/-- C11: on a non-empty range only words of the range are read. -/
theorem C11_find_footprint (S : ShiftSem w) (m : Mem w) (first last : BitIter w) (v : Bool) (hr : Range m first last)
    (hne : first.addr < last.addr) :
    ∃ r m', find S first last v (m.only (HoldsBit w first.addr last.addr)) = .ok (r, m') := by
  obtain ⟨r, h, _⟩ := C11_find S _ first last v (hr.only (fun _ h => h)) (Or.inl hne)
  exact ⟨r, _, h⟩

/-- The extra hypothesis of C11 cannot be dropped: on an empty range inside an inaccessible word `find` reads that word. -/
theorem C11_empty_range_reads : find S8 ⟨0, 3⟩ ⟨0, 3⟩ true (memOf []) = .error .outOfBounds := by
  rfl

example : Range (memOf [0xa5#8, 0x00#8, 0x90#8]) ⟨0, 6⟩ ⟨2, 7⟩ :=
  range_memOf (by decide) (by decide) (by decide) (by decide) (by decide)

example : runOn (find S8 ⟨1, 2⟩ ⟨2, 7⟩ true) [0xa5#8, 0x03#8, 0x90#8] = .ok (⟨2, 4⟩, [0xa5#8, 0x03#8, 0x90#8]) := by decide +kernel

/-- C12: `equal` decides whether the two ranges hold the same bits, and leaves memory alone. -/
theorem C12_equal (S : ShiftSem w) (m : Mem w) (first last d : BitIter w) (hr : Range m first last)
    (hd : Dest m d (len first last)) :
    ∃ b, equal S first last d m = .ok (b, m) ∧ (b = true ↔ EqBits m first.addr d.addr (len first last)) := by
  obtain ⟨b, m', h, h1, rfl⟩ := wp_equal S hr.1 hr.2 hd.1 hr.3 hr.4 hd.2
    (Q := fun b m' => (b = true ↔ EqBits m first.addr d.addr (len first last)) ∧ m' = m) (fun b h => ⟨h, rfl⟩)
  exact ⟨b, h, h1⟩

/-- C12: only words of the ranges are read. -/
theorem C12_equal_footprint (S : ShiftSem w) (m : Mem w) (first last d : BitIter w) (hr : Range m first last)
    (hd : Dest m d (len first last)) :
    ∃ b m', equal S first last d (m.only fun c => HoldsBit w first.addr last.addr c ∨
      HoldsBit w d.addr (d.addr + len first last) c) = .ok (b, m') := by
  obtain ⟨b, h, _⟩ := C12_equal S _ first last d (hr.only (fun c h => Or.inl h)) (hd.only (fun c h => Or.inr h))
  exact ⟨b, _, h⟩

example : Range (memOf [0xa5#8, 0x3c#8, 0x99#8, 0x0f#8]) ⟨0, 3⟩ ⟨1, 5⟩ ∧
    Dest (memOf [0xa5#8, 0x3c#8, 0x99#8, 0x0f#8]) ⟨2, 1⟩ (len (⟨0, 3⟩ : BitIter 8) ⟨1, 5⟩) :=
  ⟨range_memOf (by decide) (by decide) (by decide) (by decide) (by decide), dest_memOf (by decide) (by decide) (by decide)⟩

/-- Both answers occur: the same 10 bits at two alignments, and a difference in the very last bit. -/
example : (runOn (equal S8 ⟨0, 3⟩ ⟨1, 5⟩ ⟨2, 1⟩) [0xa8#8, 0x1a#8, 0xaa#8, 0x06#8]).map (·.1) = .ok true ∧
    (runOn (equal S8 ⟨0, 3⟩ ⟨1, 5⟩ ⟨2, 1⟩) [0xa8#8, 0x1a#8, 0xaa#8, 0x02#8]).map (·.1) = .ok false := by decide +kernel

/-- C13: `count` returns the number of bits equal to `v` of a non-empty range and leaves memory alone. -/
theorem C13_count (S : ShiftSem w) (m : Mem w) (first last : BitIter w) (v : Bool) (hr : Range m first last)
    (hne : first.addr < last.addr) :
    count S first last v m = .ok ((countIn m v first.addr (len first last).toNat : Int), m) := by
  obtain ⟨b, m', h, rfl, rfl⟩ := wp_count S (v := v) hr.1 hr.2 hr.3 hr.4 (Or.inl hne)
    (Q := fun b m' => b = (countIn m v first.addr (len first last).toNat : Int) ∧ m' = m) ⟨rfl, rfl⟩
  exact h

/-- C13: the ones and the zeros add up to the length. -/
theorem C13_count_complement (S : ShiftSem w) (m : Mem w) (first last : BitIter w) (hr : Range m first last)
    (hne : first.addr < last.addr) :
    ∃ a b, count S first last true m = .ok (a, m) ∧ count S first last false m = .ok (b, m) ∧ a + b = len first last := by
  refine ⟨_, _, C13_count S m first last true hr hne, C13_count S m first last false hr hne, ?_⟩
  have := countIn_compl m first.addr (len first last).toNat (by
    intro i h1 h2
    exact hr.4 i (by omega) (by unfold len at h2; omega))
  unfold len at *
  omega

/-- C13: only words of the range are read. -/
theorem C13_count_footprint (S : ShiftSem w) (m : Mem w) (first last : BitIter w) (v : Bool) (hr : Range m first last)
    (hne : first.addr < last.addr) :
    ∃ b m', count S first last v (m.only (HoldsBit w first.addr last.addr)) = .ok (b, m') :=
  ⟨_, _, C13_count S _ first last v (hr.only (fun _ h => h)) hne⟩

example : Range (memOf [0xa5#8, 0x3c#8, 0x99#8]) ⟨0, 6⟩ ⟨2, 3⟩ ∧ (⟨0, 6⟩ : BitIter 8).addr < (⟨2, 3⟩ : BitIter 8).addr :=
  ⟨range_memOf (by decide) (by decide) (by decide) (by decide) (by decide), by decide⟩

example : (runOn (count S8 ⟨0, 6⟩ ⟨2, 3⟩ true) [0xa5#8, 0x3c#8, 0x99#8]).map (·.1) = .ok 6 ∧
    (runOn (count S8 ⟨0, 6⟩ ⟨2, 3⟩ false) [0xa5#8, 0x3c#8, 0x99#8]).map (·.1) = .ok 7 := by decide +kernel

/-- C14 is false: `count` over the empty range of an empty buffer reads outside the buffer. -/
theorem C14_refuted :
    ¬ ∀ (first : BitIter 8) (v : Bool), first.Valid → count S8 first first v (memOf []) = .ok (0, memOf []) := by
  intro h
  have := h ⟨0, 0⟩ true (by decide)
  cases this

/-- C14, what remains true (missing: the case where the word designated by `first` is not accessible, where the model is
out of bounds, see `C14_refuted`): if that word exists, the count of an empty range is 0. -/
theorem C14_count_empty_partial (S : ShiftSem w) (m : Mem w) (first : BitIter w) (v : Bool) (hf : first.Valid)
    (hm : (bitAt m first.addr).isSome) : count S first first v m = .ok (0, m) := by
  obtain ⟨b, m', h, rfl, rfl⟩ := wp_count S (v := v) (first := first) (last := first) hf hf (by omega) (by intro i h1 h2; omega) (Or.inr hm)
    (Q := fun b m' => b = (countIn m v first.addr (first.addr - first.addr).toNat : Int) ∧ m' = m) ⟨rfl, rfl⟩
  rw [h]
  simp [countIn]

example : (bitAt (memOf [0xa5#8]) (⟨0, 4⟩ : BitIter 8).addr).isSome := by decide

/-- C14 exactly: the count of an empty range is 0 if the word designated by `first` is accessible, and reads outside memory if it is not. -/
theorem C14_exact (S : ShiftSem w) (m : Mem w) (first : BitIter w) (v : Bool) (hf : first.Valid) :
    count S first first v m = if (bitAt m first.addr).isSome then .ok (0, m) else .error .outOfBounds := by
  by_cases hm : (bitAt m first.addr).isSome
  · rw [if_pos hm, C14_count_empty_partial S m first v hf hm]
  · rw [if_neg hm]
    have hf' : first.pos < w := hf
    have hnone : m first.base = none := by
      have h0 := bitAt_word m first.base first.pos hf'
      rw [show first.base * (w : Int) + (first.pos : Int) = first.addr from rfl] at h0
      cases hc : m first.base with
      | none => rfl
      | some x => rw [h0, hc] at hm; exact absurd rfl hm
    unfold count
    refine fails_bind ((wp_assertViable).2 ⟨Int.le_refl _, ?_⟩)
    rw [if_neg (by simp)]
    exact fails_bind_left (fails_load hnone)

/-- Both cases occur. -/
example : (⟨0, 4⟩ : BitIter 8).Valid ∧ (bitAt (memOf [0xa5#8]) (⟨0, 4⟩ : BitIter 8).addr).isSome ∧
    ¬ (bitAt (memOf [0xa5#8]) (⟨1, 0⟩ : BitIter 8).addr).isSome := by decide

end BitLib
