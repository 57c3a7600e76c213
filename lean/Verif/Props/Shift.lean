import Verif.Lemmas.Reverse
import Verif.Lemmas.Swap
import Verif.Props.Run
/-
C15 reverse, C16 shift_left, C17 shift_right, C22 swap_ranges.
`S` ranges over all shift semantics. `S.FullShiftOk` (words narrower than `int`, or oversized shifts give some word) is needed only in
the cases where the code shifts by the word width (C18).
-/
namespace BitLib
variable {w : Nat}

/-- C15: `reverse` mirrors the range and changes nothing else.
`hne`: for an empty range inside a word, that word is read, so it has to exist.
`hfull`: the case "starts inside a word, ends at the end of the same word" contains an oversized shift for 32/64-bit words. -/
theorem C15_reverse (S : ShiftSem w) (m : Mem w) (first last : BitIter w) (hr : Range m first last)
    (hne : first.addr < last.addr ∨ first.pos = 0 ∨ (bitAt m first.addr).isSome)
    (hfull : ¬ (first.pos ≠ 0 ∧ last.addr = (first.base + 1) * w) ∨ S.FullShiftOk) :
    ∃ m', reverse S first last m = .ok ((), m') ∧ Reversed m m' first.addr last.addr := by
  obtain ⟨_, m', h, hm⟩ := wp_reverse S hr.1 hr.2 hr.3 hr.4 hne hfull
    (Q := fun _ m' => Reversed m m' first.addr last.addr) (fun _ h => h)
  exact ⟨m', h, hm⟩

/-- C15: for lenient shift semantics (and for 8/16-bit words) there is no alignment condition. -/
theorem C15_reverse_lenient (S : ShiftSem w) (hS : S.FullShiftOk) (m : Mem w) (first last : BitIter w) (hr : Range m first last)
    (hne : first.addr < last.addr) :
    ∃ m', reverse S first last m = .ok ((), m') ∧ Reversed m m' first.addr last.addr :=
  C15_reverse S m first last hr (Or.inl hne) (Or.inr hS)

/-- C15: only words of the range are accessed. -/
theorem C15_reverse_footprint (S : ShiftSem w) (m : Mem w) (first last : BitIter w) (hr : Range m first last)
    (hne : first.addr < last.addr) (hfull : ¬ (first.pos ≠ 0 ∧ last.addr = (first.base + 1) * w) ∨ S.FullShiftOk) :
    ∃ m', reverse S first last (m.only (HoldsBit w first.addr last.addr)) = .ok ((), m') := by
  obtain ⟨m', h, _⟩ := C15_reverse S _ first last (hr.only (fun _ h => h)) (Or.inl hne) hfull
  exact ⟨m', h⟩

/-- C15: applying `reverse` twice restores the memory. -/
theorem C15_reverse_involutive (S : ShiftSem w) (m : Mem w) (first last : BitIter w) (hr : Range m first last)
    (hne : first.addr < last.addr) (hfull : ¬ (first.pos ≠ 0 ∧ last.addr = (first.base + 1) * w) ∨ S.FullShiftOk) :
    ∃ m', reverse S first last m = .ok ((), m') ∧ reverse S first last m' = .ok ((), m) := by
  have hw : 0 < w := Nat.lt_of_le_of_lt (Nat.zero_le _) hr.1
  obtain ⟨m', h, hm⟩ := C15_reverse S m first last hr (Or.inl hne) hfull
  have hr' : Range m' first last := ⟨hr.1, hr.2, hr.3, by
    intro i h1 h2
    rw [hm i, if_pos ⟨h1, h2⟩]
    exact hr.4 _ (by omega) (by omega)⟩
  obtain ⟨m2, h', hm'⟩ := C15_reverse S m' first last hr' (Or.inl hne) hfull
  have : m2 = m := by
    apply mem_ext_bitAt hw
    intro i
    rw [hm' i]
    split_ifs with hi
    · rw [hm, if_pos (by omega)]; congr 1; omega
    · rw [hm, if_neg hi]
  rw [this] at h'
  exact ⟨m', h, h'⟩

/-- On an empty range inside an inaccessible word `reverse` reads that word. -/
theorem C15_empty_range_reads : reverse S8 ⟨0, 3⟩ ⟨0, 3⟩ (memOf []) = .error .outOfBounds := by rfl

example : Range (memOf [0xa5#8, 0x3c#8, 0x99#8]) ⟨0, 6⟩ ⟨2, 3⟩ ∧ (⟨0, 6⟩ : BitIter 8).addr < (⟨2, 3⟩ : BitIter 8).addr ∧
    ¬ ((⟨0, 6⟩ : BitIter 8).pos ≠ 0 ∧ (⟨2, 3⟩ : BitIter 8).addr = ((⟨0, 6⟩ : BitIter 8).base + 1) * (8 : Nat)) :=
  ⟨range_memOf (by decide) (by decide) (by decide) (by decide) (by decide), by decide, by decide⟩

/-- 13 bits `1 0 0 0 1 1 1 1 0 0 1 0 0` become `0 0 1 0 0 1 1 1 1 0 0 0 1`. -/
example : runOn (reverse S8 ⟨0, 6⟩ ⟨2, 3⟩) [0x65#8, 0x3c#8, 0x99#8] = .ok ((), [0x25#8, 0x79#8, 0x9c#8]) := by decide +kernel

/-- C16: effect of `shift_left` for `0 < n < last - first`.
`hfull`: on exactly one whole word the code shifts by the word width, undefined for 32/64-bit words. -/
theorem C16_shift_left (S : ShiftSem w) (m : Mem w) (first last : BitIter w) (n : Int) (hr : Range m first last)
    (h0 : 0 < n) (hn : n < len first last) (hfull : ¬ (first.pos = 0 ∧ len first last = w) ∨ S.FullShiftOk) :
    ∃ r m', shiftLeft S first last n m = .ok (r, m') ∧ r.Valid ∧ r.addr = last.addr - n ∧
      ShiftedL m m' first.addr last.addr n := by
  unfold len at *
  exact wp_shiftLeft S hr.1 hr.2 hr.3 hr.4 (hfull.imp (fun h h' => h ⟨h'.1, h'.2.1⟩) id)
    (Q := fun r m' => r.Valid ∧ r.addr = last.addr - n ∧ ShiftedL m m' first.addr last.addr n)
    (by omega) (by omega) (fun _ _ m' r h1 h2 h3 => ⟨h1, h2, h3⟩)

/-- C16: `n <= 0` returns `last` and leaves memory alone. -/
theorem C16_shift_left_nonpos (S : ShiftSem w) (m : Mem w) (first last : BitIter w) (n : Int) (hr : Range m first last)
    (h0 : n ≤ 0) : shiftLeft S first last n m = .ok (last, m) := by
  obtain ⟨r, m', h, rfl, rfl⟩ := wp_shiftLeft S hr.1 hr.2 hr.3 hr.4 (n := n) (Or.inl (by omega))
    (Q := fun r m' => r = last ∧ m' = m) (fun _ => ⟨rfl, rfl⟩) (by omega) (by omega)
  exact h

/-- C16: `n >= last - first > 0` returns `first` and leaves memory alone. -/
theorem C16_shift_left_all (S : ShiftSem w) (m : Mem w) (first last : BitIter w) (n : Int) (hr : Range m first last)
    (h0 : 0 < n) (hn : len first last ≤ n) : shiftLeft S first last n m = .ok (first, m) := by
  unfold len at hn
  obtain ⟨r, m', h, rfl, rfl⟩ := wp_shiftLeft S hr.1 hr.2 hr.3 hr.4 (n := n) (Or.inl (by omega))
    (Q := fun r m' => r = first ∧ m' = m) (by omega) (fun _ _ => ⟨rfl, rfl⟩) (by omega)
  exact h

/-- C16: only words of the range are accessed. -/
theorem C16_shift_left_footprint (S : ShiftSem w) (m : Mem w) (first last : BitIter w) (n : Int) (hr : Range m first last)
    (hfull : ¬ (first.pos = 0 ∧ len first last = w) ∨ S.FullShiftOk) :
    ∃ r m', shiftLeft S first last n (m.only (HoldsBit w first.addr last.addr)) = .ok (r, m') := by
  have hr' := hr.only (P := HoldsBit w first.addr last.addr) (fun _ h => h)
  by_cases h0 : n ≤ 0
  · exact ⟨_, _, C16_shift_left_nonpos S _ first last n hr' h0⟩
  by_cases h1 : len first last ≤ n
  · exact ⟨_, _, C16_shift_left_all S _ first last n hr' (by omega) h1⟩
  obtain ⟨r, m', h, _⟩ := C16_shift_left S _ first last n hr' (by omega) (by omega) hfull
  exact ⟨r, m', h⟩

example : Range (memOf [0xa5#8, 0x3c#8, 0x99#8]) ⟨0, 6⟩ ⟨2, 3⟩ ∧ (0 : Int) < 5 ∧ (5 : Int) < len (⟨0, 6⟩ : BitIter 8) ⟨2, 3⟩ ∧
    ¬ ((⟨0, 6⟩ : BitIter 8).pos = 0 ∧ len (⟨0, 6⟩ : BitIter 8) ⟨2, 3⟩ = (8 : Nat)) :=
  ⟨range_memOf (by decide) (by decide) (by decide) (by decide) (by decide), by decide, by decide, by decide⟩

/-- The range `1 0 0 0 1 1 1 1 0 0 1 0 0` shifted by 5 starts with `1 1 1 0 0 1 0 0`. -/
example : runOn (shiftLeft S8 ⟨0, 6⟩ ⟨2, 3⟩ 5) [0x65#8, 0x3c#8, 0x99#8] = .ok (⟨1, 6⟩, [0xe5#8, 0x09#8, 0x99#8]) := by decide +kernel

/-- C17: effect of `shift_right` for `0 < n < last - first`. -/
theorem C17_shift_right (S : ShiftSem w) (m : Mem w) (first last : BitIter w) (n : Int) (hr : Range m first last)
    (h0 : 0 < n) (hn : n < len first last) (hfull : ¬ (first.pos = 0 ∧ len first last = w) ∨ S.FullShiftOk) :
    ∃ r m', shiftRight S first last n m = .ok (r, m') ∧ r.Valid ∧ r.addr = first.addr + n ∧
      ShiftedR m m' first.addr last.addr n := by
  have hw : 0 < w := Nat.lt_of_le_of_lt (Nat.zero_le _) hr.1
  unfold len at *
  exact wp_shiftRight S hr.1 hr.2 hr.3 hr.4 (hfull.imp (fun h h' => h ⟨h'.1, h'.2.1⟩) id)
    (Q := fun r m' => r.Valid ∧ r.addr = first.addr + n ∧ ShiftedR m m' first.addr last.addr n)
    (by omega) (by omega) (fun _ _ m' h3 => ⟨BitIter.add_valid hw _ _, BitIter.add_addr hw _ _, h3⟩)

/-- C17: `n <= 0` returns `first` and leaves memory alone. -/
theorem C17_shift_right_nonpos (S : ShiftSem w) (m : Mem w) (first last : BitIter w) (n : Int) (hr : Range m first last)
    (h0 : n ≤ 0) : shiftRight S first last n m = .ok (first, m) := by
  obtain ⟨r, m', h, rfl, rfl⟩ := wp_shiftRight S hr.1 hr.2 hr.3 hr.4 (n := n) (Or.inl (by omega))
    (Q := fun r m' => r = first ∧ m' = m) (fun _ => ⟨rfl, rfl⟩) (by omega) (by omega)
  exact h

/-- C17: `n >= last - first`, `n > 0` returns `last` and leaves memory alone. -/
theorem C17_shift_right_all (S : ShiftSem w) (m : Mem w) (first last : BitIter w) (n : Int) (hr : Range m first last)
    (h0 : 0 < n) (hn : len first last ≤ n) : shiftRight S first last n m = .ok (last, m) := by
  unfold len at hn
  obtain ⟨r, m', h, rfl, rfl⟩ := wp_shiftRight S hr.1 hr.2 hr.3 hr.4 (n := n) (Or.inl (by omega))
    (Q := fun r m' => r = last ∧ m' = m) (by omega) (fun _ _ => ⟨rfl, rfl⟩) (by omega)
  exact h

/-- C17: only words of the range are accessed. -/
theorem C17_shift_right_footprint (S : ShiftSem w) (m : Mem w) (first last : BitIter w) (n : Int) (hr : Range m first last)
    (hfull : ¬ (first.pos = 0 ∧ len first last = w) ∨ S.FullShiftOk) :
    ∃ r m', shiftRight S first last n (m.only (HoldsBit w first.addr last.addr)) = .ok (r, m') := by
  have hr' := hr.only (P := HoldsBit w first.addr last.addr) (fun _ h => h)
  by_cases h0 : n ≤ 0
  · exact ⟨_, _, C17_shift_right_nonpos S _ first last n hr' h0⟩
  by_cases h1 : len first last ≤ n
  · exact ⟨_, _, C17_shift_right_all S _ first last n hr' (by omega) h1⟩
  obtain ⟨r, m', h, _⟩ := C17_shift_right S _ first last n hr' (by omega) (by omega) hfull
  exact ⟨r, m', h⟩

example : Range (memOf [0xa5#8, 0x3c#8, 0x99#8]) ⟨0, 6⟩ ⟨2, 3⟩ ∧ (0 : Int) < 5 ∧ (5 : Int) < len (⟨0, 6⟩ : BitIter 8) ⟨2, 3⟩ ∧
    ¬ ((⟨0, 6⟩ : BitIter 8).pos = 0 ∧ len (⟨0, 6⟩ : BitIter 8) ⟨2, 3⟩ = (8 : Nat)) :=
  ⟨range_memOf (by decide) (by decide) (by decide) (by decide) (by decide), by decide, by decide, by decide⟩

/-- The range `1 0 0 0 1 1 1 1 0 0 1 0 0` shifted by 5 ends with `1 0 0 0 1 1 1 1`. -/
example : (runOn (shiftRight S8 ⟨0, 6⟩ ⟨2, 3⟩ 5) [0x65#8, 0x3c#8, 0x99#8]).map (fun r => (r.1, r.2.map fun (x : BitVec 8) => x.toNat))
    = .ok (⟨1, 3⟩, [0x65, 0x8c, 0x9f]) := by decide +kernel

/-- C22: `swap_ranges` exchanges two disjoint ranges and returns the end of the second one. -/
theorem C22_swap_ranges (S : ShiftSem w) (m : Mem w) (first1 last1 first2 : BitIter w) (hr : Range m first1 last1)
    (hd : Dest m first2 (len first1 last1))
    (hdis : last1.addr ≤ first2.addr ∨ first2.addr + len first1 last1 ≤ first1.addr) :
    ∃ r m', swapRanges S first1 last1 first2 m = .ok (r, m') ∧ r.Valid ∧ r.addr = first2.addr + len first1 last1 ∧
      Swapped m m' first1.addr first2.addr (len first1 last1) := by
  have hw : 0 < w := Nat.lt_of_le_of_lt (Nat.zero_le _) hr.1
  have := hr.3
  unfold len at *
  exact wp_swapRanges S hr.1 hr.2 hd.1 hr.3 hr.4 hd.2 (Or.inr (Or.inr hdis))
    (Q := fun r m' => r.Valid ∧ r.addr = first2.addr + (last1.addr - first1.addr) ∧
      Swapped m m' first1.addr first2.addr (last1.addr - first1.addr))
    (fun m' h => ⟨BitIter.add_valid hw _ _, BitIter.add_addr hw _ _, h.swapped (by omega) (by omega)⟩)

/-- C22: only words of the two ranges are accessed. -/
theorem C22_swap_ranges_footprint (S : ShiftSem w) (m : Mem w) (first1 last1 first2 : BitIter w) (hr : Range m first1 last1)
    (hd : Dest m first2 (len first1 last1))
    (hdis : last1.addr ≤ first2.addr ∨ first2.addr + len first1 last1 ≤ first1.addr) :
    ∃ r m', swapRanges S first1 last1 first2 (m.only fun c => HoldsBit w first1.addr last1.addr c ∨
      HoldsBit w first2.addr (first2.addr + len first1 last1) c) = .ok (r, m') := by
  obtain ⟨r, m', h, _⟩ := C22_swap_ranges S _ first1 last1 first2 (hr.only (fun c h => Or.inl h)) (hd.only (fun c h => Or.inr h)) hdis
  exact ⟨r, m', h⟩

/-- C22: applied twice it is the identity. -/
theorem C22_swap_ranges_involutive (S : ShiftSem w) (m : Mem w) (first1 last1 first2 : BitIter w) (hr : Range m first1 last1)
    (hd : Dest m first2 (len first1 last1))
    (hdis : last1.addr ≤ first2.addr ∨ first2.addr + len first1 last1 ≤ first1.addr) :
    ∃ r m', swapRanges S first1 last1 first2 m = .ok (r, m') ∧ swapRanges S first1 last1 first2 m' = .ok (r, m) := by
  have hw : 0 < w := Nat.lt_of_le_of_lt (Nat.zero_le _) hr.1
  obtain ⟨r, m', h, hv, ha, hs⟩ := C22_swap_ranges S m first1 last1 first2 hr hd hdis
  have hmap : ∀ i, (bitAt m' i).isSome = (bitAt m i).isSome := by
    intro i
    have h1 := hr.4
    have h2 := hd.2
    unfold len at *
    rw [hs i]
    split_ifs with c1 c2
    · rw [h1 i (by omega) (by omega), h2 _ (by omega) (by omega)]
    · rw [h2 i (by omega) (by omega), h1 _ (by omega) (by omega)]
    · rfl
  have hr' : Range m' first1 last1 := ⟨hr.1, hr.2, hr.3, fun i h1 h2 => by rw [hmap i]; exact hr.4 i h1 h2⟩
  have hd' : Dest m' first2 (len first1 last1) := ⟨hd.1, fun i h1 h2 => by rw [hmap i]; exact hd.2 i h1 h2⟩
  obtain ⟨r2, m2, h', hv', ha', hs'⟩ := C22_swap_ranges S m' first1 last1 first2 hr' hd' hdis
  have hrr : r2 = r := BitIter.addr_inj hv' hv (by rw [ha, ha'])
  have : m2 = m := by
    apply mem_ext_bitAt hw
    intro i
    unfold len at *
    rw [hs' i]
    split_ifs with c1 c2
    · rw [hs, if_neg (by omega), if_pos (by omega)]; congr 1; omega
    · rw [hs, if_pos (by omega)]; congr 1; omega
    · rw [hs, if_neg c1, if_neg c2]
  rw [this, hrr] at h'
  exact ⟨r, m', h, h'⟩

/-- Two adjacent ranges of 3 bits in one word, and ranges of 13 bits at different alignments. -/
example : Range (memOf [0xa5#8]) ⟨0, 1⟩ ⟨0, 4⟩ ∧ Dest (memOf [0xa5#8]) ⟨0, 4⟩ (len (⟨0, 1⟩ : BitIter 8) ⟨0, 4⟩) ∧
    (⟨0, 4⟩ : BitIter 8).addr ≤ (⟨0, 4⟩ : BitIter 8).addr :=
  ⟨range_memOf (by decide) (by decide) (by decide) (by decide) (by decide), dest_memOf (by decide) (by decide) (by decide), by decide⟩

example : runOn (swapRanges S8 ⟨0, 1⟩ ⟨0, 4⟩ ⟨0, 4⟩) [0xa5#8] = .ok (⟨0, 7⟩, [0xa5#8]) ∧
    runOn (swapRanges S8 ⟨0, 1⟩ ⟨0, 4⟩ ⟨0, 4⟩) [0x8d#8] = .ok (⟨0, 7⟩, [0xe1#8]) ∧
    runOn (swapRanges S8 ⟨0, 2⟩ ⟨1, 7⟩ ⟨2, 5⟩) [0x01#8, 0x80#8, 0xff#8, 0xff#8, 0x00#8]
      = .ok (⟨4, 2⟩, [0xfd#8, 0x9f#8, 0x1f#8, 0x00#8, 0x00#8]) := by decide +kernel

end BitLib
