import Verif.Lemmas.HwyFull
import Verif.Props.Shift
import Verif.Props.Query
import Verif.Props.Copy
import Verif.Props.Overshift
/-
C57-C59: builds with `BITLIB_HWY`.
`U` is the vector machine: any number of lanes, any word size in bytes, any byte address of the buffers; `U.Ok` says that a vector
fits a 64-byte line.
-/
namespace BitLib
variable {w : Nat}

/-- C57: `fill` in a SIMD build sets exactly the bits of the range. -/
theorem C57_fill (S : ShiftSem w) (U : Simd) (hU : U.Ok) (m : Mem w) (first last : BitIter w) (v : Bool) (hr : Range m first last) :
    ∃ m', fillHwy S U first last v m = .ok ((), m') ∧
      ∀ i, bitAt m' i = if first.addr ≤ i ∧ i < last.addr then some v else bitAt m i := by
  rw [fillHwy_eq S hU v hr.1 hr.2 hr.3]
  exact C10_fill S m first last v hr

/-- C57: `find` in a SIMD build returns the first position with the value, or `last`, and leaves memory alone. -/
theorem C57_find (S : ShiftSem w) (U : Simd) (hU : U.Ok) (m : Mem w) (first last : BitIter w) (v : Bool) (hr : Range m first last)
    (hne : first.addr < last.addr ∨ first.pos = 0 ∨ (bitAt m first.addr).isSome) :
    ∃ r, findHwy S U first last v m = .ok (r, m) ∧ r.Valid ∧ FirstAt m v first.addr last.addr r.addr := by
  rw [findHwy_eq S hU v hr]
  exact C11_find S m first last v hr hne

/-- C57: `transform` with `std::bit_not` in a SIMD build writes the complement of the source. The vector loop loads a whole vector
before it stores it, so overlapping ranges are part of the claim. -/
theorem C57_transform_not (S : ShiftSem w) (U : Simd) (hU : U.Ok) (m : Mem w) (first last d : BitIter w)
    (hr : Range m first last) (hd : Dest m d (len first last)) (hov : d.addr ≤ first.addr ∨ last.addr ≤ d.addr) :
    ∃ r m', transformNotHwy S U first last d m = .ok (r, m') ∧ r.Valid ∧ r.addr = d.addr + len first last ∧
      Mapd (!·) m m' first.addr d.addr (len first last) := by
  rw [transformNotHwy_eq S hU hr.2 hd.1 hr.3 hov]
  exact C23_transform S (~~~ ·) (!·) (by intro x i hi; simp [hi]) m first last d hr hd hov

/-- C57: only words of the ranges are accessed. -/
theorem C57_footprint (S : ShiftSem w) (U : Simd) (hU : U.Ok) (m : Mem w) (first last : BitIter w) (v : Bool)
    (hr : Range m first last) :
    (∃ r, fillHwy S U first last v (m.only (HoldsBit w first.addr last.addr)) = .ok r) ∧
    (first.addr < last.addr → ∃ r, findHwy S U first last v (m.only (HoldsBit w first.addr last.addr)) = .ok r) ∧
    (∀ d, Dest m d (len first last) → (d.addr ≤ first.addr ∨ last.addr ≤ d.addr) →
      ∃ r, transformNotHwy S U first last d (m.only fun c => HoldsBit w first.addr last.addr c ∨
        HoldsBit w d.addr (d.addr + len first last) c) = .ok r) := by
  refine ⟨?_, fun hne => ?_, fun d hd hov => ?_⟩
  · obtain ⟨_, h, _⟩ := C57_fill S U hU _ first last v (hr.only (fun _ h => h)); exact ⟨_, h⟩
  · obtain ⟨_, h, _⟩ := C57_find S U hU _ first last v (hr.only (fun _ h => h)) (Or.inl hne); exact ⟨_, h⟩
  · obtain ⟨_, _, h, _⟩ := C57_transform_not S U hU _ first last d (hr.only (fun _ h => Or.inl h)) (hd.only (fun _ h => Or.inr h)) hov
    exact ⟨_, h⟩

/-- Vectors of two 8-bit words, the buffer starting 62 bytes after a 64-byte boundary. -/
def simd2 : Simd := ⟨2, 1, 62, by decide⟩

example : simd2.Ok := by unfold Simd.Ok; decide
example : Range (memOf [0xa5#8, 0x3c#8, 0x99#8, 0#8, 0#8, 0#8, 0x10#8]) ⟨0, 6⟩ ⟨6, 7⟩ :=
  range_memOf (by decide) (by decide) (by decide) (by decide) (by decide)
example : runOn (fillHwy S8 simd2 ⟨0, 6⟩ ⟨6, 3⟩ true) [0x25#8, 0#8, 0#8, 0#8, 0#8, 0#8, 0x90#8] =
    .ok ((), [0xe5#8, 0xff#8, 0xff#8, 0xff#8, 0xff#8, 0xff#8, 0x97#8]) := by decide +kernel
example : runOn (findHwy S8 simd2 ⟨0, 6⟩ ⟨6, 7⟩ true) [0x25#8, 0#8, 0#8, 0#8, 0#8, 0x40#8, 0x90#8] =
    .ok (⟨5, 6⟩, [0x25#8, 0#8, 0#8, 0#8, 0#8, 0x40#8, 0x90#8]) := by decide +kernel
example : runOn (transformNotHwy S8 simd2 ⟨1, 0⟩ ⟨6, 3⟩ ⟨0, 0⟩) [0#8, 1#8, 2#8, 4#8, 8#8, 16#8, 32#8] =
    .ok (⟨5, 3⟩, [0xfe#8, 0xfd#8, 0xfb#8, 0xf7#8, 0xef#8, 0x17#8, 32#8]) := by decide +kernel

/-- C58: `shift_left` in a SIMD build. -/
theorem C58_shift_left (S : ShiftSem w) (U : Simd) (hU : U.Ok) (m : Mem w) (first last : BitIter w) (n : Int) (hr : Range m first last)
    (h0 : 0 < n) (hn : n < len first last) (hfull : ¬ (first.pos = 0 ∧ len first last = w) ∨ S.FullShiftOk) :
    ∃ r m', shiftLeftHwy S U first last n m = .ok (r, m') ∧ r.Valid ∧ r.addr = last.addr - n ∧
      ShiftedL m m' first.addr last.addr n := by
  rw [shiftLeftHwy_eq S hU n hr.1 hr.2 hr.3]
  exact C16_shift_left S m first last n hr h0 hn hfull

/-- C58: `shift_right` in a SIMD build. -/
theorem C58_shift_right (S : ShiftSem w) (U : Simd) (hU : U.Ok) (m : Mem w) (first last : BitIter w) (n : Int) (hr : Range m first last)
    (h0 : 0 < n) (hn : n < len first last) (hfull : ¬ (first.pos = 0 ∧ len first last = w) ∨ S.FullShiftOk) :
    ∃ r m', shiftRightHwy S U first last n m = .ok (r, m') ∧ r.Valid ∧ r.addr = first.addr + n ∧
      ShiftedR m m' first.addr last.addr n := by
  rw [shiftRightHwy_eq S hU n hr.1 hr.2 hr.3]
  exact C17_shift_right S m first last n hr h0 hn hfull

/-- C58: shift counts outside `(0, last - first)` change nothing in a SIMD build either. -/
theorem C58_shift_trivial (S : ShiftSem w) (U : Simd) (hU : U.Ok) (m : Mem w) (first last : BitIter w) (n : Int) (hr : Range m first last) :
    (n ≤ 0 → shiftLeftHwy S U first last n m = .ok (last, m) ∧ shiftRightHwy S U first last n m = .ok (first, m)) ∧
    (0 < n → len first last ≤ n → shiftLeftHwy S U first last n m = .ok (first, m) ∧
      shiftRightHwy S U first last n m = .ok (last, m)) := by
  rw [shiftLeftHwy_eq S hU n hr.1 hr.2 hr.3, shiftRightHwy_eq S hU n hr.1 hr.2 hr.3]
  exact ⟨fun h => ⟨C16_shift_left_nonpos S m first last n hr h, C17_shift_right_nonpos S m first last n hr h⟩,
    fun h h' => ⟨C16_shift_left_all S m first last n hr h h', C17_shift_right_all S m first last n hr h h'⟩⟩

/-- C58: `reverse`, which calls the two shifts, in a SIMD build. -/
theorem C58_reverse (S : ShiftSem w) (U : Simd) (hU : U.Ok) (m : Mem w) (first last : BitIter w) (hr : Range m first last)
    (hne : first.addr < last.addr ∨ first.pos = 0 ∨ (bitAt m first.addr).isSome)
    (hfull : ¬ (first.pos ≠ 0 ∧ last.addr = (first.base + 1) * w) ∨ S.FullShiftOk) :
    ∃ m', reverseHwy S U first last m = .ok ((), m') ∧ Reversed m m' first.addr last.addr := by
  rw [reverseHwy_eq S hU hr.2 hr.3]
  exact C15_reverse S m first last hr hne hfull

/-- C58: only words of the range are accessed. -/
theorem C58_footprint (S : ShiftSem w) (U : Simd) (hU : U.Ok) (m : Mem w) (first last : BitIter w) (n : Int) (hr : Range m first last)
    (hfull : ¬ (first.pos = 0 ∧ len first last = w) ∨ S.FullShiftOk) :
    (∃ r m', shiftLeftHwy S U first last n (m.only (HoldsBit w first.addr last.addr)) = .ok (r, m')) ∧
    (∃ r m', shiftRightHwy S U first last n (m.only (HoldsBit w first.addr last.addr)) = .ok (r, m')) := by
  rw [shiftLeftHwy_eq S hU n hr.1 hr.2 hr.3, shiftRightHwy_eq S hU n hr.1 hr.2 hr.3]
  exact ⟨C16_shift_left_footprint S m first last n hr hfull, C17_shift_right_footprint S m first last n hr hfull⟩

example : Range (memOf (List.replicate 20 0xa5#8)) ⟨0, 6⟩ ⟨18, 3⟩ ∧ (0 : Int) < 13 ∧ (13 : Int) < len (⟨0, 6⟩ : BitIter 8) ⟨18, 3⟩ ∧
    ¬ ((⟨0, 6⟩ : BitIter 8).pos = 0 ∧ len (⟨0, 6⟩ : BitIter 8) ⟨18, 3⟩ = (8 : Nat)) :=
  ⟨range_memOf (by decide) (by decide) (by decide) (by decide) (by decide), by decide, by decide, by decide⟩

/-- C59: whatever the alignment of the buffers, no vector load or store that requires alignment is executed at an unaligned address.
(No assumption on the shift semantics: even the programs that stop at an oversized shift do not stop at a misaligned access.) -/
theorem C59_no_misaligned (S : ShiftSem w) (U : Simd) (hU : U.Ok) (m : Mem w) (first last : BitIter w) (n : Int) (v : Bool)
    (hr : Range m first last) :
    fillHwy S U first last v m = fill S first last v m ∧
    findHwy S U first last v m = find S first last v m ∧
    (∀ d, d.Valid → (d.addr ≤ first.addr ∨ last.addr ≤ d.addr) →
      transformNotHwy S U first last d m = transform S (~~~ ·) first last d m) ∧
    shiftLeftHwy S U first last n m = shiftLeft S first last n m ∧
    shiftRightHwy S U first last n m = shiftRight S first last n m ∧
    reverseHwy S U first last m = reverse S first last m :=
  ⟨by rw [fillHwy_eq S hU v hr.1 hr.2 hr.3], findHwy_eq S hU v hr,
   fun d hd hov => by rw [transformNotHwy_eq S hU hr.2 hd hr.3 hov],
   by rw [shiftLeftHwy_eq S hU n hr.1 hr.2 hr.3], by rw [shiftRightHwy_eq S hU n hr.1 hr.2 hr.3],
   by rw [reverseHwy_eq S hU hr.2 hr.3]⟩

/-- C59, as the outcome itself. -/
theorem C59_never_misaligned (pw : Nat) (h : w ≤ pw) (U : Simd) (hU : U.Ok) (m : Mem w) (first last : BitIter w) (n : Int) (v : Bool)
    (hr : Range m first last) (hne : first.addr < last.addr ∨ first.pos = 0) :
    fillHwy (ShiftSem.strict pw h) U first last v m ≠ .error .misaligned ∧
    findHwy (ShiftSem.strict pw h) U first last v m ≠ .error .misaligned ∧
    (∀ d, Dest m d (len first last) → (d.addr ≤ first.addr ∨ last.addr ≤ d.addr) →
      transformNotHwy (ShiftSem.strict pw h) U first last d m ≠ .error .misaligned) ∧
    shiftLeftHwy (ShiftSem.strict pw h) U first last n m ≠ .error .misaligned ∧
    shiftRightHwy (ShiftSem.strict pw h) U first last n m ≠ .error .misaligned ∧
    reverseHwy (ShiftSem.strict pw h) U first last m ≠ .error .misaligned := by
  have hne' : first.addr < last.addr ∨ first.pos = 0 ∨ (bitAt m first.addr).isSome := hne.imp id Or.inl
  have aux : ∀ {α} {x : Except UB α}, (∃ r, x = .ok r) → x ≠ .error .misaligned := by
    rintro _ _ ⟨r, rfl⟩ hc; cases hc
  have aux2 : ∀ {α} {x : Except UB α}, x = .error .overshift → x ≠ .error .misaligned := by
    rintro _ _ rfl hc; cases hc
  refine ⟨?_, ?_, fun d hd hov => ?_, ?_, ?_, ?_⟩
  · obtain ⟨_, h, _⟩ := C57_fill (ShiftSem.strict pw h) U hU m first last v hr; exact aux ⟨_, h⟩
  · obtain ⟨_, h, _⟩ := C57_find (ShiftSem.strict pw h) U hU m first last v hr hne'; exact aux ⟨_, h⟩
  · obtain ⟨_, _, h, _⟩ := C57_transform_not (ShiftSem.strict pw h) U hU m first last d hr hd hov; exact aux ⟨_, h⟩
  · rw [shiftLeftHwy_eq _ hU n hr.1 hr.2 hr.3]
    by_cases hc : first.pos = 0 ∧ len first last = w ∧ 0 < n ∧ n < w
    · by_cases hp : w < pw
      · obtain ⟨_, _, h, _⟩ := C16_shift_left (ShiftSem.strict pw h) m first last n hr hc.2.2.1 (by omega) (Or.inr (Or.inl hp)); exact aux ⟨_, h⟩
      · obtain rfl : pw = w := by omega
        exact aux2 ((C18_shift_left_exact m first last n hr).2 hc)
    · obtain ⟨_, _, h, _⟩ := wp_shiftLeft (ShiftSem.strict pw h) (n := n) hr.1 hr.2 hr.3 hr.4 (Or.inl hc)
        (Q := fun _ _ => True) (fun _ => trivial) (fun _ _ => trivial) (fun _ _ _ _ _ _ _ => trivial)
      exact aux ⟨_, h⟩
  · rw [shiftRightHwy_eq _ hU n hr.1 hr.2 hr.3]
    by_cases hc : first.pos = 0 ∧ len first last = w ∧ 0 < n ∧ n < w
    · by_cases hp : w < pw
      · obtain ⟨_, _, h, _⟩ := C17_shift_right (ShiftSem.strict pw h) m first last n hr hc.2.2.1 (by omega) (Or.inr (Or.inl hp)); exact aux ⟨_, h⟩
      · obtain rfl : pw = w := by omega
        exact aux2 ((C18_shift_right_exact m first last n hr).2 hc)
    · obtain ⟨_, _, h, _⟩ := wp_shiftRight (ShiftSem.strict pw h) (n := n) hr.1 hr.2 hr.3 hr.4 (Or.inl hc)
        (Q := fun _ _ => True) (fun _ => trivial) (fun _ _ => trivial) (fun _ _ _ _ => trivial)
      exact aux ⟨_, h⟩
  · rw [reverseHwy_eq _ hU hr.2 hr.3]
    by_cases hc : first.pos ≠ 0 ∧ last.addr = (first.base + 1) * w
    · by_cases hp : w < pw
      · obtain ⟨_, h, _⟩ := C15_reverse (ShiftSem.strict pw h) m first last hr hne' (Or.inr (Or.inl hp)); exact aux ⟨_, h⟩
      · obtain rfl : pw = w := by omega
        refine aux2 (fails_reverse_word hr.1 hr.2 hr.4 hc.1 hc.2)
    · obtain ⟨_, h, _⟩ := C15_reverse (ShiftSem.strict pw h) m first last hr hne' (Or.inl hc); exact aux ⟨_, h⟩

/-- The 64-byte limit matters: with 128-byte vectors a store at an address that is only a multiple of 64 is reached. -/
theorem C59_wide_vectors (x : BitVec 64) :
    fillHwy S64 ⟨16, 8, 64, by decide⟩ ⟨0, 0⟩ ⟨20, 0⟩ true (memOf (List.replicate 20 x)) = .error .misaligned := by
  rfl

end BitLib
