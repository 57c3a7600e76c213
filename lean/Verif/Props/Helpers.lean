import Verif.Lemmas.Helpers
import Verif.Props.Run
import Verif.Props.Overshift
/- Properties C60 - C63: helper templates; C49 for empty transfers. -/
namespace BitLib
variable {w : Nat}

/-! ### C60 -/

/-- C60 for buffers that hold the words of the copied part (missing: parts that touch `B + 1` words, for which the claim is false, see
`C60_begin_overrun`; the whole-word range of C18; parts that reach `2^15` bits beyond their first word, whose length does not fit the
`short` counter, see `C60_begin_short`): the range is rotated, the returned iterator designates the old first bit, nothing but the range and the buffer changes. -/
theorem C60_begin_partial (S : ShiftSem w) (hw : w ≤ 64) (m : Mem w) (B : Nat) (buf : Int) (first nFirst last : BitIter w)
    (hr : Range m first last) (h1 : first.addr ≤ nFirst.addr) (h2 : nFirst.addr ≤ last.addr) (hne : first.addr < last.addr)
    (hB : 0 < B) (hbuf : Mapped m (buf * w) (buf * w + B * w)) (hdis : buf * w + B * w ≤ first.addr ∨ last.addr ≤ buf * w)
    (hk : first.pos + len first nFirst ≤ B * w) (hs : first.pos + len first nFirst < 2 ^ 15 + w)
    (hfull : ¬ (first.pos = 0 ∧ len first last = w ∧ first.addr < nFirst.addr ∧ nFirst.addr < last.addr) ∨ S.FullShiftOk) :
    ∃ r m', rotateViaCopyBegin S B buf first nFirst last m = .ok (r, m') ∧ r.Valid ∧
      r.addr = first.addr + (last.addr - nFirst.addr) ∧
      RotatedBut m m' first.addr nFirst.addr last.addr (buf * w) (buf * w + B * w) := by
  obtain ⟨r, m', h, h'⟩ := wp_rotateViaCopyBegin S (by omega) hr h1 h2 hne hB hk (by unfold len at hs; omega) hbuf hdis hfull
    (Q := fun r m' => r.Valid ∧ r.addr = first.addr + (last.addr - nFirst.addr) ∧
      RotatedBut m m' first.addr nFirst.addr last.addr (buf * w) (buf * w + B * w)) (fun r m' a b c => ⟨a, b, c⟩)
  exact ⟨r, m', h, h'⟩

/-- C60, `_rotate_via_copy_end` (missing: as above; the word of `nFirst` is read even if the part is empty, so it must be mapped). -/
theorem C60_end_partial (S : ShiftSem w) (hw : w ≤ 64) (m : Mem w) (B : Nat) (buf : Int) (first nFirst last : BitIter w)
    (hr : Range m first last) (hn : nFirst.Valid) (h1 : first.addr ≤ nFirst.addr) (h2 : nFirst.addr ≤ last.addr)
    (hne : (bitAt m nFirst.addr).isSome)
    (hB : 0 < B) (hbuf : Mapped m (buf * w) (buf * w + B * w))
    (hdis : buf * w + B * w ≤ first.addr ∨ (last.addr ≤ buf * w ∧ nFirst.addr < buf * w))
    (hk : nFirst.pos + len nFirst last ≤ B * w) (hs : nFirst.pos + len nFirst last < 2 ^ 15 + w)
    (hfull : ¬ (first.pos = 0 ∧ len first last = w ∧ first.addr < nFirst.addr ∧ nFirst.addr < last.addr) ∨ S.FullShiftOk) :
    ∃ r m', rotateViaCopyEnd S B buf first nFirst last m = .ok (r, m') ∧ r.Valid ∧
      r.addr = first.addr + (last.addr - nFirst.addr) ∧
      RotatedBut m m' first.addr nFirst.addr last.addr (buf * w) (buf * w + B * w) := by
  obtain ⟨r, m', h, h'⟩ := wp_rotateViaCopyEnd S (by omega) hr hn h1 h2 hne hB hk (by unfold len at hs; omega) hbuf hdis hfull
    (Q := fun r m' => r.Valid ∧ r.addr = first.addr + (last.addr - nFirst.addr) ∧
      RotatedBut m m' first.addr nFirst.addr last.addr (buf * w) (buf * w + B * w)) (fun r m' a b c => ⟨a, b, c⟩)
  exact ⟨r, m', h, h'⟩

/-- Three words, and a buffer of two words behind them. -/
example : Range (memOf [0xa5#8, 0x3c#8, 0x0f#8, 0#8, 0#8]) ⟨0, 3⟩ ⟨2, 5⟩ ∧ Mapped (memOf [0xa5#8, 0x3c#8, 0x0f#8, 0#8, 0#8]) (3 * 8) (3 * 8 + 2 * 8) ∧
    runOn (rotateViaCopyBegin S8 2 3 ⟨0, 3⟩ ⟨1, 2⟩ ⟨2, 5⟩) [0xa5#8, 0x3c#8, 0x0f#8, 0#8, 0#8] =
      .ok (⟨1, 6⟩, [0x7d#8, 0x1e#8, 0x05#8, 0xa5#8, 0x3c#8]) ∧
    runOn (rotateViaCopyEnd S8 2 3 ⟨0, 3⟩ ⟨1, 6⟩ ⟨2, 5⟩) [0xa5#8, 0x3c#8, 0x0f#8, 0#8, 0#8] =
      .ok (⟨1, 2⟩, [0xe5#8, 0x51#8, 0x1e#8, 0x3c#8, 0x0f#8]) := by
  refine ⟨range_memOf (by decide) (by decide) (by decide) (by decide) (by decide), ?_, rfl, rfl⟩
  exact (dest_memOf (w := 8) (d := ⟨3, 0⟩) (n := 2 * 8) (by decide) (by decide) (by decide)).2

/-- C60 is false: the assertion `k <= BufferSize*digits` does not count the bits before `first` in its word. If the part touches one word
more than the buffer has, `copy_arr[BufferSize]` is written. -/
theorem C60_begin_overrun (S : ShiftSem w) (hw : w ≤ 64) (m : Mem w) (B : Nat) (buf : Int) (first nFirst last : BitIter w)
    (hf : first.Valid) (h1 : first.addr ≤ nFirst.addr) (hk : len first nFirst ≤ B * w)
    (hover : B * w < first.pos + len first nFirst) (hs : first.pos + len first nFirst < 2 ^ 15 + w) (hend : m (buf + B) = none) :
    rotateViaCopyBegin S B buf first nFirst last m = .error .outOfBounds := by
  have hf' : first.pos < w := hf
  unfold rotateViaCopyBegin
  rw [distance_pure h1, pure_bind, assertM, if_pos (by unfold len at hk; omega), pure_bind]
  exact bufCopy_overrun (by omega) (by omega) _ hf (by unfold len at *; omega) hover (by unfold len at *; omega) hend

/-- C60, the same for `_rotate_via_copy_end`. -/
theorem C60_end_overrun (S : ShiftSem w) (hw : w ≤ 64) (m : Mem w) (B : Nat) (buf : Int) (first nFirst last : BitIter w)
    (hf : nFirst.Valid) (h2 : nFirst.addr ≤ last.addr) (hk : len nFirst last ≤ B * w)
    (hover : B * w < nFirst.pos + len nFirst last) (hs : nFirst.pos + len nFirst last < 2 ^ 15 + w) (hend : m (buf + B) = none) :
    rotateViaCopyEnd S B buf first nFirst last m = .error .outOfBounds := by
  have hf' : nFirst.pos < w := hf
  unfold rotateViaCopyEnd
  rw [distance_pure h2, pure_bind, assertM, if_pos (by unfold len at hk; omega), pure_bind]
  exact bufCopy_overrun (by omega) (by omega) _ hf (by unfold len at *; omega) hover (by unfold len at *; omega) hend

/-- C60: parts longer than the buffer fail the assertion, whatever else. -/
theorem C60_too_long (S : ShiftSem w) (m : Mem w) (B : Nat) (buf : Int) (first nFirst last : BitIter w) :
    (first.addr ≤ nFirst.addr → B * w < len first nFirst → rotateViaCopyBegin S B buf first nFirst last m = .error .assertFail) ∧
    (nFirst.addr ≤ last.addr → B * w < len nFirst last → rotateViaCopyEnd S B buf first nFirst last m = .error .assertFail) := by
  constructor
  · intro h1 h2
    unfold rotateViaCopyBegin
    rw [distance_pure h1, pure_bind, assertM, if_neg (by unfold len at h2; omega)]
    rfl
  · intro h1 h2
    unfold rotateViaCopyEnd
    rw [distance_pure h1, pure_bind, assertM, if_neg (by unfold len at h2; omega)]
    rfl

/-- C60: the remaining case of `_rotate_via_copy_begin` on words that are not promoted: rotating exactly one aligned word shifts by the
word width (C18). -/
theorem C60_begin_overshift (hw : w ≤ 64) (m : Mem w) (B : Nat) (buf : Int) (first nFirst last : BitIter w)
    (hr : Range m first last) (h1 : first.addr < nFirst.addr) (h2 : nFirst.addr < last.addr)
    (hB : 0 < B) (hbuf : Mapped m (buf * w) (buf * w + B * w)) (hdis : buf * w + B * w ≤ first.addr ∨ last.addr ≤ buf * w)
    (h0 : first.pos = 0) (hl : len first last = w) :
    rotateViaCopyBegin (ShiftSem.strict w (Nat.le_refl w)) B buf first nFirst last m = .error .overshift := by
  have hf' : first.pos < w := hr.1
  have hfa : first.addr = first.base * w + first.pos := rfl
  have hB1 : (1 : Int) * w ≤ B * w := Int.mul_le_mul_of_nonneg_right (by omega) (by omega)
  unfold len at hl
  unfold rotateViaCopyBegin
  rw [distance_pure (Int.le_of_lt h1), pure_bind, assertM, if_pos (by omega), pure_bind]
  obtain ⟨m1, hs, h⟩ := bufCopy_run (B := B) (by omega) (by omega) (buf := buf) (it := first) (k := nFirst.addr - first.addr) (m := m)
    (do
      let ret ← shiftLeft (ShiftSem.strict w (Nat.le_refl w)) first last (nFirst.addr - first.addr)
      let _ ← copy (ShiftSem.strict w (Nat.le_refl w)) ⟨buf, first.pos⟩ (BitIter.add ⟨buf, first.pos⟩ (nFirst.addr - first.addr)) ret
      pure ret) hr.1 (by omega) hB (by omega) (by omega) (hr.4 _ (by omega) (by omega)) (hr.4.sub (by omega) (by omega)) hbuf
    (by omega)
  rw [h, M_bind_apply, (C18_shift_left_exact m1 first last _
    ⟨hr.1, hr.2, hr.3, fun i a b => by rw [hs i]; exact hr.4 i a b⟩).2 ⟨h0, hl, by omega, by omega⟩]

/-- C60: as above, `_rotate_via_copy_end`. -/
theorem C60_end_overshift (hw : w ≤ 64) (m : Mem w) (B : Nat) (buf : Int) (first nFirst last : BitIter w)
    (hr : Range m first last) (hn : nFirst.Valid) (h1 : first.addr < nFirst.addr) (h2 : nFirst.addr < last.addr)
    (hB : 0 < B) (hbuf : Mapped m (buf * w) (buf * w + B * w)) (hdis : buf * w + B * w ≤ first.addr ∨ last.addr ≤ buf * w)
    (h0 : first.pos = 0) (hl : len first last = w) :
    rotateViaCopyEnd (ShiftSem.strict w (Nat.le_refl w)) B buf first nFirst last m = .error .overshift := by
  have hf' : first.pos < w := hr.1
  have hn' : nFirst.pos < w := hn
  have hfa : first.addr = first.base * w + first.pos := rfl
  have hna : nFirst.addr = nFirst.base * w + nFirst.pos := rfl
  have hB1 : (1 : Int) * w ≤ B * w := Int.mul_le_mul_of_nonneg_right (by omega) (by omega)
  have hbase : nFirst.base * (w : Int) = first.base * w := by
    have a1 := base_le_of_addr hn (Int.le_of_lt h1)
    rcases Int.lt_or_eq_of_le a1 with h | h
    · have := base_lt_mul (w := w) h
      unfold len at hl; omega
    · rw [h]
  unfold len at hl
  unfold rotateViaCopyEnd
  rw [distance_pure (Int.le_of_lt h2), pure_bind, assertM, if_pos (by omega), pure_bind]
  obtain ⟨m1, hs, h⟩ := bufCopy_run (B := B) (by omega) (by omega) (buf := buf) (it := nFirst) (k := last.addr - nFirst.addr) (m := m)
    (do
      let ret ← shiftRight (ShiftSem.strict w (Nat.le_refl w)) first last (last.addr - nFirst.addr)
      let _ ← copy (ShiftSem.strict w (Nat.le_refl w)) ⟨buf, nFirst.pos⟩ (BitIter.add ⟨buf, nFirst.pos⟩ (last.addr - nFirst.addr)) first
      pure ret) hn (by omega) hB (by omega) (by omega) (hr.4 _ (by omega) (by omega)) (hr.4.sub (by omega) (by omega)) hbuf
    (by omega)
  rw [h, M_bind_apply, (C18_shift_right_exact m1 first last _
    ⟨hr.1, hr.2, hr.3, fun i a b => by rw [hs i]; exact hr.4 i a b⟩).2 ⟨h0, hl, by omega, by omega⟩]

/-- C60 is false for large buffers: from `2^15` bits beyond the first word on, the number of bits to copy wraps (`short int
bits_left_to_copy`). Fewer words are copied to the buffer than are copied back, so bit `j` of the part becomes whatever the uninitialised
buffer holds there. -/
theorem C60_begin_short (S : ShiftSem w) (hw : w ≤ 64) (m : Mem w) (B : Nat) (buf : Int) (first nFirst last : BitIter w)
    (hr : Range m first last) (h2 : nFirst.addr ≤ last.addr)
    (hbuf : Mapped m (buf * w) (buf * w + B * w)) (hdis : buf * w + B * w ≤ first.addr ∨ last.addr ≤ buf * w)
    (hk : first.pos + len first nFirst ≤ B * w) (hs : 2 ^ 15 + w ≤ first.pos + len first nFirst) :
    ∃ r m' j, rotateViaCopyBegin S B buf first nFirst last m = .ok (r, m') ∧ r.addr = first.addr + len nFirst last ∧
      0 ≤ j ∧ j < len first nFirst ∧ bitAt m' (r.addr + j) = bitAt m (buf * w + first.pos + j) := by
  have hf' : first.pos < w := hr.1
  have hB : 0 < B := by
    rcases Nat.eq_zero_or_pos B with h | h
    · subst h; push_cast at hk; omega
    · exact h
  unfold len at *
  obtain ⟨r, m', h, j, h3⟩ := wp_rotateViaCopyBegin_any S (by omega) hr (by omega) h2 (by omega) hB hk hbuf hdis (by left; omega)
    (Q := fun r m' => ∃ j, r.addr = first.addr + (last.addr - nFirst.addr) ∧ 0 ≤ j ∧ j < nFirst.addr - first.addr ∧
      bitAt m' (r.addr + j) = bitAt m (buf * w + first.pos + j)) (fun r m' k' _ ha _ hb _ hc => by
      have := hb (by omega)
      exact ⟨k' + w, ha, by omega, by omega, hc _ (by omega) (by omega)⟩)
  exact ⟨r, m', j, h, h3⟩

/-- C60, the same for `_rotate_via_copy_end`. -/
theorem C60_end_short (S : ShiftSem w) (hw : w ≤ 64) (m : Mem w) (B : Nat) (buf : Int) (first nFirst last : BitIter w)
    (hr : Range m first last) (hn : nFirst.Valid) (h1 : first.addr ≤ nFirst.addr)
    (hbuf : Mapped m (buf * w) (buf * w + B * w)) (hdis : buf * w + B * w ≤ first.addr ∨ last.addr ≤ buf * w)
    (hk : nFirst.pos + len nFirst last ≤ B * w) (hs : 2 ^ 15 + w ≤ nFirst.pos + len nFirst last) :
    ∃ r m' j, rotateViaCopyEnd S B buf first nFirst last m = .ok (r, m') ∧ r.addr = first.addr + len nFirst last ∧
      0 ≤ j ∧ j < len nFirst last ∧ bitAt m' (first.addr + j) = bitAt m (buf * w + nFirst.pos + j) := by
  have hf' : nFirst.pos < w := hn
  have hB : 0 < B := by
    rcases Nat.eq_zero_or_pos B with h | h
    · subst h; push_cast at hk; omega
    · exact h
  unfold len at *
  obtain ⟨r, m', h, j, h3⟩ := wp_rotateViaCopyEnd_any S (by omega) hr hn h1 (by omega) (hr.4 _ (by omega) (by omega)) hB hk hbuf (by omega)
    (by left; omega)
    (Q := fun r m' => ∃ j, r.addr = first.addr + (last.addr - nFirst.addr) ∧ 0 ≤ j ∧ j < last.addr - nFirst.addr ∧
      bitAt m' (first.addr + j) = bitAt m (buf * w + nFirst.pos + j)) (fun r m' k' _ ha _ hb _ hc => by
      have := hb (by omega)
      exact ⟨k' + w, ha, by omega, by omega, hc _ (by omega) (by omega)⟩)
  exact ⟨r, m', j, h, h3⟩

/-- C60 exactly, for a buffer that holds the words of the part and leaving the whole-word case of C18 aside: `_rotate_via_copy_begin` rotates
all contents if and only if the part has fewer than `2^15` bits beyond its first word. -/
theorem C60_begin_exact (S : ShiftSem w) (hw : w ≤ 64) (B : Nat) (buf : Int) (first nFirst last : BitIter w)
    (hf : first.Valid) (hl : last.Valid) (h1 : first.addr ≤ nFirst.addr) (h2 : nFirst.addr ≤ last.addr) (hne : first.addr < last.addr)
    (hB : 0 < B) (hdis : buf * w + B * w ≤ first.addr ∨ last.addr ≤ buf * w)
    (hk : first.pos + len first nFirst ≤ B * w)
    (hfull : ¬ (first.pos = 0 ∧ len first last = w ∧ first.addr < nFirst.addr ∧ nFirst.addr < last.addr) ∨ S.FullShiftOk) :
    (∀ m : Mem w, Range m first last → Mapped m (buf * w) (buf * w + B * w) →
      ∃ r m', rotateViaCopyBegin S B buf first nFirst last m = .ok (r, m') ∧ r.Valid ∧
        r.addr = first.addr + (last.addr - nFirst.addr) ∧
        RotatedBut m m' first.addr nFirst.addr last.addr (buf * w) (buf * w + B * w)) ↔
    first.pos + len first nFirst < 2 ^ 15 + w := by
  have hf' : first.pos < w := hf
  have hw0 : 0 < w := by omega
  constructor
  · intro h
    by_contra hs
    have key : ∀ m : Mem w, Range m first last → Mapped m (buf * w) (buf * w + B * w) →
        ∃ j, 0 ≤ j ∧ j < len first nFirst ∧ bitAt m (first.addr + j) = bitAt m (buf * w + first.pos + j) := by
      intro m hr hb
      obtain ⟨r, m', e, -, -, hrot⟩ := h m hr hb
      obtain ⟨r2, m2, j, e2, ha, hj0, hj1, hj⟩ := C60_begin_short S hw m B buf first nFirst last hr h2 hb hdis hk (by omega)
      rw [e] at e2
      cases e2
      refine ⟨j, hj0, hj1, ?_⟩
      unfold len at *
      rw [← hj, hrot _ (by omega), if_neg (by omega), if_pos (by omega)]
      congr 1; omega
    -- a memory whose range is all ones and whose other bits are all zeros
    have hm := bitAt_bitsMem hw0 fun i => decide (first.addr ≤ i ∧ i < last.addr)
    have hmm := mapped_bitsMem hw0 fun i => decide (first.addr ≤ i ∧ i < last.addr)
    obtain ⟨j, hj0, hj1, hj⟩ := key _ ⟨hf, hl, by omega, hmm _ _⟩ (hmm _ _)
    unfold len at *
    rw [hm, hm, decide_eq_true (by omega), decide_eq_false (by omega)] at hj
    cases hj
  · intro hs m hr hb
    exact C60_begin_partial S hw m B buf first nFirst last hr h1 h2 hne hB hb hdis hk hs hfull

/-- C60 exactly, non-empty part, as above: `_rotate_via_copy_end` rotates
all contents if and only if the part has fewer than `2^15` bits beyond its first word. -/
theorem C60_end_exact (S : ShiftSem w) (hw : w ≤ 64) (B : Nat) (buf : Int) (first nFirst last : BitIter w)
    (hf : first.Valid) (hn : nFirst.Valid) (hl : last.Valid) (h1 : first.addr ≤ nFirst.addr) (h2 : nFirst.addr < last.addr)
    (hB : 0 < B) (hdis : buf * w + B * w ≤ first.addr ∨ last.addr ≤ buf * w)
    (hk : nFirst.pos + len nFirst last ≤ B * w)
    (hfull : ¬ (first.pos = 0 ∧ len first last = w ∧ first.addr < nFirst.addr ∧ nFirst.addr < last.addr) ∨ S.FullShiftOk) :
    (∀ m : Mem w, Range m first last → Mapped m (buf * w) (buf * w + B * w) →
      ∃ r m', rotateViaCopyEnd S B buf first nFirst last m = .ok (r, m') ∧ r.Valid ∧
        r.addr = first.addr + (last.addr - nFirst.addr) ∧
        RotatedBut m m' first.addr nFirst.addr last.addr (buf * w) (buf * w + B * w)) ↔
    nFirst.pos + len nFirst last < 2 ^ 15 + w := by
  have hf' : nFirst.pos < w := hn
  have hw0 : 0 < w := by omega
  constructor
  · intro h
    by_contra hs
    have key : ∀ m : Mem w, Range m first last → Mapped m (buf * w) (buf * w + B * w) →
        ∃ j, 0 ≤ j ∧ j < len nFirst last ∧ bitAt m (nFirst.addr + j) = bitAt m (buf * w + nFirst.pos + j) := by
      intro m hr hb
      obtain ⟨r, m', e, -, -, hrot⟩ := h m hr hb
      obtain ⟨r2, m2, j, e2, ha, hj0, hj1, hj⟩ := C60_end_short S hw m B buf first nFirst last hr hn h1 hb hdis hk (by omega)
      rw [e] at e2
      cases e2
      refine ⟨j, hj0, hj1, ?_⟩
      unfold len at *
      rw [← hj, hrot _ (by omega), if_pos (by omega)]
      congr 1; omega
    -- a memory whose range is all ones and whose other bits are all zeros
    have hm := bitAt_bitsMem hw0 fun i => decide (first.addr ≤ i ∧ i < last.addr)
    have hmm := mapped_bitsMem hw0 fun i => decide (first.addr ≤ i ∧ i < last.addr)
    obtain ⟨j, hj0, hj1, hj⟩ := key _ ⟨hf, hl, by omega, hmm _ _⟩ (hmm _ _)
    unfold len at *
    rw [hm, hm, decide_eq_true (by omega), decide_eq_false (by omega)] at hj
    cases hj
  · intro hs m hr hb
    exact C60_end_partial S hw m B buf first nFirst last hr hn h1 (by omega) (hr.4 _ (by omega) (by omega)) hB hb (by omega) hk hs hfull

/-- The hypotheses can be met: 8-bit words, 40000 bits rotated by 33000, a buffer of 5000 words. -/
example : (⟨0, 3⟩ : BitIter 8).Valid ∧ (⟨5000, 3⟩ : BitIter 8).Valid ∧ (⟨0, 3⟩ : BitIter 8).addr ≤ (⟨4125, 3⟩ : BitIter 8).addr ∧
    (⟨4125, 3⟩ : BitIter 8).addr ≤ (⟨5000, 3⟩ : BitIter 8).addr ∧ (⟨5000, 3⟩ : BitIter 8).addr ≤ 5001 * 8 ∧
    (⟨0, 3⟩ : BitIter 8).pos + len (⟨0, 3⟩ : BitIter 8) ⟨4125, 3⟩ ≤ 5000 * 8 ∧
    2 ^ 15 + 8 ≤ (⟨0, 3⟩ : BitIter 8).pos + len (⟨0, 3⟩ : BitIter 8) ⟨4125, 3⟩ := by decide

/-- C60 is false: rotating by 8 bits, starting at bit 3, with a one-word buffer (and nothing else) on the stack. -/
theorem C60_refuted : ∀ x y z : BitVec 8,
    rotateViaCopyBegin S8 1 2 ⟨0, 3⟩ ⟨1, 3⟩ ⟨2, 0⟩ (memOf [x, y, z]) = .error .outOfBounds ∧
    len (⟨0, 3⟩ : BitIter 8) ⟨1, 3⟩ ≤ 1 * 8 ∧ Range (memOf [x, y, z]) ⟨0, 3⟩ ⟨2, 0⟩ :=
  fun x y z => ⟨C60_begin_overrun S8 (by decide) _ _ _ _ _ _ (by decide) (by decide) (by decide) (by decide) (by decide) rfl, by decide,
    range_memOf (by decide) (by decide) (by decide) (by decide) (by simp [BitIter.addr])⟩

/-! ### C61 -/

/-- C61: `_padded_read` returns the bits of `[first, last)` that lie in the word of `first`, in place, and `bv` everywhere else.
The memory stays as it is; only the word of `first` is known to be mapped, so only that word is read. -/
theorem C61_padded_read (S : ShiftSem w) (m : Mem w) (first last : BitIter w) (bv : Bool) (hf : first.Valid) (hl : last.Valid)
    (hlt : first.addr < last.addr) (hm : (bitAt m first.addr).isSome) :
    ∃ x, paddedRead S first last bv m = .ok (x, m) ∧ ∀ p : Nat, p < w → some (x.getLsbD p) =
      if first.addr ≤ first.base * w + p ∧ first.base * w + p < last.addr then bitAt m (first.base * w + p) else some bv := by
  obtain ⟨x, m', h, h1, h2⟩ := wp_paddedRead S (bv := bv) hf hl (Int.le_of_lt hlt) (Or.inl hlt) hm (Q := fun x m' => m' = m ∧ ∀ p : Nat, p < w → some (x.getLsbD p) =
      if first.addr ≤ first.base * w + p ∧ first.base * w + p < last.addr then bitAt m (first.base * w + p) else some bv)
    (fun x h => ⟨rfl, h⟩)
  subst h1
  exact ⟨x, h, h2⟩

/-- C61: the header calls `first == last` undefined. It yields a word of padding, except on an aligned iterator with `bv = 0` when the
word type is not promoted. -/
theorem C61_empty (S : ShiftSem w) (m : Mem w) (first : BitIter w) (bv : Bool) (hf : first.Valid)
    (hm : (bitAt m first.addr).isSome) (hok : first.pos ≠ 0 ∨ bv = true ∨ w < S.pw) :
    ∃ x, paddedRead S first first bv m = .ok (x, m) ∧ ∀ p : Nat, p < w → x.getLsbD p = bv := by
  obtain ⟨x, m', h, h1, h2⟩ := wp_paddedRead S (bv := bv) hf hf (Int.le_refl _) (Or.inr hok) hm (Q := fun x m' => m' = m ∧ ∀ p : Nat, p < w → some (x.getLsbD p) =
      if first.addr ≤ first.base * w + p ∧ first.base * w + p < first.addr then bitAt m (first.base * w + p) else some bv)
    (fun x h => ⟨rfl, h⟩)
  subst h1
  refine ⟨x, h, fun p hp => ?_⟩
  have := h2 p hp
  rw [if_neg (by omega)] at this
  exact Option.some.inj this

/-- C61: in the remaining case the shift by the word width is undefined. -/
theorem C61_empty_overshift (m : Mem w) (a : Int) (x : BitVec w) (hm : m a = some x) :
    paddedRead (ShiftSem.strict w (Nat.le_refl w)) ⟨a, 0⟩ ⟨a, 0⟩ false m = .error .overshift := by
  unfold paddedRead
  have hl : load a m = .ok (x, m) := by simp [load, hm]
  rw [M_bind_apply, hl]
  simp only [if_true, ShiftSem.shr, ShiftSem.strict, Nat.sub_zero, Nat.lt_irrefl, if_false]
  rfl

/-- The cases drawn in the header comment. -/
example : runOn (paddedRead S8 ⟨0, 0⟩ ⟨1, 0⟩ false) [0x5d#8] = .ok (0x5d#8, [0x5d#8]) ∧
    runOn (paddedRead S8 ⟨0, 0⟩ ⟨0, 4⟩ false) [0x5d#8] = .ok (0x0d#8, [0x5d#8]) ∧
    runOn (paddedRead S8 ⟨0, 3⟩ ⟨1, 0⟩ true) [0x5d#8] = .ok (0x5f#8, [0x5d#8]) ∧
    runOn (paddedRead S8 ⟨0, 2⟩ ⟨0, 5⟩ false) [0x5d#8] = .ok (0x1c#8, [0x5d#8]) ∧
    runOn (paddedRead S8 ⟨0, 5⟩ ⟨1, 4⟩ false) [0x5d#8, 0xff#8] = .ok (0x40#8, [0x5d#8, 0xff#8]) := by
  decide +kernel

/-! ### C62 -/

/-- C62 for lengths that fit both types (missing: lengths above the native width, which the assertion excludes): `get_word<T>` returns the
`len` bits at `it`, for every return type. -/
theorem C62_get_word_partial {t : Nat} (Sw : ShiftSem w) (St : ShiftSem t) (m : Mem w) (it : BitIter w) (len : Nat)
    (hlen : len ≤ w) (hlt : len ≤ t) (h0 : 0 < len) (hd : Dest m it len) :
    ∃ x : BitVec t, getWordT Sw St it len m = .ok (x, m) ∧ ∀ i : Nat, i < len → bitAt m (it.addr + i) = some (x.getLsbD i) := by
  obtain ⟨x, m', h, hm, he⟩ := wp_getWordT Sw St hd.1 hlen hlt h0 hd.2
    (Q := fun x m' => (∀ i : Nat, i < len → bitAt m (it.addr + i) = some (x.getLsbD i)) ∧ m' = m) (fun x h => ⟨h, rfl⟩)
  exact ⟨x, he ▸ h, hm⟩

/-- C62 is false for `get_word<T>` with its default length and a type `T` wider than the native word: the assertion fails for every input. -/
theorem C62_get_word_wide_refuted {t : Nat} (Sw : ShiftSem w) (St : ShiftSem t) (m : Mem w) (it : BitIter w) (h : w < t) :
    getWordT Sw St it t m = .error .assertFail := by
  unfold getWordT
  rw [assertM, if_neg (by omega)]
  rfl

/-- C62 for `write_word` with a source type narrower than the destination word, exactly: inside the word, the bits from the source's width
upwards become 0 whatever they were. The low bits are right. -/
theorem C62_write_word_exact {s : Nat} (Ss : ShiftSem s) (m : Mem w) (src : BitVec s) (it : BitIter w) (len : Nat)
    (hv : it.Valid) (hlen : it.pos + len ≤ w) (hne : ¬ (it.pos = 0 ∧ len = w)) (hp : it.pos < Ss.pw) (hl : len < Ss.pw)
    (hm : (bitAt m it.addr).isSome) :
    ∃ m', writeWordT Ss src it len m = .ok ((), m') ∧ Wrote m m' (it.base * w) (it.base * w + w) (fun i =>
      if i < it.base * w + s then
        if it.addr ≤ i ∧ i < it.addr + len then some (src.getLsbD (i - it.addr).toNat) else bitAt m i
      else some false) := by
  obtain ⟨_, m', h, hw⟩ := wp_writeWordT Ss (src := src) hv hlen hne hp hl hm (Q := fun _ m' => Wrote m m' (it.base * w) (it.base * w + w) (fun i =>
      if i < it.base * w + s then
        if it.addr ≤ i ∧ i < it.addr + len then some (src.getLsbD (i - it.addr).toNat) else bitAt m i
      else some false)) (fun _ h => h)
  exact ⟨m', h, hw⟩

/-- C62 where `write_word` is right (missing: destinations with a bit set above the source's width, for which `C62_write_word_exact` shows that
it is cleared, and bits crossing into the next word): the written bits lie below the source's width and the rest of the word is 0. -/
theorem C62_write_word_partial {s : Nat} (Ss : ShiftSem s) (m : Mem w) (src : BitVec s) (it : BitIter w) (len : Nat)
    (hv : it.Valid) (hsw : s < w) (hlen : it.pos + len ≤ s) (hl : len < Ss.pw) (h0 : 0 < len)
    (hm : (bitAt m it.addr).isSome) (hz : ∀ i, it.base * w + s ≤ i → i < it.base * w + w → bitAt m i = some false) :
    ∃ m', writeWordT Ss src it len m = .ok ((), m') ∧
      Wrote m m' it.addr (it.addr + len) (fun i => some (src.getLsbD (i - it.addr).toNat)) := by
  have hia : it.addr = it.base * w + it.pos := rfl
  obtain ⟨m', h, hw⟩ := C62_write_word_exact Ss m src it len hv (by omega) (by omega) (by have := Ss.le_pw; omega) hl hm
  refine ⟨m', h, fun i => ?_⟩
  rw [hw i]
  beta_reduce
  split_ifs with a b c <;> first | rfl | (exfalso; omega) | exact (hz i (by omega) (by omega)).symm

/-- C62 is false for `write_word`: writing four 0 bits from a `uint8_t` to a `uint16_t` word clears the upper byte. -/
theorem C62_write_word_refuted : ¬ ∀ (m : Mem 16) (src : BitVec 8) (it : BitIter 16) (len : Nat), 0 < len → len ≤ 8 → Dest m it len →
    ∃ m', writeWordT S8 src it len m = .ok ((), m') ∧
      Wrote m m' it.addr (it.addr + len) (fun i => some (src.getLsbD (i - it.addr).toNat)) := by
  intro h
  obtain ⟨m', h1, h2⟩ := h (memOf [0xffff#16]) 0#8 ⟨0, 0⟩ 4 (by decide) (by decide) (dest_memOf (by decide) (by decide) (by decide))
  have h3 : writeWordT S8 0#8 (⟨0, 0⟩ : BitIter 16) 4 (memOf [0xffff#16]) = .ok ((), (memOf [0xffff#16]).set 0 0x00f0#16) := rfl
  rw [h3] at h1
  cases h1
  have := h2 12
  revert this
  decide +kernel

/-- C62: with the native type on both sides these are the functions of C49. -/
theorem C62_same_type (S : ShiftSem w) (x : BitVec w) (it : BitIter w) (len : Nat) :
    getWordT S S it len = getWord S it len ∧ writeWordT S x it len = writeWord S x it len :=
  ⟨getWordT_self S it len, writeWordT_self S x it len⟩

example : runOn (getWordT S8 S32 ⟨0, 5⟩ 8) [0xa5#8, 0x3c#8] = .ok (0xe5#32, [0xa5#8, 0x3c#8]) ∧
    runOn (getWordT S32 S8 ⟨0, 28⟩ 8) [0xa5000000#32, 0x3c#32] = .ok (0xca#8, [0xa5000000#32, 0x3c#32]) ∧
    runOn (writeWordT S8 0xff#8 ⟨0, 2⟩ 4) [0x0081#16] = .ok ((), [0x00bd#16]) ∧
    Dest (memOf [0xa5#8, 0x3c#8]) ⟨0, 5⟩ 8 ∧ (bitAt (memOf [0x0081#16]) (BitIter.addr (w := 16) ⟨0, 2⟩)).isSome := by
  exact ⟨by decide +kernel, by decide +kernel, by decide +kernel, dest_memOf (by decide) (by decide) (by decide), by decide +kernel⟩

/-! ### C63 -/

/-- All words of `[a, b)` are mapped. -/
def WordsMapped (m : Mem w) (a b : Int) : Prop := ∀ c, a ≤ c → c < b → ∃ x, m c = some x

/-- C63: `word_shift_left` moves every word `n` places down, returns the end of the moved words, and changes no other word. -/
theorem C63_word_shift_left (m : Mem w) (first last n : Int) (hn0 : 0 < n) (hn1 : n < last - first) (hm : WordsMapped m first last) :
    ∃ m', wordShiftLeft first last n m = .ok (last - n, m') ∧
      ∀ a, m' a = if first ≤ a ∧ a < last - n then m (a + n) else m a := by
  unfold wordShiftLeft
  rw [if_neg (by omega), if_neg (by omega)]
  unfold stdCopy wordDist
  rw [if_pos (by omega), pure_bind]
  obtain ⟨m', h, h'⟩ := stdCopyN_words (w := w) (last - (first + n)).toNat (s := first + n) (d := first) (m := m) (by omega)
    (fun a h1 h2 => hm a (by omega) (by omega)) (fun a h1 h2 => hm a (by omega) (by omega))
  refine ⟨m', ?_, fun a => ?_⟩
  · rw [h]; congr 2; omega
  · rw [h' a]
    by_cases c : first ≤ a ∧ a < last - n
    · rw [if_pos (by omega), if_pos c]; congr 1; omega
    · rw [if_neg (by omega), if_neg c]

/-- C63: `word_shift_right` moves every word `n` places up, returns the new position of the first word, and changes no other word. -/
theorem C63_word_shift_right (m : Mem w) (first last n : Int) (hn0 : 0 < n) (hn1 : n < last - first) (hm : WordsMapped m first last) :
    ∃ m', wordShiftRight first last n m = .ok (first + n, m') ∧
      ∀ a, m' a = if first + n ≤ a ∧ a < last then m (a - n) else m a := by
  unfold wordShiftRight
  rw [if_neg (by omega), if_neg (by omega)]
  unfold stdCopyBackward wordDist
  rw [if_pos (by omega), pure_bind]
  obtain ⟨m', h, h'⟩ := stdCopyBackwardN_words (w := w) (last - n - first).toNat (l := last - n) (dl := last) (m := m) (by omega)
    (fun a h1 h2 => hm a (by omega) (by omega)) (fun a h1 h2 => hm a (by omega) (by omega))
  refine ⟨m', ?_, fun a => ?_⟩
  · rw [M_bind_apply, h]; rfl
  · rw [h' a]
    by_cases c : first + n ≤ a ∧ a < last
    · rw [if_pos (by omega), if_pos c]; congr 1; omega
    · rw [if_neg (by omega), if_neg c]

/-- C63: shifts by nothing or by at least the length return the documented ends and access no memory. -/
theorem C63_trivial (m : Mem w) (first last n : Int) :
    (n ≤ 0 → wordShiftLeft first last n m = .ok (last, m) ∧ wordShiftRight first last n m = .ok (first, m)) ∧
    (0 < n → last - first ≤ n → wordShiftLeft first last n m = .ok (first, m) ∧ wordShiftRight first last n m = .ok (last, m)) := by
  unfold wordShiftLeft wordShiftRight
  constructor
  · intro h
    rw [if_pos h, if_pos h]
    exact ⟨rfl, rfl⟩
  · intro h1 h2
    rw [if_neg (show ¬ n ≤ 0 by omega), if_pos h2, if_neg (show ¬ n ≤ 0 by omega), if_pos h2]
    exact ⟨rfl, rfl⟩

/-- C63: the header comment ("filling the empty bits with 0") does not describe the code: the vacated words keep their values. -/
theorem C63_no_fill (m : Mem w) (first last n : Int) (hn0 : 0 < n) (hn1 : n < last - first) (hm : WordsMapped m first last) :
    (∃ r m', wordShiftLeft first last n m = .ok (r, m') ∧ ∀ a, last - n ≤ a → m' a = m a) ∧
    (∃ r m', wordShiftRight first last n m = .ok (r, m') ∧ ∀ a, a < first + n → m' a = m a) := by
  obtain ⟨m1, h1, h1'⟩ := C63_word_shift_left m first last n hn0 hn1 hm
  obtain ⟨m2, h2, h2'⟩ := C63_word_shift_right m first last n hn0 hn1 hm
  exact ⟨⟨_, m1, h1, fun a ha => by rw [h1' a, if_neg (by omega)]⟩, ⟨_, m2, h2, fun a ha => by rw [h2' a, if_neg (by omega)]⟩⟩

example : WordsMapped (memOf [1#8, 2#8, 3#8]) 0 3 ∧ runOn (wordShiftLeft 0 3 1) [1#8, 2#8, 3#8] = .ok (2, [2#8, 3#8, 3#8]) ∧
    runOn (wordShiftRight 0 3 1) [1#8, 2#8, 3#8] = .ok (1, [1#8, 1#8, 2#8]) := by
  refine ⟨fun c h1 h2 => ?_, by decide +kernel, by decide +kernel⟩
  have : c = 0 ∨ c = 1 ∨ c = 2 := by omega
  rcases this with rfl | rfl | rfl <;> exact ⟨_, rfl⟩

/-! ### C49, the empty case -/

/-- C49 for `len = 0`: no bit changes, but the word of `it` is read all the same, so it has to be mapped. -/
theorem C49_empty (S : ShiftSem w) (m : Mem w) (x : BitVec w) (it : BitIter w) (hv : it.Valid) :
    ((bitAt m it.addr).isSome → writeWord S x it 0 m = .ok ((), m) ∧ ∃ y, getWord S it 0 m = .ok (y, m)) ∧
    (bitAt m it.addr = none → writeWord S x it 0 m = .error .outOfBounds ∧ getWord S it 0 m = .error .outOfBounds) := by
  have hv' : it.pos < w := hv
  have hw : 0 < w := by omega
  have hb : bitAt m it.addr = (m it.base).map fun y => y.getLsbD it.pos := bitAt_word m it.base it.pos hv'
  rw [hb]
  have hwr : writeWord S x it 0 = (do
      let y ← load it.base
      let r ← lift (bitblend4 S y (x <<< it.pos) it.pos 0)
      store it.base r) := by
    unfold writeWord blendAt
    rw [if_neg (by omega), S.shl_ok hv']
    have hl : ∀ a : BitVec w, (lift (.ok a) : M w (BitVec w)) = pure a := fun _ => rfl
    simp only [hl, Nat.min_zero, Nat.not_lt_zero, gt_iff_lt, if_false, bind_assoc, pure_bind, bind_pure_unit]
  have hgw : getWord S it 0 = (do let y ← load it.base; pure (y >>> it.pos)) := by
    unfold getWord
    simp only [Nat.zero_le, if_true, S.shr_ok hv', assertM, ge_iff_le, pure_bind]
    rfl
  rw [hwr, hgw]
  constructor
  · intro h
    cases hm : m it.base with
    | none => rw [hm] at h; cases h
    | some y =>
      have hl : load it.base m = .ok (y, m) := by simp [load, hm]
      obtain ⟨r, hr, hb⟩ := bitblend4_ok S y (x <<< it.pos) (start := it.pos) (len := 0) hv' (lt_pw S hw)
      have hry : r = y := by
        apply BitVec.eq_of_getLsbD_eq
        intro i hi
        rw [hb i hi, if_neg (by omega)]
      subst hry
      refine ⟨?_, _, by rw [M_bind_apply, hl]; rfl⟩
      rw [M_bind_apply, hl]; dsimp only
      rw [M_bind_apply, hr]
      simp only [lift, store, hm]
      congr 2
      funext b
      unfold Mem.set
      split
      · rename_i hb; rw [hb, hm]
      · rfl
  · intro h
    have hm : m it.base = none := by
      cases hm : m it.base with
      | none => rfl
      | some y => rw [hm] at h; cases h
    have hl : load it.base m = .error .outOfBounds := by simp [load, hm]
    rw [M_bind_apply, M_bind_apply, hl]
    exact ⟨rfl, rfl⟩

example : (bitAt (memOf [0xa5#8]) (BitIter.addr (w := 8) ⟨0, 6⟩)).isSome ∧ bitAt (memOf [0xa5#8]) (BitIter.addr (w := 8) ⟨1, 0⟩) = none := by
  decide +kernel

end BitLib
