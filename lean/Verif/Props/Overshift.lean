import Verif.Lemmas.Overshift
import Verif.Props.Copy
import Verif.Props.Query
import Verif.Props.Shift
import Verif.Props.Rotate
/-
C18: oversized shifts. `ShiftSem.strict pw _` makes every shift by `pw` or more the outcome `overshift`, where `pw` is the
width of the promoted type: 32 for 8-, 16- and 32-bit words, 64 for 64-bit words (`S8`, `S16`, `S32`, `S64`).
-/
namespace BitLib
variable {w : Nat}

/-- `S32` and `S64` are the strict semantics in which the word is not promoted. -/
example : S32 = ShiftSem.strict 32 (Nat.le_refl 32) ∧ S64 = ShiftSem.strict 64 (Nat.le_refl 64) := ⟨rfl, rfl⟩

/-- C18 holds for copy, move, fill, find, equal, count, transform (unary and binary), swap_ranges, and for rotate with
`n_first < last`: in every semantics, in particular in the strict ones, the run on valid arguments is defined.
(`C18_refuted` shows that it fails for the other four; this is the part of C18 that holds for all word widths.) -/
theorem C18_no_overshift_partial (S : ShiftSem w) (m : Mem w) (first last : BitIter w) (hr : Range m first last)
    (hne : first.addr < last.addr) :
    (∀ v, ∃ r, fill S first last v m = .ok r) ∧
    (∀ v, ∃ r, find S first last v m = .ok r) ∧
    (∀ v, ∃ r, count S first last v m = .ok r) ∧
    (∀ nFirst : BitIter w, nFirst.Valid → first.addr ≤ nFirst.addr → nFirst.addr < last.addr →
      ∃ r, rotate S first nFirst last m = .ok r) ∧
    (∀ d, Dest m d (len first last) → ∃ r, equal S first last d m = .ok r) ∧
    (∀ d, Dest m d (len first last) → (last.addr ≤ d.addr ∨ d.addr + len first last ≤ first.addr) →
      ∃ r, swapRanges S first last d m = .ok r) ∧
    (∀ d, Dest m d (len first last) → (d.addr ≤ first.addr ∨ last.addr ≤ d.addr) →
      (∃ r, copy S first last d m = .ok r) ∧ (∃ r, move S first last d m = .ok r) ∧
      (∀ (op : BitVec w → BitVec w) (f : Bool → Bool), (∀ x i, i < w → (op x).getLsbD i = f (x.getLsbD i)) →
        ∃ r, transform S op first last d m = .ok r) ∧
      (∀ (op : BitVec w → BitVec w → BitVec w) (f : Bool → Bool → Bool) (first2 : BitIter w),
        (∀ x y i, i < w → (op x y).getLsbD i = f (x.getLsbD i) (y.getLsbD i)) → Dest m first2 (len first last) →
        (d.addr ≤ first2.addr ∨ first2.addr + len first last ≤ d.addr) →
        ∃ r, transform2 S op first last first2 d m = .ok r)) := by
  refine ⟨?_, ?_, ?_, ?_, ?_, ?_, ?_⟩
  · intro v; obtain ⟨_, h, _⟩ := C10_fill S m first last v hr; exact ⟨_, h⟩
  · intro v; obtain ⟨_, h, _⟩ := C11_find S m first last v hr (Or.inl hne); exact ⟨_, h⟩
  · intro v; exact ⟨_, C13_count S m first last v hr hne⟩
  · intro nf h1 h2 h3; obtain ⟨_, _, h, _⟩ := C21_rotate_terminates S m first nf last hr h1 h2 h3; exact ⟨_, h⟩
  · intro d hd; obtain ⟨_, h, _⟩ := C12_equal S m first last d hr hd; exact ⟨_, h⟩
  · intro d hd hdis; obtain ⟨_, _, h, _⟩ := C22_swap_ranges S m first last d hr hd hdis; exact ⟨_, h⟩
  · intro d hd hov
    obtain ⟨_, _, h, _⟩ := C06_copy S m first last d hr hd hov
    obtain ⟨_, _, h', _⟩ := C08_move S m first last d hr hd hov
    refine ⟨⟨_, h⟩, ⟨_, h'⟩, ?_, ?_⟩
    · intro op f hop
      obtain ⟨_, _, h, _⟩ := C23_transform S op f hop m first last d hr hd hov
      exact ⟨_, h⟩
    · intro op f first2 hop h2 hov2
      obtain ⟨_, _, h, _⟩ := C24_transform2 S op f hop m first last first2 d hr h2 hd hov hov2
      exact ⟨_, h⟩

/-- C18 holds for 8- and 16-bit words (and every width below the promoted one) also for the remaining four algorithms. -/
theorem C18_narrow_partial (pw : Nat) (h : w < pw) (m : Mem w) (first last : BitIter w) (hr : Range m first last)
    (hne : first.addr < last.addr) :
    let S := ShiftSem.strict pw (Nat.le_of_lt h)
    (∃ r, reverse S first last m = .ok r) ∧
    (∀ n, ∃ r, shiftLeft S first last n m = .ok r) ∧
    (∀ n, ∃ r, shiftRight S first last n m = .ok r) ∧
    (∀ d : BitIter w, d.Valid → Mapped m (d.addr - len first last) d.addr → (last.addr ≤ d.addr ∨ d.addr ≤ first.addr) →
      ∃ r, copyBackward S first last d m = .ok r) := by
  intro S
  have hS : S.FullShiftOk := Or.inl h
  refine ⟨?_, ?_, ?_, ?_⟩
  · obtain ⟨_, h, _⟩ := C15_reverse S m first last hr (Or.inl hne) (Or.inr hS); exact ⟨_, h⟩
  · intro n
    by_cases h0 : n ≤ 0
    · exact ⟨_, C16_shift_left_nonpos S m first last n hr h0⟩
    by_cases h1 : len first last ≤ n
    · exact ⟨_, C16_shift_left_all S m first last n hr (by omega) h1⟩
    obtain ⟨_, _, h, _⟩ := C16_shift_left S m first last n hr (by omega) (by omega) (Or.inr hS); exact ⟨_, h⟩
  · intro n
    by_cases h0 : n ≤ 0
    · exact ⟨_, C17_shift_right_nonpos S m first last n hr h0⟩
    by_cases h1 : len first last ≤ n
    · exact ⟨_, C17_shift_right_all S m first last n hr (by omega) h1⟩
    obtain ⟨_, _, h, _⟩ := C17_shift_right S m first last n hr (by omega) (by omega) (Or.inr hS); exact ⟨_, h⟩
  · intro d h1 h2 h3
    obtain ⟨_, _, h, _⟩ := C09_copy_backward S m first last d hr h1 h2 h3 (Or.inr hS); exact ⟨_, h⟩

example : Range (memOf [0xa5#16, 0x3c#16]) ⟨0, 6⟩ ⟨2, 0⟩ ∧ (⟨0, 6⟩ : BitIter 16).addr < (⟨2, 0⟩ : BitIter 16).addr :=
  ⟨range_memOf (by decide) (by decide) (by decide) (by decide) (by decide), by decide⟩

/-- C18, exactly when `shift_left` shifts by the word width (words that are not promoted): the range is one whole word. -/
theorem C18_shift_left_exact (m : Mem w) (first last : BitIter w) (n : Int) (hr : Range m first last) :
    shiftLeft (ShiftSem.strict w (Nat.le_refl w)) first last n m = .error .overshift ↔
      first.pos = 0 ∧ len first last = w ∧ 0 < n ∧ n < w := by
  constructor
  · intro h
    by_contra hc
    obtain ⟨r, m', h', _⟩ := wp_shiftLeft (ShiftSem.strict w (Nat.le_refl w)) (n := n) hr.1 hr.2 hr.3 hr.4 (Or.inl hc)
      (Q := fun _ _ => True) (fun _ => trivial) (fun _ _ => trivial) (fun _ _ _ _ _ _ _ => trivial)
    rw [h] at h'
    cases h'
  · rintro ⟨h0, hd, hn0, hnw⟩
    exact fails_shiftLeft_word hr.1 hr.2 hr.4 h0 hd hn0 hnw

/-- C18, exactly when `shift_right` shifts by the word width (words that are not promoted): the range is one whole word. -/
theorem C18_shift_right_exact (m : Mem w) (first last : BitIter w) (n : Int) (hr : Range m first last) :
    shiftRight (ShiftSem.strict w (Nat.le_refl w)) first last n m = .error .overshift ↔
      first.pos = 0 ∧ len first last = w ∧ 0 < n ∧ n < w := by
  constructor
  · intro h
    by_contra hc
    obtain ⟨r, m', h', _⟩ := wp_shiftRight (ShiftSem.strict w (Nat.le_refl w)) (n := n) hr.1 hr.2 hr.3 hr.4 (Or.inl hc)
      (Q := fun _ _ => True) (fun _ => trivial) (fun _ _ => trivial) (fun _ _ _ _ => trivial)
    rw [h] at h'
    cases h'
  · rintro ⟨h0, hd, hn0, hnw⟩
    exact fails_shiftRight_word hr.1 hr.2 hr.4 h0 hd hn0 hnw

/-- C18, exactly when `reverse` shifts by the word width (words that are not promoted): the range starts inside a word and ends with it. -/
theorem C18_reverse_exact (m : Mem w) (first last : BitIter w) (hr : Range m first last) (hne : first.addr < last.addr) :
    reverse (ShiftSem.strict w (Nat.le_refl w)) first last m = .error .overshift ↔
      first.pos ≠ 0 ∧ last.addr = (first.base + 1) * w := by
  constructor
  · intro h
    by_contra hc
    obtain ⟨m', h', _⟩ := C15_reverse (ShiftSem.strict w (Nat.le_refl w)) m first last hr (Or.inl hne) (Or.inl hc)
    rw [h] at h'
    cases h'
  · rintro ⟨h0, hd⟩
    exact fails_reverse_word hr.1 hr.2 hr.4 h0 hd

/-- C18, exactly when `copy_backward` shifts by the word width (words that are not promoted): the source starts at a word boundary,
both ends have the same position in their word, and the source contains at least two whole words. -/
theorem C18_copy_backward_exact (m : Mem w) (first last d : BitIter w) (hr : Range m first last)
    (hd : d.Valid) (hdm : Mapped m (d.addr - len first last) d.addr) (hov : last.addr ≤ d.addr ∨ d.addr ≤ first.addr) :
    copyBackward (ShiftSem.strict w (Nat.le_refl w)) first last d m = .error .overshift ↔
      first.pos = 0 ∧ last.pos = d.pos ∧ first.base + 2 ≤ last.base := by
  constructor
  · intro h
    by_contra hc
    obtain ⟨r, m', h', _⟩ := C09_copy_backward (ShiftSem.strict w (Nat.le_refl w)) m first last d hr hd hdm hov (Or.inl hc)
    rw [h] at h'
    cases h'
  · rintro ⟨h0, hp, hb⟩
    exact fails_copyBackward_words hr.1 hr.2 hd hr.4 hdm hov h0 hp hb

/-- Both sides of the four equivalences occur. -/
example : Range (memOf [0xa5#32, 0x3c#32]) ⟨1, 0⟩ ⟨2, 0⟩ ∧ (⟨1, 0⟩ : BitIter 32).pos = 0 ∧
    len (⟨1, 0⟩ : BitIter 32) ⟨2, 0⟩ = (32 : Nat) ∧ ¬ ((⟨1, 5⟩ : BitIter 32).pos = 0) :=
  ⟨range_memOf (by decide) (by decide) (by decide) (by decide) (by decide), by decide, by decide, by decide⟩

/-- C18 is false for 32- and 64-bit words: whole-word `shift_left`, `shift_right`, word-aligned `copy_backward`, `reverse` of the upper
part of a word, whatever the contents. -/
theorem C18_refuted :
    (∀ x, shiftLeft S32 ⟨0, 0⟩ ⟨1, 0⟩ 5 (memOf [x]) = .error .overshift) ∧
    (∀ x, shiftLeft S64 ⟨0, 0⟩ ⟨1, 0⟩ 5 (memOf [x]) = .error .overshift) ∧
    (∀ x, shiftRight S32 ⟨0, 0⟩ ⟨1, 0⟩ 5 (memOf [x]) = .error .overshift) ∧
    (∀ x, shiftRight S64 ⟨0, 0⟩ ⟨1, 0⟩ 5 (memOf [x]) = .error .overshift) ∧
    (∀ x y z, copyBackward S32 ⟨0, 0⟩ ⟨2, 0⟩ ⟨3, 0⟩ (memOf [x, y, z]) = .error .overshift) ∧
    (∀ x y z, copyBackward S64 ⟨0, 0⟩ ⟨2, 0⟩ ⟨3, 0⟩ (memOf [x, y, z]) = .error .overshift) ∧
    (∀ x, reverse S32 ⟨0, 7⟩ ⟨1, 0⟩ (memOf [x]) = .error .overshift) ∧
    (∀ x, reverse S64 ⟨0, 7⟩ ⟨1, 0⟩ (memOf [x]) = .error .overshift) := by
  refine ⟨fun x => ?_, fun x => ?_, fun x => ?_, fun x => ?_, fun x y z => ?_, fun x y z => ?_, fun x => ?_, fun x => ?_⟩
  · exact (C18_shift_left_exact (w := 32) _ _ _ _ (range_memOf (by decide) (by decide) (by decide) (by decide) (by simp [BitIter.addr]))).2 (by decide)
  · exact (C18_shift_left_exact (w := 64) _ _ _ _ (range_memOf (by decide) (by decide) (by decide) (by decide) (by simp [BitIter.addr]))).2 (by decide)
  · exact (C18_shift_right_exact (w := 32) _ _ _ _ (range_memOf (by decide) (by decide) (by decide) (by decide) (by simp [BitIter.addr]))).2 (by decide)
  · exact (C18_shift_right_exact (w := 64) _ _ _ _ (range_memOf (by decide) (by decide) (by decide) (by decide) (by simp [BitIter.addr]))).2 (by decide)
  · exact (C18_copy_backward_exact (w := 32) _ _ _ _ (range_memOf (by decide) (by decide) (by decide) (by decide) (by simp [BitIter.addr]))
      (by decide) (mapped_memOf (by decide) (by decide) (by simp [BitIter.addr])) (by decide)).2 (by decide)
  · exact (C18_copy_backward_exact (w := 64) _ _ _ _ (range_memOf (by decide) (by decide) (by decide) (by decide) (by simp [BitIter.addr]))
      (by decide) (mapped_memOf (by decide) (by decide) (by simp [BitIter.addr])) (by decide)).2 (by decide)
  · exact (C18_reverse_exact (w := 32) _ _ _ (range_memOf (by decide) (by decide) (by decide) (by decide) (by simp [BitIter.addr])) (by decide)).2 (by decide)
  · exact (C18_reverse_exact (w := 64) _ _ _ (range_memOf (by decide) (by decide) (by decide) (by decide) (by simp [BitIter.addr])) (by decide)).2 (by decide)

end BitLib
