import Verif.Lemmas.ShiftRight
import Verif.Props.Hwy
/-
C77: what `shift_left` and `shift_right` leave in the bits they vacate. The C++ standard leaves those bits unspecified, and so do
C16 and C17; here the whole effect on memory is given (`ShiftedLAll`, `ShiftedRAll`), for scalar and SIMD builds.
-/
namespace BitLib
variable {w : Nat}

/-- C77: the whole effect of `shift_left` for `0 < n < last - first`. -/
theorem C77_shift_left (S : ShiftSem w) (m : Mem w) (first last : BitIter w) (n : Int) (hr : Range m first last)
    (h0 : 0 < n) (hn : n < len first last) (hfull : ¬ (first.pos = 0 ∧ len first last = w) ∨ S.FullShiftOk) :
    ∃ r m', shiftLeft S first last n m = .ok (r, m') ∧ r.Valid ∧ r.addr = last.addr - n ∧
      ShiftedLAll m m' first.addr last.addr n := by
  unfold len at *
  exact wp_shiftLeftAll S hr.1 hr.2 hr.3 hr.4 (hfull.imp (fun h h' => h ⟨h'.1, h'.2.1⟩) id)
    (Q := fun r m' => r.Valid ∧ r.addr = last.addr - n ∧ ShiftedLAll m m' first.addr last.addr n)
    (by omega) (by omega) (fun _ _ m' r h1 h2 h3 => ⟨h1, h2, h3⟩)

/-- C77: the whole effect of `shift_right` for `0 < n < last - first`. -/
theorem C77_shift_right (S : ShiftSem w) (m : Mem w) (first last : BitIter w) (n : Int) (hr : Range m first last)
    (h0 : 0 < n) (hn : n < len first last) (hfull : ¬ (first.pos = 0 ∧ len first last = w) ∨ S.FullShiftOk) :
    ∃ r m', shiftRight S first last n m = .ok (r, m') ∧ r.Valid ∧ r.addr = first.addr + n ∧
      ShiftedRAll m m' first.addr last.addr n := by
  have hw : 0 < w := Nat.lt_of_le_of_lt (Nat.zero_le _) hr.1
  unfold len at *
  exact wp_shiftRightAll S hr.1 hr.2 hr.3 hr.4 (hfull.imp (fun h h' => h ⟨h'.1, h'.2.1⟩) id)
    (Q := fun r m' => r.Valid ∧ r.addr = first.addr + n ∧ ShiftedRAll m m' first.addr last.addr n)
    (by omega) (by omega) (fun _ _ m' h3 => ⟨BitIter.add_valid hw _ _, BitIter.add_addr hw _ _, h3⟩)

/-- C77: the same for both in a SIMD build. -/
theorem C77_simd (S : ShiftSem w) (U : Simd) (hU : U.Ok) (m : Mem w) (first last : BitIter w) (n : Int) (hr : Range m first last)
    (h0 : 0 < n) (hn : n < len first last) (hfull : ¬ (first.pos = 0 ∧ len first last = w) ∨ S.FullShiftOk) :
    (∃ r m', shiftLeftHwy S U first last n m = .ok (r, m') ∧ r.Valid ∧ r.addr = last.addr - n ∧
      ShiftedLAll m m' first.addr last.addr n) ∧
    (∃ r m', shiftRightHwy S U first last n m = .ok (r, m') ∧ r.Valid ∧ r.addr = first.addr + n ∧
      ShiftedRAll m m' first.addr last.addr n) := by
  rw [shiftLeftHwy_eq S hU n hr.1 hr.2 hr.3, shiftRightHwy_eq S hU n hr.1 hr.2 hr.3]
  exact ⟨C77_shift_left S m first last n hr h0 hn hfull, C77_shift_right S m first last n hr h0 hn hfull⟩

/-- The range lies in one word, in terms of the iterators: `first` and the last bit are in the same word. -/
theorem one_word_iff {first last : BitIter w} (hf : first.Valid) (hl : last.Valid) (hlt : first.addr < last.addr) :
    first.addr / (w : Int) = (last.addr - 1) / w ↔
      last.base = first.base ∨ (last.base = first.base + 1 ∧ last.pos = 0) := by
  have hf' : first.pos < w := hf
  have hl' : last.pos < w := hl
  have hfa : first.addr = first.base * w + first.pos := rfl
  have hla : last.addr = last.base * w + last.pos := rfl
  rw [hfa, mul_add_ediv (by omega) (by omega) (by omega)]
  by_cases h0 : last.pos = 0
  · rw [hla, show last.base * (w : Int) + last.pos - 1 = (last.base - 1) * w + (w - 1) by rw [h0, Int.sub_mul]; omega,
      mul_add_ediv (by omega) (by omega) (by omega)]
    constructor
    · intro h; exact Or.inr ⟨by omega, h0⟩
    · rintro (h | ⟨h, -⟩)
      · rw [hfa, hla, h] at hlt; omega
      · omega
  · rw [hla, show last.base * (w : Int) + last.pos - 1 = last.base * w + (last.pos - 1) by omega,
      mul_add_ediv (by omega) (by omega) (by omega)]
    constructor
    · intro h; exact Or.inl h.symm
    · rintro (h | ⟨-, h⟩)
      · exact h.symm
      · exact absurd h h0

/-- C77, read off for a caller of `shift_left`: inside one word the vacated bits are zeros, otherwise they are as before. -/
theorem C77_left_vacated (S : ShiftSem w) (m : Mem w) (first last : BitIter w) (n : Int) (hr : Range m first last)
    (h0 : 0 < n) (hn : n < len first last) (hfull : ¬ (first.pos = 0 ∧ len first last = w) ∨ S.FullShiftOk) :
    ∃ r m', shiftLeft S first last n m = .ok (r, m') ∧ ∀ i, last.addr - n ≤ i → i < last.addr →
      bitAt m' i = if last.base = first.base ∨ (last.base = first.base + 1 ∧ last.pos = 0) then some false else bitAt m i := by
  obtain ⟨r, m', h, _, _, hm⟩ := C77_shift_left S m first last n hr h0 hn hfull
  refine ⟨r, m', h, fun i h1 h2 => ?_⟩
  unfold len at hn
  rw [hm i, if_neg (by omega), ← if_congr (one_word_iff hr.1 hr.2 (by omega)) rfl rfl]
  by_cases hc : first.addr / (w : Int) = (last.addr - 1) / w
  · rw [if_pos ⟨h1, h2, hc⟩, if_pos hc]
  · rw [if_neg (by tauto), if_neg hc]

/-- C77, read off for a caller of `shift_right` that shifts by a whole number of words a range that starts inside a word and whose
remaining bits reach another word: the last `first.pos` vacated bits become the bits that precede the range. -/
theorem C77_right_leaks (S : ShiftSem w) (m : Mem w) (first last : BitIter w) (k : Int) (hr : Range m first last)
    (h0 : 0 < k) (hn : (first.base + 1 + k) * w ≤ last.addr) :
    ∃ r m', shiftRight S first last (k * w) m = .ok (r, m') ∧ ∀ j : Nat, j < first.pos →
      bitAt m' ((first.base + k) * w + j) = bitAt m (first.base * w + j) := by
  have hf' : first.pos < w := hr.1
  have hl' : last.pos < w := hr.2
  have hfa : first.addr = first.base * w + first.pos := rfl
  have hla : last.addr = last.base * w + last.pos := rfl
  have hkw : (w : Int) ≤ k * w := by
    have := Int.mul_le_mul_of_nonneg_right (show 1 ≤ k by omega) (show 0 ≤ (w : Int) by omega)
    omega
  have e1 : (first.base + 1 + k) * (w : Int) = first.base * w + w + k * w := by ring
  have e2 : (first.base + k) * (w : Int) = first.base * w + k * w := by ring
  obtain ⟨r, m', h, _, _, hm⟩ := C77_shift_right S m first last (k * w) hr (by omega)
    (by unfold len; omega) (Or.inl (by rintro ⟨hp, h⟩; unfold len at h; omega))
  refine ⟨r, m', h, fun j hj => ?_⟩
  have hleak : leaked w first.addr last.addr (k * w) = first.pos := by
    unfold leaked
    rw [if_pos]
    · rw [hfa, mul_add_emod (by omega) (by omega)]
    · refine ⟨by omega, Int.mul_emod_left _ _, ?_⟩
      have : first.base + 1 ≤ (last.addr - k * w) / (w : Int) :=
        (Int.le_ediv_iff_mul_le (by omega)).2 (by rw [Int.add_mul]; omega)
      rw [hfa, mul_add_ediv (by omega) (by omega) (by omega)]
      omega
  rw [hm _, hleak, e2, if_pos (by omega)]
  congr 1; omega

/-- One word: bits 1 to 6 of `11111111` shifted by 2 either way; the two vacated bits are cleared. -/
example : runOn (shiftLeft S8 ⟨0, 1⟩ ⟨0, 7⟩ 2) [0xff#8] = .ok (⟨0, 5⟩, [0x9f#8]) ∧
    runOn (shiftRight S8 ⟨0, 1⟩ ⟨0, 7⟩ 2) [0xff#8] = .ok (⟨0, 3⟩, [0xf9#8]) := by decide +kernel

/-- Two words: the vacated bits stay. -/
example : runOn (shiftLeft S8 ⟨0, 1⟩ ⟨1, 7⟩ 2) [0xff#8, 0xff#8] = .ok (⟨1, 5⟩, [0xff#8, 0xff#8]) := by decide +kernel

/-- Bits 4 to 23 shifted by 8: the range is all zeros, yet the result contains the four ones that precede it, in the vacated bits. -/
example : runOn (shiftRight S8 ⟨0, 4⟩ ⟨3, 0⟩ 8) [0x0f#8, 0x00#8, 0x00#8] = .ok (⟨1, 4⟩, [0x0f#8, 0x0f#8, 0x00#8]) := by decide +kernel

example : Range (memOf [0x0f#8, 0x00#8, 0x00#8]) ⟨0, 4⟩ ⟨3, 0⟩ ∧ (0 : Int) < 1 ∧
    ((⟨0, 4⟩ : BitIter 8).base + 1 + 1) * (8 : Nat) ≤ (⟨3, 0⟩ : BitIter 8).addr ∧ leaked 8 4 24 8 = 4 ∧ leaked 8 4 24 7 = 0 :=
  ⟨range_memOf (by decide) (by decide) (by decide) (by decide) (by decide), by decide, by decide, by decide, by decide⟩

end BitLib
