import Verif.Lemmas.FindReversed
import Verif.Props.ReleaseExact
/-
C105: what `find` does with a range that is reversed, the one case that `C105_exact` leaves out.
-/
namespace BitLib
variable {w : Nat}

/-- C105: exactly when an assertion fails in `find`, for any range and any memory: `last` is in the same word as `first`, before it and not at the
start of the word, and the word exists. -/
theorem C105_find_exact (S : ShiftSem w) (m : Mem w) (f l : BitIter w) (v : Bool) (hf : f.Valid) (hl : l.Valid) :
    find S f l v m = .error .assertFail ↔ f.base = l.base ∧ 0 < l.pos ∧ l.pos < f.pos ∧ (m f.base).isSome := by
  have hfa : f.addr = f.base * w + f.pos := rfl
  have hla : l.addr = l.base * w + l.pos := rfl
  by_cases hr : l.addr < f.addr
  · rcases find_reversed S m f l v hf hl hr with ⟨h0, e⟩ | ⟨_, h1, e⟩ | ⟨x, _, h1, e⟩
    · rw [e]
      exact ⟨fun h => (by cases h), fun h => by omega⟩
    · rw [e, h1]
      exact ⟨fun h => (by cases h), fun h => by cases h.2.2.2⟩
    · rw [e, h1]
      by_cases h2 : f.base = l.base ∧ l.pos ≠ 0
      · rw [if_pos h2]
        refine ⟨fun _ => ⟨h2.1, by omega, ?_, rfl⟩, fun _ => rfl⟩
        rw [h2.1] at hfa
        omega
      · rw [if_neg h2]
        refine ⟨fun h => ?_, fun h => absurd ⟨h.1, by omega⟩ h2⟩
        split at h <;> cases h
  · constructor
    · intro h
      obtain ⟨r, e, _⟩ := C11_find S m.total f l v (range_total m hf hl (by omega)) (.inr (.inr (bit_total m _)))
      exact (no_fail Gen.r_find h (.inl ⟨_, e⟩)).elim
    · rintro ⟨h1, _, h3, _⟩
      rw [h1] at hfa
      omega

/-- C105: when `find` returns from a reversed range, and what: `last` is not in the word of `first`, or at its start; `first` is not at the start of its
word, and there is a bit with the value from `first` to the end of the word. The result is the first such bit, behind `last`. -/
theorem C105_find_reversed (S : ShiftSem w) (m : Mem w) (f l : BitIter w) (v : Bool) (hf : f.Valid) (hl : l.Valid) (hr : l.addr < f.addr) :
    ((∃ r, find S f l v m = .ok r) ↔ (f.base ≠ l.base ∨ l.pos = 0) ∧ f.pos ≠ 0 ∧ ∃ i, f.addr ≤ i ∧ i < (f.base + 1) * w ∧ bitAt m i = some v) ∧
    ∀ i m', find S f l v m = .ok (i, m') → m' = m ∧ i.Valid ∧ i.addr < (f.base + 1) * w ∧ FirstAt m v f.addr ((f.base + 1) * w) i.addr := by
  have hf' : f.pos < w := hf
  have hw : 0 < w := by omega
  have hfa : f.addr = f.base * w + f.pos := rfl
  have e1 : (f.base + 1) * (w : Int) = f.base * w + w := by ring
  rcases find_reversed S m f l v hf hl hr with ⟨h0, e⟩ | ⟨_, h1, e⟩ | ⟨x, h0, h1, e⟩
  · rw [e]
    exact ⟨⟨fun ⟨r, h⟩ => (by cases h), fun h => absurd h0 h.2.1⟩, fun i m' h => (by cases h)⟩
  · rw [e]
    refine ⟨⟨fun ⟨r, h⟩ => (by cases h), fun ⟨_, _, i, h2, h3, h4⟩ => ?_⟩, fun i m' h => (by cases h)⟩
    obtain ⟨x, hx⟩ := mapped_word hw (m := m) (a := f.base) (i := i) (by omega) (by omega) (by rw [h4]; rfl)
    rw [h1] at hx
    cases hx
  · have hbit : ∀ i, f.addr ≤ i → i < (f.base + 1) * w → bitAt m i = some (x.getLsbD (f.pos + (i - f.addr).toNat)) := by
      intro i h2 h3
      rw [bitAt_of_word h1 (by omega) (by omega)]
      congr 2
      omega
    obtain ⟨t1, t2, t3⟩ := tzFor_spec v (x >>> f.pos)
    simp only [BitVec.getLsbD_ushiftRight] at t2 t3
    rw [e]
    generalize tzFor v (x >>> f.pos) = num at t1 t2 t3
    by_cases h2 : f.base = l.base ∧ l.pos ≠ 0
    · rw [if_pos h2]
      exact ⟨⟨fun ⟨r, h⟩ => (by cases h), fun h => by rcases h.1 with h | h <;> simp_all⟩, fun i m' h => (by cases h)⟩
    · rw [if_neg h2]
      by_cases h3 : num + f.pos < w
      · rw [if_pos h3]
        have hv : bitAt m (f.addr + num) = some v := by
          rw [hbit _ (by omega) (by omega), show (f.addr + num - f.addr).toNat = num by omega, t3 (by omega)]
        refine ⟨⟨fun _ => ⟨?_, h0, f.addr + num, by omega, by omega, hv⟩, fun _ => ⟨_, rfl⟩⟩, ?_⟩
        · by_cases h4 : f.base = l.base
          · exact .inr (by by_contra h5; exact h2 ⟨h4, h5⟩)
          · exact .inl h4
        · intro i m' h
          cases h
          rw [BitIter.add_addr hw]
          refine ⟨rfl, BitIter.add_valid hw _ _, by omega, by omega, by omega, fun i h4 h5 => ?_, fun _ => hv⟩
          rw [hbit i h4 (by omega), t2 _ (by omega)]
      · rw [if_neg h3]
        refine ⟨⟨fun ⟨r, h⟩ => (by cases h), fun ⟨_, _, i, h4, h5, h6⟩ => ?_⟩, fun i m' h => (by cases h)⟩
        rw [hbit i h4 h5, t2 _ (by omega)] at h6
        cases v <;> cases h6

/-- C105: so on every range, reversed or not, except for those of `C105_find_exact`, `find` does the same in both builds. -/
theorem C105_find_builds (S : ShiftSem w) (m : Mem w) (f l : BitIter w) (v : Bool) (hf : f.Valid) (hl : l.Valid)
    (h : ¬ (f.base = l.base ∧ 0 < l.pos ∧ l.pos < f.pos)) : (AlgCall.find f l v).release S m = (AlgCall.find f l v).debug S m := by
  rcases C105_call S (.find f l v) m with h1 | h1
  · obtain ⟨h2, h3, h4, _⟩ := (C105_find_exact S m f l v hf hl).1 (map_fails h1)
    exact absurd ⟨h2, h3, h4⟩ h
  · exact h1

/- A bit of word 1 is found although `last` is in word 0; in one word an assertion fails; without a bit to find the search runs out of the range. -/
example : find S8 ⟨1, 3⟩ ⟨0, 1⟩ true (memOf [0#8, 0xf0#8]) = .ok (⟨1, 4⟩, memOf [0#8, 0xf0#8]) ∧
    find S8 ⟨1, 3⟩ ⟨1, 1⟩ true (memOf [0#8, 0xf0#8]) = .error .assertFail ∧ find S8 ⟨1, 3⟩ ⟨0, 1⟩ true (memOf [0#8, 0x0f#8, 0#8]) = .ok (⟨1, 3⟩, memOf [0#8, 0x0f#8, 0#8]) ∧
    find S8 ⟨1, 4⟩ ⟨0, 1⟩ true (memOf [0#8, 0x0f#8, 0#8]) = .error .badRange := ⟨rfl, rfl, rfl, rfl⟩

example : (⟨1, 3⟩ : BitIter 8).Valid ∧ (⟨0, 1⟩ : BitIter 8).Valid ∧ (⟨0, 1⟩ : BitIter 8).addr < (⟨1, 3⟩ : BitIter 8).addr := by decide

end BitLib
