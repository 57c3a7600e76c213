import Verif.Lemmas.NoAssert
import Verif.Lemmas.ReleaseExact
import Verif.Props.OpCalls
import Verif.Props.Overshift
import Verif.Props.Release
/-
C105: exactly which calls fail an assertion.
-/
namespace BitLib
variable {w : Nat}

/-- C105: with proper iterators an assertion fails exactly in the calls that `AlgCall.Refused` lists, whatever the memory and the overlap of
the ranges, even if words of the ranges do not exist (`pw` is the width of the type in which words are shifted). -/
theorem C105_exact (pw : Nat) (hp : w ≤ pw) (hpw : pw + w ≤ 2 ^ 64) (c : AlgCall w) (m : Mem w) (hc : c.Proper) :
    c.debug (.strict pw hp) m = .error .assertFail ↔ c.Refused := by
  refine ⟨fun h => ?_, C105_refused _ c m⟩
  by_contra hr
  have hS : pw = w ∨ (ShiftSem.strict pw hp).FullShiftOk := by
    rcases Nat.lt_or_eq_of_le hp with h1 | h1
    · exact .inr (.inl h1)
    · exact .inl h1.symm
  cases c with
  | distance f l =>
    have h1 := map_fails h
    have hr : ¬ l.addr < f.addr := hr
    unfold BitLib.distance assertViable BitLib.assertM at h1
    rw [if_pos (by rw [BitIter.diff_eq]; omega)] at h1
    cases h1
  | getWord f n =>
    have hr : ¬ w < n := hr
    exact (na_getWord hp f (by omega)).never m (map_fails h)
  | writeWord x d n => exact (na_writeWord hp x d n).never m (map_fails (f := fun _ => Out.unit) h)
  | copy f l d =>
    have hr : ¬ l.addr < f.addr := hr
    have hw : 0 < w := Nat.lt_of_le_of_lt (Nat.zero_le _) hc.1
    obtain ⟨r, m', e, _⟩ := OpCalls.C104_overlap (.strict pw hp) id m.total f l d (range_total m hc.1 hc.2.1 (by omega)) (dest_total m hc.2.2 _)
    rw [← copy_eq hw] at e
    exact no_fail Gen.r_copy (map_fails h) (.inl ⟨_, e⟩)
  | move f l d =>
    have hr : ¬ l.addr < f.addr := hr
    have hw : 0 < w := Nat.lt_of_le_of_lt (Nat.zero_le _) hc.1
    obtain ⟨r, m', e, _⟩ := OpCalls.C104_overlap (.strict pw hp) id m.total f l d (range_total m hc.1 hc.2.1 (by omega)) (dest_total m hc.2.2 _)
    rw [← move_eq hw] at e
    exact no_fail Gen.r_move (map_fails h) (.inl ⟨_, e⟩)
  | copyBackward f l d =>
    have hr : ¬ l.addr < f.addr := hr
    exact (na_copyBackward hp hc.1 hc.2.1 hc.2.2 (by omega)).never m (map_fails h)
  | fill f l v =>
    have hr : ¬ l.addr < f.addr := hr
    obtain ⟨m', e, _⟩ := C10_fill (.strict pw hp) m.total f l v (range_total m hc.1 hc.2 (by omega))
    exact no_fail Gen.r_fill (map_fails (f := fun _ => Out.unit) h) (.inl ⟨_, e⟩)
  | transform op f l d =>
    have hr : ¬ l.addr < f.addr := hr
    obtain ⟨r, m', e, _⟩ := OpCalls.C104_overlap (.strict pw hp) op m.total f l d (range_total m hc.1 hc.2.1 (by omega)) (dest_total m hc.2.2 _)
    exact no_fail Gen.r_transform (map_fails h) (.inl ⟨_, e⟩)
  | transform2 op f l f2 d =>
    have hr : ¬ l.addr < f.addr := hr
    obtain ⟨r, m', e, _⟩ := OpCalls.C104_transform2 (τ := Unit) (σ := Unit) (ε := Empty) (.strict pw hp) (fun x s => (.ok (op x.1 x.2), s)) m.total f l f2 d
      () () (range_total m hc.1 hc.2.1 (by omega)) (dest_total m hc.2.2.1 _) (dest_total m hc.2.2.2 _)
    rw [OpCalls.C104_pure2, OpCalls.words_run] at e
    refine no_fail Gen.r_transform2 (map_fails h) (.inl ?_)
    cases hx : BitLib.transform2 (.strict pw hp) op f l f2 d m.total with
    | error u => rw [hx] at e; cases e
    | ok p => exact ⟨p, rfl⟩
  | reverse f l =>
    have hr : ¬ l.addr < f.addr := hr
    have rg := range_total m hc.1 hc.2 (by omega : f.addr ≤ l.addr)
    refine no_fail Gen.r_reverse (map_fails (f := fun _ => Out.unit) h) ?_
    by_cases hb : f.pos ≠ 0 ∧ l.addr = (f.base + 1) * w
    · rcases hS with rfl | hS
      · have hf : f.pos < pw := hc.1
        have hfa : f.addr = f.base * pw + f.pos := rfl
        have hne : f.addr < l.addr := by rw [hb.2, Int.add_mul]; omega
        exact .inr ((C18_reverse_exact m.total f l rg hne).2 hb)
      · obtain ⟨m', e, _⟩ := C15_reverse _ m.total f l rg (.inr (.inr (bit_total m _))) (.inr hS)
        exact .inl ⟨_, e⟩
    · obtain ⟨m', e, _⟩ := C15_reverse (.strict pw hp) m.total f l rg (.inr (.inr (bit_total m _))) (.inl hb)
      exact .inl ⟨_, e⟩
  | rotate f n l =>
    have hr : ¬ (n.addr < f.addr ∨ l.addr < n.addr) := hr
    have rg := range_total m hc.1 hc.2.1 (by omega : f.addr ≤ l.addr)
    refine no_fail Gen.r_rotate (map_fails h) ?_
    by_cases hn : n.addr < l.addr
    · obtain ⟨r, m', e, _⟩ := C21_rotate_terminates (.strict pw hp) m.total f n l rg hc.2.2 (by omega) hn
      exact .inl ⟨_, e⟩
    · obtain rfl : n = l := BitIter.addr_inj hc.2.2 hc.2.1 (by omega)
      by_cases hk : f.addr = n.addr ∨ n.pos ≠ 0 ∨ (w < len f n ∧ (bitAt m.total n.addr).isSome)
      · exact .inl ⟨_, C20_rotate_end_partial (.strict pw hp) m.total f n rg hk⟩
      · have h1 : ¬ (w : Int) < len f n := fun h1 => hk (.inr (.inr ⟨h1, bit_total m _⟩))
        obtain ⟨o1, o2, o3, _⟩ := C20_outcomes pw hp hpw m.total f n rg (by omega) (by omega)
        rcases Int.lt_or_eq_of_le (Int.not_lt.mp h1) with h2 | h2
        · exact .inr (o3 h2)
        · rcases Nat.lt_or_eq_of_le hp with h3 | h3
          · exact .inl ⟨_, o1 h2 h3⟩
          · exact .inr (o2 h2 h3)
  | shiftLeft f l n =>
    have hr : ¬ l.addr < f.addr := hr
    have rg := range_total m hc.1 hc.2 (by omega : f.addr ≤ l.addr)
    refine no_fail Gen.r_shiftLeft (map_fails h) ?_
    by_cases h0 : n ≤ 0
    · exact .inl ⟨_, C16_shift_left_nonpos _ m.total f l n rg h0⟩
    by_cases h1 : len f l ≤ n
    · exact .inl ⟨_, C16_shift_left_all _ m.total f l n rg (by omega) h1⟩
    by_cases hb : f.pos = 0 ∧ len f l = w
    · rcases hS with rfl | hS
      · exact .inr ((C18_shift_left_exact m.total f l n rg).2 ⟨hb.1, hb.2, by omega, by omega⟩)
      · obtain ⟨r, m', e, _⟩ := C16_shift_left _ m.total f l n rg (by omega) (by omega) (.inr hS)
        exact .inl ⟨_, e⟩
    · obtain ⟨r, m', e, _⟩ := C16_shift_left (.strict pw hp) m.total f l n rg (by omega) (by omega) (.inl hb)
      exact .inl ⟨_, e⟩
  | shiftRight f l n =>
    have hr : ¬ l.addr < f.addr := hr
    have rg := range_total m hc.1 hc.2 (by omega : f.addr ≤ l.addr)
    refine no_fail Gen.r_shiftRight (map_fails h) ?_
    by_cases h0 : n ≤ 0
    · exact .inl ⟨_, C17_shift_right_nonpos _ m.total f l n rg h0⟩
    by_cases h1 : len f l ≤ n
    · exact .inl ⟨_, C17_shift_right_all _ m.total f l n rg (by omega) h1⟩
    by_cases hb : f.pos = 0 ∧ len f l = w
    · rcases hS with rfl | hS
      · exact .inr ((C18_shift_right_exact m.total f l n rg).2 ⟨hb.1, hb.2, by omega, by omega⟩)
      · obtain ⟨r, m', e, _⟩ := C17_shift_right _ m.total f l n rg (by omega) (by omega) (.inr hS)
        exact .inl ⟨_, e⟩
    · obtain ⟨r, m', e, _⟩ := C17_shift_right (.strict pw hp) m.total f l n rg (by omega) (by omega) (.inl hb)
      exact .inl ⟨_, e⟩
  | swapRanges f l f2 =>
    have hr : ¬ l.addr < f.addr := hr
    exact (na_swapRanges hp hc.2.1 (by omega)).never m (map_fails h)
  | find f l v =>
    obtain ⟨r, e, _⟩ := C11_find (.strict pw hp) m.total f l v (range_total m hc.1 hc.2.1 hc.2.2) (.inr (.inr (bit_total m _)))
    exact no_fail Gen.r_find (map_fails h) (.inl ⟨_, e⟩)
  | count f l v =>
    have hr : ¬ l.addr < f.addr := hr
    refine no_fail Gen.r_count (map_fails h) (.inl ?_)
    by_cases hne : f.addr < l.addr
    · exact ⟨_, C13_count (.strict pw hp) m.total f l v (range_total m hc.1 hc.2 (by omega)) hne⟩
    · obtain rfl : f = l := BitIter.addr_inj hc.1 hc.2 (by omega)
      exact ⟨_, C14_count_empty_partial (.strict pw hp) m.total f v hc.1 (bit_total m _)⟩
  | equal f l d =>
    have hr : ¬ l.addr < f.addr := hr
    obtain ⟨b, e, _⟩ := C12_equal (.strict pw hp) m.total f l d (range_total m hc.1 hc.2.1 (by omega)) (dest_total m hc.2.2 _)
    exact no_fail Gen.r_equal (map_fails h) (.inl ⟨_, e⟩)

/-- C105: so with proper iterators the two builds agree on every call that is not refused: the same result, or the same undefined behaviour. -/
theorem C105_proper (pw : Nat) (hp : w ≤ pw) (hpw : pw + w ≤ 2 ^ 64) (c : AlgCall w) (m : Mem w) (hc : c.Proper) (hr : ¬ c.Refused) :
    c.release (.strict pw hp) m = c.debug (.strict pw hp) m := by
  rcases C105_call (.strict pw hp) c m with h | h
  · exact absurd ((C105_exact pw hp hpw c m hc).1 h) hr
  · exact h

/- A copy that overlaps and runs out of memory: no assertion fails, and both builds read outside. -/
example : (AlgCall.copy ⟨0, 3⟩ ⟨2, 6⟩ ⟨1, 1⟩ : AlgCall 8).Proper ∧ ¬ (AlgCall.copy ⟨0, 3⟩ ⟨2, 6⟩ ⟨1, 1⟩ : AlgCall 8).Refused ∧
    (AlgCall.copy ⟨0, 3⟩ ⟨2, 6⟩ ⟨1, 1⟩).release S8 (memOf [0#8, 0#8]) = .error .outOfBounds :=
  ⟨by unfold AlgCall.Proper; decide, by unfold AlgCall.Refused; decide, rfl⟩

/- A reversed range of `count` is refused. -/
example : (AlgCall.count ⟨2, 1⟩ ⟨2, 0⟩ true : AlgCall 8).Proper ∧ (AlgCall.count ⟨2, 1⟩ ⟨2, 0⟩ true : AlgCall 8).Refused :=
  ⟨by unfold AlgCall.Proper; decide, by unfold AlgCall.Refused; decide⟩

/- Ranges of `swap_ranges` that overlap, and of `copy_backward` that overlap in the wrong way. -/
example : (AlgCall.swapRanges ⟨0, 3⟩ ⟨2, 6⟩ ⟨1, 1⟩ : AlgCall 8).Proper ∧ ¬ (AlgCall.swapRanges ⟨0, 3⟩ ⟨2, 6⟩ ⟨1, 1⟩ : AlgCall 8).Refused ∧
    (AlgCall.copyBackward ⟨0, 3⟩ ⟨2, 6⟩ ⟨2, 1⟩ : AlgCall 8).Proper ∧ ¬ (AlgCall.copyBackward ⟨0, 3⟩ ⟨2, 6⟩ ⟨2, 1⟩ : AlgCall 8).Refused :=
  ⟨by unfold AlgCall.Proper; decide, by unfold AlgCall.Refused; decide, by unfold AlgCall.Proper; decide, by unfold AlgCall.Refused; decide⟩

end BitLib
