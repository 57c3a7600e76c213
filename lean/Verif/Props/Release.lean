import Verif.Lemmas.Release
import Verif.SpecRelease
import Verif.Props.Copy
import Verif.Props.Query
import Verif.Props.Shift
import Verif.Props.Rotate
import Verif.Props.Run
/-
C105: builds with `NDEBUG`.
-/
namespace BitLib
variable {w : Nat} {α : Type}

/-- C105: for every call and every memory, either an assertion fails in the build with assertions, or the build with `NDEBUG` does exactly
the same: the same result and the same memory, or the same undefined behaviour. -/
theorem C105_call (S : ShiftSem w) (c : AlgCall w) (m : Mem w) : c.debug S m = .error .assertFail ∨ c.release S m = c.debug S m := by
  suffices h : UnlessAssert (c.debug S) (c.release S) from h m
  cases c <;> unfold AlgCall.debug AlgCall.release <;> refine Gen.s_bind ?_ fun _ => Gen.s_pure _
  · exact Gen.s_distance
  · exact Gen.s_getWord
  · exact Gen.s_writeWord
  · exact Gen.s_copy
  · exact Gen.s_move
  · exact Gen.s_copyBackward
  · exact Gen.s_fill
  · exact Gen.s_transform
  · exact Gen.s_transform2
  · exact Gen.s_reverse
  · exact Gen.s_rotate
  · exact Gen.s_shiftLeft
  · exact Gen.s_shiftRight
  · exact Gen.s_swapRanges
  · exact Gen.s_find
  · exact Gen.s_count
  · exact Gen.s_equal

/- Both cases occur: the range of the first call is reversed, that of the second is not. -/
example : (AlgCall.fill ⟨1, 2⟩ ⟨0, 3⟩ true).debug S8 (memOf [0#8, 0#8]) = .error .assertFail ∧
    (∃ m', (AlgCall.fill ⟨0, 3⟩ ⟨1, 2⟩ true).release S8 (memOf [0#8, 0#8]) = .ok (.unit, m') ∧ m' 0 = some 0xf8#8 ∧ m' 1 = some 3#8) :=
  ⟨rfl, _, rfl, by decide +kernel, by decide +kernel⟩

/-- C105, whole programs: the same for programs that make any calls, in any order, depending on what earlier calls returned. -/
theorem C105_program (S : ShiftSem w) (p : AlgProg w α) (m : Mem w) : p.debug S m = .error .assertFail ∨ p.release S m = p.debug S m := by
  suffices h : UnlessAssert (p.debug S) (p.release S) from h m
  induction p with
  | done a => exact Gen.s_pure a
  | call c next ih => exact Gen.s_bind (C105_call S c) ih

/-- C105: a program that runs to its end in the build with assertions does the same in the other build. -/
theorem C105_ok (S : ShiftSem w) (p : AlgProg w α) (m : Mem w) (r : α × Mem w) (h : p.debug S m = .ok r) : p.release S m = .ok r := by
  rcases C105_program S p m with h' | h'
  · rw [h] at h'; cases h'
  · rw [h', h]

/-- C105: the other way round, a program that runs to its end in the build with `NDEBUG` does so in the other build, unless an assertion
fails in that; every other undefined behaviour is the same in both. -/
theorem C105_back (S : ShiftSem w) (p : AlgProg w α) (m : Mem w) (r : Except UB (α × Mem w)) (h : p.release S m = r) :
    p.debug S m = r ∨ p.debug S m = .error .assertFail := by
  rcases C105_program S p m with h' | h'
  · exact .inr h'
  · exact .inl (h'.symm.trans h)

theorem map_ok {β : Type} {x : M w α} {f : α → β} {m m' : Mem w} {a : α} (h : x m = .ok (a, m')) :
    (x >>= fun a => (pure (f a) : M w β)) m = .ok (f a, m') := by
  show (x m >>= fun p => (pure (f p.1) : M w β) p.2) = _
  rw [h]; rfl

theorem map_ok' {β : Type} {x : M w Unit} {b : β} {m m' : Mem w} (h : x m = .ok ((), m')) :
    (x >>= fun _ => (pure b : M w β)) m = .ok (b, m') := map_ok (f := fun _ => b) h

/-- The build with assertions does what the descriptions say (C06 to C24, here in one statement). -/
theorem debug_effect (S : ShiftSem w) (c : AlgCall w) (m : Mem w) (h : c.Fits S m) :
    ∃ r m', c.debug S m = .ok (r, m') ∧ c.Effect m r m' := by
  cases c with
  | distance f l =>
    obtain ⟨h1, h2, h3⟩ := h
    refine ⟨_, _, map_ok (f := Out.num) (a := len f l) (m' := m) ?_, rfl, rfl⟩
    unfold BitLib.distance assertViable BitLib.assertM
    rw [if_pos (by rw [BitIter.diff_eq]; omega)]
    show Except.ok (_, m) = _
    congr 2
    unfold len BitIter.addr
    rw [Int.sub_mul]; omega
  | getWord f n => exact h.elim
  | writeWord x d n => exact h.elim
  | copy f l d => obtain ⟨i, m', e, h1, h2, h3⟩ := C06_copy S m f l d h.1 h.2.1 h.2.2; exact ⟨_, _, map_ok e, i, rfl, h1, h2, h3⟩
  | move f l d => obtain ⟨i, m', e, h1, h2, h3⟩ := C08_move S m f l d h.1 h.2.1 h.2.2; exact ⟨_, _, map_ok e, i, rfl, h1, h2, h3⟩
  | copyBackward f l d =>
    obtain ⟨i, m', e, h1, h2, h3⟩ := C09_copy_backward S m f l d h.1 h.2.1 h.2.2.1 h.2.2.2.1 h.2.2.2.2
    exact ⟨_, _, map_ok e, i, rfl, h1, h2, h3⟩
  | fill f l v => obtain ⟨m', e, h1⟩ := C10_fill S m f l v h; exact ⟨_, _, map_ok' e, rfl, h1⟩
  | transform op f l d =>
    obtain ⟨hr, hd, ho, g, hg⟩ := h
    obtain ⟨i, m', e, h1, h2, _⟩ := C23_transform S op g hg m f l d hr hd ho
    refine ⟨_, _, map_ok e, i, rfl, h1, h2, fun g' hg' => ?_⟩
    obtain ⟨i', m2, e', _, _, h3⟩ := C23_transform S op g' hg' m f l d hr hd ho
    rw [e] at e'
    cases e'
    exact h3
  | transform2 op f l f2 d =>
    obtain ⟨hr, hf, hd, ho, ho2, g, hg⟩ := h
    obtain ⟨i, m', e, h1, h2, _⟩ := C24_transform2 S op g hg m f l f2 d hr hf hd ho ho2
    refine ⟨_, _, map_ok e, i, rfl, h1, h2, fun g' hg' => ?_⟩
    obtain ⟨i', m2, e', _, _, h3⟩ := C24_transform2 S op g' hg' m f l f2 d hr hf hd ho ho2
    rw [e] at e'
    cases e'
    exact h3
  | reverse f l => obtain ⟨m', e, h1⟩ := C15_reverse S m f l h.1 (.inl h.2.1) h.2.2; exact ⟨_, _, map_ok' e, rfl, h1⟩
  | rotate f n l =>
    obtain ⟨i, m', e, h1, h2, h3⟩ := C19_rotate_partial S m f n l h.1 h.2.1 h.2.2.1 h.2.2.2.1 h.2.2.2.2
    exact ⟨_, _, map_ok e, i, rfl, h1, h2, h3⟩
  | shiftLeft f l n =>
    obtain ⟨i, m', e, h1, h2, h3⟩ := C16_shift_left S m f l n h.1 h.2.1 h.2.2.1 h.2.2.2
    exact ⟨_, _, map_ok e, i, rfl, h1, h2, h3⟩
  | shiftRight f l n =>
    obtain ⟨i, m', e, h1, h2, h3⟩ := C17_shift_right S m f l n h.1 h.2.1 h.2.2.1 h.2.2.2
    exact ⟨_, _, map_ok e, i, rfl, h1, h2, h3⟩
  | swapRanges f l f2 =>
    obtain ⟨i, m', e, h1, h2, h3⟩ := C22_swap_ranges S m f l f2 h.1 h.2.1 h.2.2
    exact ⟨_, _, map_ok e, i, rfl, h1, h2, h3⟩
  | find f l v => obtain ⟨i, e, h1, h2⟩ := C11_find S m f l v h.1 (.inl h.2); exact ⟨_, _, map_ok e, i, rfl, h1, h2, rfl⟩
  | count f l v => exact ⟨_, _, map_ok (C13_count S m f l v h.1 h.2), rfl, rfl⟩
  | equal f l d => obtain ⟨b, e, h1⟩ := C12_equal S m f l d h.1 h.2; exact ⟨_, _, map_ok e, b, rfl, h1, rfl⟩

/-- C105: so a call that has what it needs does in the build with `NDEBUG` what its description says. -/
theorem C105_valid (S : ShiftSem w) (c : AlgCall w) (m : Mem w) (h : c.Fits S m) :
    ∃ r m', c.release S m = .ok (r, m') ∧ c.Effect m r m' := by
  obtain ⟨r, m', e, h1⟩ := debug_effect S c m h
  refine ⟨r, m', ?_, h1⟩
  rcases C105_call S c m with h' | h'
  · rw [e] at h'; cases h'
  · rw [h', e]

example : (AlgCall.rotate ⟨0, 6⟩ ⟨1, 7⟩ ⟨3, 3⟩).Fits S8 (memOf [0xa5#8, 0x3c#8, 0x99#8, 0x0f#8]) :=
  ⟨range_memOf (by decide) (by decide) (by decide) (by decide) (by decide), by decide, by decide, by decide,
    RotFits.of_len (by decide)⟩

/-- C105: and a program all of whose calls have what they need runs to its end, in both builds alike, with the effect that the descriptions
of its calls give. -/
theorem C105_valid_program (S : ShiftSem w) (p : AlgProg w α) (m : Mem w) (h : p.Fits S m) :
    ∃ a m', p.debug S m = .ok (a, m') ∧ p.release S m = .ok (a, m') ∧ p.Effect m a m' := by
  suffices hs : ∃ a m', p.debug S m = .ok (a, m') ∧ p.Effect m a m' by
    obtain ⟨a, m', e, h1⟩ := hs
    exact ⟨a, m', e, C105_ok S p m _ e, h1⟩
  induction p generalizing m with
  | done a => exact ⟨a, m, rfl, rfl, rfl⟩
  | call c next ih =>
    obtain ⟨r, m1, e, h1⟩ := debug_effect S c m h.1
    obtain ⟨a, m', e', h2⟩ := ih r m1 (h.2 r m1 h1)
    refine ⟨a, m', ?_, r, m1, h1, h2⟩
    show (c.debug S m >>= fun q => (next q.1).debug S q.2) = _
    rw [e]
    exact e'

/-- C105: with assertions, a call with a reversed range (or `get_word` of more bits than a word has) stops at the assertion, whatever the
memory: nothing has been read or written. The same call is not refused without them. -/
theorem C105_refused (S : ShiftSem w) (c : AlgCall w) (m : Mem w) (h : c.Refused) : c.debug S m = .error .assertFail := by
  have nv : ∀ {f l : BitIter w}, l.addr < f.addr → (assertViable f l : M w Unit) m = .error .assertFail := by
    intro f l h
    unfold assertViable BitLib.assertM
    rw [if_neg (by rw [BitIter.diff_eq]; omega)]
    rfl
  have ok : ∀ {f l : BitIter w}, f.addr ≤ l.addr → (assertViable f l : M w Unit) = pure () := by
    intro f l h
    unfold assertViable BitLib.assertM
    rw [if_pos (by rw [BitIter.diff_eq]; omega)]
  have st : ∀ {β γ : Type} {x : M w β} {k : β → M w γ}, x m = .error .assertFail → (x >>= k) m = .error .assertFail := by
    intro β γ x k h
    show (x m >>= fun p => k p.1 p.2) = _
    rw [h]; rfl
  have dv : ∀ {f l : BitIter w}, l.addr < f.addr → BitLib.distance f l m = .error .assertFail := fun h => st (nv h)
  cases c with
  | find f l v => exact h.elim
  | writeWord x d n => exact h.elim
  | getWord f n =>
    refine st (st ?_)
    unfold BitLib.assertM
    rw [if_neg (by have : w < n := h; omega)]
    rfl
  | rotate f n l =>
    refine st ?_
    rcases h with h | h
    · exact st (nv h)
    · by_cases h' : n.addr < f.addr
      · exact st (nv h')
      · unfold BitLib.rotate
        rw [ok (by omega), pure_bind]
        exact st (nv h)
  | distance f l => exact st (dv h)
  | shiftRight f l n => exact st (st (dv h))
  | _ => exact st (st (nv h))

example : (AlgCall.rotate ⟨0, 6⟩ ⟨1, 7⟩ ⟨1, 3⟩ : AlgCall 8).Refused := .inr (by decide)

/- What the assertion prevented is not defined either: without it, `copy` of a reversed range hands `std::copy` a reversed range. -/
example : (AlgCall.copy ⟨3, 0⟩ ⟨1, 0⟩ ⟨0, 0⟩).debug S8 (memOf [0#8, 0#8, 0#8, 0#8]) = .error .assertFail := rfl

/-- C105: without assertions, `distance` of any two iterators is their signed distance, as its comment says, and an iterator may be built
with any position. -/
theorem C105_distance (S : ShiftSem w) (f l : BitIter w) (a : Int) (pos : Nat) (m : Mem w) :
    (AlgCall.distance f l).release S m = .ok (.num (l.addr - f.addr), m) ∧ (Gen.BitIter.mk? a pos : Rel w _) m = .ok (⟨a, pos⟩, m) := by
  refine ⟨?_, rfl⟩
  show Except.ok (Out.num ((l.base - f.base) * (w : Int) + ((l.pos : Int) - (f.pos : Int))), m) = _
  congr 3
  unfold BitIter.addr
  rw [Int.sub_mul]; omega

/- The same call with assertions stops. -/
example : (AlgCall.distance ⟨1, 2⟩ ⟨0, 3⟩).release S8 (memOf []) = .ok (.num (-7), memOf []) ∧
    (AlgCall.distance ⟨1, 2⟩ ⟨0, 3⟩).debug S8 (memOf []) = .error .assertFail := ⟨rfl, rfl⟩

/-- C105: `find` is the one algorithm that does not check its range first: for this reversed range no assertion fails, it returns a
position behind `first`, and so it does without assertions. -/
theorem C105_find_unchecked : (∀ m : Mem 8, m 1 = some 0xf0#8 →
    (AlgCall.find ⟨1, 3⟩ ⟨0, 1⟩ true).debug S8 m = .ok (.it ⟨1, 4⟩, m) ∧ (AlgCall.find ⟨1, 3⟩ ⟨0, 1⟩ true).release S8 m = .ok (.it ⟨1, 4⟩, m)) ∧
    (⟨0, 1⟩ : BitIter 8).addr < (⟨1, 3⟩ : BitIter 8).addr := by
  refine ⟨fun m hm => ?_, by decide⟩
  have e : (AlgCall.find ⟨1, 3⟩ ⟨0, 1⟩ true).debug S8 m = .ok (.it ⟨1, 4⟩, m) := by
    refine map_ok (f := Out.it) (a := (⟨1, 4⟩ : BitIter 8)) ?_
    unfold BitLib.find
    rw [if_pos (by decide)]
    show ((BitLib.load 1 : M 8 _) m >>= _) = _
    unfold BitLib.load
    rw [hm]
    rfl
  refine ⟨e, ?_⟩
  rcases C105_call S8 (.find ⟨1, 3⟩ ⟨0, 1⟩ true) m with h | h
  · rw [e] at h; cases h
  · rw [h, e]

/-! ### Example: a program that looks for a one and sets everything before it -/

def seekFill : AlgProg 8 Int :=
  .call (.find ⟨0, 3⟩ ⟨1, 6⟩ true) fun r => match r with
    | .it i => .call (.fill ⟨0, 3⟩ i true) fun _ => .call (.count ⟨0, 3⟩ ⟨1, 6⟩ true) fun r => match r with
      | .num n => .done n
      | _ => .done 0
    | _ => .done 0

example : (seekFill.release S8 (memOf [0#8, 0xf4#8])).map (·.1) = .ok 10 ∧ (seekFill.debug S8 (memOf [0#8, 0xf4#8])).map (·.1) = .ok 10 :=
  ⟨by decide +kernel, by decide +kernel⟩

end BitLib
