import Verif.Lemmas.StdAlg
import Verif.Props.Client
import Verif.Props.Copy
import Verif.Props.Query
import Verif.Props.Rotate
import Verif.Props.Overshift
import Verif.Props.Shift
/-
C90: the algorithms of the standard library, run on bit iterators, and the library's algorithms of the same name give the same result and leave
the same memory.
-/
namespace BitLib
variable {w : Nat}

theorem Std.start_at {first last second third : BitIter w} (h1 : first.Valid) (h2 : last.Valid) (h3 : second.Valid) (h4 : third.Valid) :
    SlotsAt 0 (Std.start first last second third) (Std.start first.addr last.addr second.addr third.addr) := by
  refine ⟨fun k => ?_, fun k => .inl ⟨rfl, rfl⟩, fun k => .inl ⟨rfl, rfl⟩⟩
  match k with
  | 0 => exact .inr ⟨_, _, rfl, rfl, h1, by omega⟩
  | 1 => exact .inr ⟨_, _, rfl, rfl, h2, by omega⟩
  | 2 => exact .inr ⟨_, _, rfl, rfl, h3, by omega⟩
  | 3 => exact .inr ⟨_, _, rfl, rfl, h4, by omega⟩
  | _+4 => exact .inl ⟨rfl, rfl⟩

/-- From the tape to the memory. -/
theorem Std.transfer {α : Type} (S : ShiftSem w) (bi : Bool) {c : Client α} {m : Mem w} {first last second third : BitIter w} (h1 : first.Valid)
    (h2 : last.Valid) (h3 : second.Valid) (h4 : third.Valid) {x : α} {t' : Slots Int Int Int} {tape : Tape}
    (h : c.ideal (Std.start first.addr last.addr second.addr third.addr) (bitAt m) = .ok ((x, t'), tape)) :
    ∃ s' m', c.code S bi (Std.start first last second third) m = .ok ((x, s'), m') ∧ (∀ i, bitAt m' i = tape i) ∧
      ∀ k p, t'.it k = some p → ∃ it, s'.it k = some it ∧ it.Valid ∧ it.addr = p := by
  have := C89_exact S bi c 0 m _ _ (Std.start_at h1 h2 h3 h4)
  rw [show (fun p => bitAt m (0 + p)) = bitAt m from funext fun p => by rw [Int.zero_add], h] at this
  obtain ⟨s', m', e1, e2, e3⟩ := this
  refine ⟨s', m', e1, fun i => ?_, fun k p hk => ?_⟩
  · rw [e3 i, Int.zero_add]
  · rcases e2.it k with ⟨_, hn⟩ | ⟨a, b, ha, hb, hv, hab⟩
    · rw [hk] at hn; cases hn
    · rw [hk] at hb; cases hb
      exact ⟨a, ha, hv, by omega⟩

theorem Std.of_range {m : Mem w} {first last : BitIter w} (hr : Range m first last) : last.addr = first.addr + ((len first last).toNat : Int) := by
  have := hr.le
  unfold len
  omega

/-- C90: `std::find` and `bit::find`. -/
theorem C90_find (S : ShiftSem w) (bi : Bool) (m : Mem w) (first last : BitIter w) (v : Bool) (k : Nat) (hr : Range m first last)
    (hk : len first last < k) (hne : first.addr < last.addr ∨ first.pos = 0 ∨ (bitAt m first.addr).isSome) :
    ∃ s' r, (Std.find v k).code S bi (Std.start first last first first) m = .ok ((some (), s'), m) ∧ s'.it 0 = some r ∧
      find S first last v m = .ok (r, m) := by
  have hw : 0 < w := Nat.lt_of_le_of_lt (Nat.zero_le _) hr.1
  have hl := Std.of_range hr
  have hn : ((len first last).toNat : Int) = len first last := by have := hr.le; unfold len; omega
  obtain ⟨t', p, h1, h2, h3, h4, h5, h6⟩ := Std.find_ideal (tp := bitAt m) v (len first last).toNat k
    (Std.start first.addr last.addr first.addr first.addr) first.addr (by omega) rfl (by rw [← hl]; rfl)
    (fun i a b => hr.mapped i a (by omega))
  obtain ⟨s', m', e1, e2, e3⟩ := Std.transfer S bi hr.1 hr.2 hr.1 hr.1 h1
  obtain ⟨it, e4, e5, e6⟩ := e3 0 p h2
  obtain ⟨r, f1, f2, f3⟩ := C11_find S m first last v hr hne
  have hm : m' = m := mem_ext_bitAt hw e2
  rw [hm] at e1
  have : it = r := by
    refine BitIter.addr_inj e5 f2 ?_
    rw [← e6] at h3 h4 h5 h6
    rw [← hl] at h4 h6
    obtain ⟨g1, g2, g3, g4⟩ := f3
    rcases Int.lt_trichotomy it.addr r.addr with hlt | heq | hgt
    · have a1 := g3 it.addr h3 hlt
      have a2 := h6 (by omega)
      rw [a2] at a1; cases v <;> cases a1
    · exact heq
    · have a1 := h5 r.addr g1 hgt
      have a2 := g4 (by omega)
      rw [a2] at a1; cases v <;> cases a1
  exact ⟨s', it, e1, e4, by rw [this]; exact f1⟩

/-- C90: `std::count` and `bit::count`. -/
theorem C90_count (S : ShiftSem w) (bi : Bool) (m : Mem w) (first last : BitIter w) (v : Bool) (k : Nat) (hr : Range m first last)
    (hk : len first last < k) (hne : first.addr < last.addr) :
    ∃ s' n, (Std.count v k 0).code S bi (Std.start first last first first) m = .ok ((some n, s'), m) ∧ count S first last v m = .ok (n, m) := by
  have hw : 0 < w := Nat.lt_of_le_of_lt (Nat.zero_le _) hr.1
  have hl := Std.of_range hr
  have hn : ((len first last).toNat : Int) = len first last := by have := hr.le; unfold len; omega
  obtain ⟨t', h1⟩ := Std.count_ideal (tp := bitAt m) v (len first last).toNat k
    (Std.start first.addr last.addr first.addr first.addr) first.addr 0 (by omega) rfl (by rw [← hl]; rfl)
    (fun i a b => hr.mapped i a (by omega))
  obtain ⟨s', m', e1, e2, _⟩ := Std.transfer S bi hr.1 hr.2 hr.1 hr.1 h1
  have hm : m' = m := mem_ext_bitAt hw e2
  rw [hm] at e1
  refine ⟨s', _, e1, ?_⟩
  rw [C13_count S m first last v hr hne, Int.zero_add]
  rfl

/-- C90: `std::equal` and `bit::equal`. -/
theorem C90_equal (S : ShiftSem w) (bi : Bool) (m : Mem w) (first last d : BitIter w) (k : Nat) (hr : Range m first last)
    (hd : Dest m d (len first last)) (hk : len first last < k) :
    ∃ s' b, (Std.equal k).code S bi (Std.start first last d d) m = .ok ((some b, s'), m) ∧ equal S first last d m = .ok (b, m) := by
  have hw : 0 < w := Nat.lt_of_le_of_lt (Nat.zero_le _) hr.1
  have hl := Std.of_range hr
  have hle := hr.le
  have hn : ((len first last).toNat : Int) = len first last := by unfold len; omega
  obtain ⟨t', b, h1, h2⟩ := Std.equal_ideal (tp := bitAt m) (len first last).toNat k
    (Std.start first.addr last.addr d.addr d.addr) first.addr d.addr (by omega) rfl (by rw [← hl]; rfl) rfl
    (fun i a b => hr.mapped i a (by omega)) (fun i a b => hd.mapped i a (by omega))
  obtain ⟨s', m', e1, e2, _⟩ := Std.transfer S bi hr.1 hr.2 hd.1 hd.1 h1
  have hm : m' = m := mem_ext_bitAt hw e2
  rw [hm] at e1
  obtain ⟨b', f1, f2⟩ := C12_equal S m first last d hr hd
  refine ⟨s', b, e1, ?_⟩
  rw [f1]
  have : b' = b := by
    rw [Bool.eq_iff_iff, f2, h2, hn]
    rfl
  rw [this]

/-- C90: `std::fill` and `bit::fill`. -/
theorem C90_fill (S : ShiftSem w) (bi : Bool) (m : Mem w) (first last : BitIter w) (v : Bool) (k : Nat) (hr : Range m first last)
    (hk : len first last < k) :
    ∃ s' m', (Std.fill v k).code S bi (Std.start first last first first) m = .ok ((some (), s'), m') ∧ fill S first last v m = .ok ((), m') := by
  have hw : 0 < w := Nat.lt_of_le_of_lt (Nat.zero_le _) hr.1
  have hl := Std.of_range hr
  have hn : ((len first last).toNat : Int) = len first last := by have := hr.le; unfold len; omega
  obtain ⟨t', h1⟩ := Std.fill_ideal v (len first last).toNat k (Std.start first.addr last.addr first.addr first.addr) (bitAt m) first.addr (by omega) rfl
    (by rw [← hl]; rfl) (fun i a b => hr.mapped i a (by omega))
  obtain ⟨s', m', e1, e2, _⟩ := Std.transfer S bi hr.1 hr.2 hr.1 hr.1 h1
  obtain ⟨m2, f1, f2⟩ := C10_fill S m first last v hr
  have hm : m2 = m' := mem_ext_bitAt hw fun i => by rw [f2 i, e2 i, ← hl]; rfl
  exact ⟨s', m', e1, by rw [f1, hm]⟩

/-- C90: `std::copy`, `bit::copy` and `bit::move`. -/
theorem C90_copy (S : ShiftSem w) (bi : Bool) (m : Mem w) (first last d : BitIter w) (hr : Range m first last) (hd : Dest m d (len first last))
    (hov : d.addr ≤ first.addr ∨ last.addr ≤ d.addr) :
    ∃ s' r m', Std.copy.code S bi (Std.start first last d d) m = .ok ((some (), s'), m') ∧ s'.it 2 = some r ∧
      copy S first last d m = .ok (r, m') ∧ move S first last d m = .ok (r, m') := by
  have hw : 0 < w := Nat.lt_of_le_of_lt (Nat.zero_le _) hr.1
  have hl := Std.of_range hr
  have hle := hr.le
  have hn : ((len first last).toNat : Int) = len first last := by unfold len; omega
  obtain ⟨t', h1, h2⟩ := Std.copyLoop_ideal (len first last).toNat (Std.start first.addr last.addr d.addr d.addr) (bitAt m) first.addr d.addr rfl rfl
    (fun i a b => hr.mapped i a (by omega)) (fun i a b => hd.mapped i a (by omega)) (by omega)
  have h0 : Std.copy.ideal (Std.start first.addr last.addr d.addr d.addr) (bitAt m) = _ :=
    (Std.ideal_diff (p := last.addr) (q := first.addr) rfl rfl).trans h1
  obtain ⟨s', m', e1, e2, e3⟩ := Std.transfer S bi hr.1 hr.2 hd.1 hd.1 h0
  obtain ⟨it, e4, e5, e6⟩ := e3 2 _ h2
  obtain ⟨r, m2, f1, f2, f3, f4⟩ := C06_copy S m first last d hr hd hov
  have hm : m2 = m' := mem_ext_bitAt hw fun i => by rw [f4 i, e2 i, hn]; rfl
  have hi : it = r := BitIter.addr_inj e5 f2 (by omega)
  refine ⟨s', it, m', e1, e4, by rw [f1, hm, hi], ?_⟩
  rw [C08_move_eq_copy S m first last d hr hd hov, f1, hm, hi]

/-- C90: `std::copy_backward` and `bit::copy_backward`; `hS` is the limit of C18. -/
theorem C90_copy_backward_partial (S : ShiftSem w) (bi : Bool) (m : Mem w) (first last d : BitIter w) (hr : Range m first last) (hd : d.Valid)
    (hdm : Mapped m (d.addr - len first last) d.addr) (hov : last.addr ≤ d.addr ∨ d.addr ≤ first.addr)
    (hS : ¬ (first.pos = 0 ∧ last.pos = d.pos ∧ first.base + 2 ≤ last.base) ∨ S.FullShiftOk) :
    ∃ s' r m', Std.copyBackward.code S bi (Std.start first last d d) m = .ok ((some (), s'), m') ∧ s'.it 2 = some r ∧
      copyBackward S first last d m = .ok (r, m') := by
  have hw : 0 < w := Nat.lt_of_le_of_lt (Nat.zero_le _) hr.1
  have hl := Std.of_range hr
  have hle := hr.le
  have hn : ((len first last).toNat : Int) = len first last := by unfold len; omega
  obtain ⟨t', h1, h2⟩ := Std.copyBackwardLoop_ideal (len first last).toNat (Std.start first.addr last.addr d.addr d.addr) (bitAt m) last.addr d.addr rfl rfl
    (fun i a b => hr.mapped i (by omega) b) (fun i a b => hdm i (by omega) b) (by omega)
  have h0 : Std.copyBackward.ideal (Std.start first.addr last.addr d.addr d.addr) (bitAt m) = _ :=
    (Std.ideal_diff (p := last.addr) (q := first.addr) rfl rfl).trans h1
  obtain ⟨s', m', e1, e2, e3⟩ := Std.transfer S bi hr.1 hr.2 hd hd h0
  obtain ⟨it, e4, e5, e6⟩ := e3 2 _ h2
  obtain ⟨r, m2, f1, f2, f3, f4⟩ := C09_copy_backward S m first last d hr hd hdm hov hS
  have hm : m2 = m' := mem_ext_bitAt hw fun i => by
    rw [f4 i, e2 i, hn]
    unfold Std.wrote
    rw [show d.addr - len first last + len first last = d.addr by omega, show last.addr - len first last = first.addr by omega]
  have hi : it = r := BitIter.addr_inj e5 f2 (by omega)
  exact ⟨s', it, m', e1, e4, by rw [f1, hm, hi]⟩

/-- C90: `std::swap_ranges` and `bit::swap_ranges`. -/
theorem C90_swap_ranges (S : ShiftSem w) (bi : Bool) (m : Mem w) (first last d : BitIter w) (k : Nat) (hr : Range m first last)
    (hd : Dest m d (len first last)) (hdis : last.addr ≤ d.addr ∨ d.addr + len first last ≤ first.addr) (hk : len first last < k) :
    ∃ s' r m', (Std.swapRanges k).code S bi (Std.start first last d d) m = .ok ((some (), s'), m') ∧ s'.it 2 = some r ∧
      swapRanges S first last d m = .ok (r, m') := by
  have hw : 0 < w := Nat.lt_of_le_of_lt (Nat.zero_le _) hr.1
  have hl := Std.of_range hr
  have hle := hr.le
  have hn : ((len first last).toNat : Int) = len first last := by unfold len; omega
  obtain ⟨t', h1, h2, -⟩ := Std.swapRanges_ideal (len first last).toNat k (Std.start first.addr last.addr d.addr d.addr) (bitAt m) first.addr d.addr
    (by omega) rfl (by rw [← hl]; rfl) rfl (fun i a b => hr.mapped i a (by omega)) (fun i a b => hd.mapped i a (by omega)) (by omega)
  obtain ⟨s', m', e1, e2, e3⟩ := Std.transfer S bi hr.1 hr.2 hd.1 hd.1 h1
  obtain ⟨it, e4, e5, e6⟩ := e3 2 _ h2
  obtain ⟨r, m2, f1, f2, f3, f4⟩ := C22_swap_ranges S m first last d hr hd hdis
  have hm : m2 = m' := mem_ext_bitAt hw fun i => by rw [f4 i, e2 i, hn]
  have hi : it = r := BitIter.addr_inj e5 f2 (by omega)
  exact ⟨s', it, m', e1, e4, by rw [f1, hm, hi]⟩

/-- C90: `std::reverse` and `bit::reverse`; `hfull` is the limit of C15. -/
theorem C90_reverse_partial (S : ShiftSem w) (bi : Bool) (m : Mem w) (first last : BitIter w) (k : Nat) (hr : Range m first last)
    (hne : first.addr < last.addr ∨ first.pos = 0 ∨ (bitAt m first.addr).isSome)
    (hfull : ¬ (first.pos ≠ 0 ∧ last.addr = (first.base + 1) * w) ∨ S.FullShiftOk) (hk : len first last < 2 * k) :
    ∃ s' m', (Std.reverse k).code S bi (Std.start first last first first) m = .ok ((some (), s'), m') ∧ reverse S first last m = .ok ((), m') := by
  have hw : 0 < w := Nat.lt_of_le_of_lt (Nat.zero_le _) hr.1
  have hle := hr.le
  unfold len at hk
  obtain ⟨m2, f1, f2⟩ := C15_reverse S m first last hr hne hfull
  have key : ∃ t', (Std.reverse k).ideal (Std.start first.addr last.addr first.addr first.addr) (bitAt m) = .ok ((some (), t'), bitAt m2) := by
    unfold Std.reverse
    rw [Std.ideal_cmp (p := first.addr) (q := last.addr) rfl rfl]
    by_cases he : first.addr = last.addr
    · rw [show Cmp.on first.addr last.addr .eq = true by simp [Cmp.on, he], if_pos rfl, Std.ideal_done]
      refine ⟨Std.start first.addr last.addr first.addr first.addr, ?_⟩
      congr 2
      funext i
      rw [f2 i, if_neg (by omega)]
    · rw [show Cmp.on first.addr last.addr .eq = false by simp [Cmp.on, he], if_neg (by simp), Std.ideal_dec (p := last.addr) rfl]
      obtain ⟨t', h1⟩ := Std.reverseLoop_ideal k ((Std.start first.addr last.addr first.addr first.addr).putIt 1 (last.addr - 1)) (bitAt m) first.addr
        (last.addr - 1) (by omega) rfl rfl (fun i a b => hr.mapped i a (by omega)) (by omega)
      refine ⟨t', h1.trans ?_⟩
      congr 2
      funext i
      rw [f2 i]
      by_cases e : first.addr ≤ i ∧ i < last.addr
      · rw [if_pos e, if_pos (by omega)]; congr 1; omega
      · rw [if_neg e, if_neg (by omega)]
  obtain ⟨t', h1⟩ := key
  obtain ⟨s', m', e1, e2, _⟩ := Std.transfer S bi hr.1 hr.2 hr.1 hr.1 h1
  have hm : m2 = m' := (mem_ext_bitAt hw e2).symm
  exact ⟨s', m', e1, by rw [f1, hm]⟩

/-- C90: `std::transform` with `f` on bits and `bit::transform` with the same operation on words. -/
theorem C90_transform (S : ShiftSem w) (bi : Bool) (op : BitVec w → BitVec w) (f : Bool → Bool)
    (hop : ∀ x i, i < w → (op x).getLsbD i = f (x.getLsbD i)) (m : Mem w) (first last d : BitIter w) (k : Nat) (hr : Range m first last)
    (hd : Dest m d (len first last)) (hov : d.addr ≤ first.addr ∨ last.addr ≤ d.addr) (hk : len first last < k) :
    ∃ s' r m', (Std.transform f k).code S bi (Std.start first last d d) m = .ok ((some (), s'), m') ∧ s'.it 2 = some r ∧
      transform S op first last d m = .ok (r, m') := by
  have hw : 0 < w := Nat.lt_of_le_of_lt (Nat.zero_le _) hr.1
  have hl := Std.of_range hr
  have hle := hr.le
  have hn : ((len first last).toNat : Int) = len first last := by unfold len; omega
  obtain ⟨t', h1, h2⟩ := Std.transform_ideal f (len first last).toNat k (Std.start first.addr last.addr d.addr d.addr) (bitAt m) first.addr d.addr
    (by omega) rfl (by rw [← hl]; rfl) rfl (fun i a b => hr.mapped i a (by omega)) (fun i a b => hd.mapped i a (by omega)) (by omega)
  obtain ⟨s', m', e1, e2, e3⟩ := Std.transfer S bi hr.1 hr.2 hd.1 hd.1 h1
  obtain ⟨it, e4, e5, e6⟩ := e3 2 _ h2
  obtain ⟨r, m2, f1, f2, f3, f4⟩ := C23_transform S op f hop m first last d hr hd hov
  have hm : m2 = m' := mem_ext_bitAt hw fun i => by rw [f4 i, e2 i, hn]; rfl
  have hi : it = r := BitIter.addr_inj e5 f2 (by omega)
  exact ⟨s', it, m', e1, e4, by rw [f1, hm, hi]⟩

/-- C90: the binary `std::transform` and `bit::transform`. -/
theorem C90_transform2 (S : ShiftSem w) (bi : Bool) (op : BitVec w → BitVec w → BitVec w) (f : Bool → Bool → Bool)
    (hop : ∀ x y i, i < w → (op x y).getLsbD i = f (x.getLsbD i) (y.getLsbD i)) (m : Mem w) (first last second d : BitIter w) (k : Nat)
    (hr : Range m first last) (h2 : Dest m second (len first last)) (hd : Dest m d (len first last))
    (hov : d.addr ≤ first.addr ∨ last.addr ≤ d.addr) (hov2 : d.addr ≤ second.addr ∨ second.addr + len first last ≤ d.addr) (hk : len first last < k) :
    ∃ s' r m', (Std.transform2 f k).code S bi (Std.start first last second d) m = .ok ((some (), s'), m') ∧ s'.it 3 = some r ∧
      transform2 S op first last second d m = .ok (r, m') := by
  have hw : 0 < w := Nat.lt_of_le_of_lt (Nat.zero_le _) hr.1
  have hl := Std.of_range hr
  have hle := hr.le
  have hn : ((len first last).toNat : Int) = len first last := by unfold len; omega
  obtain ⟨t', h1, h3⟩ := Std.transform2_ideal f (len first last).toNat k (Std.start first.addr last.addr second.addr d.addr) (bitAt m) first.addr
    second.addr d.addr (by omega) rfl (by rw [← hl]; rfl) rfl rfl (fun i a b => hr.mapped i a (by omega)) (fun i a b => h2.mapped i a (by omega))
    (fun i a b => hd.mapped i a (by omega)) (by omega) (by omega)
  obtain ⟨s', m', e1, e2, e3⟩ := Std.transfer S bi hr.1 hr.2 h2.1 hd.1 h1
  obtain ⟨it, e4, e5, e6⟩ := e3 3 _ h3
  obtain ⟨r, m2, f1, f2, f3, f4⟩ := C24_transform2 S op f hop m first last second d hr h2 hd hov hov2
  have hm : m2 = m' := mem_ext_bitAt hw fun i => by rw [f4 i, e2 i, hn]; rfl
  have hi : it = r := BitIter.addr_inj e5 f2 (by omega)
  exact ⟨s', it, m', e1, e4, by rw [f1, hm, hi]⟩

/-- The hypotheses for 13 bits from bit 5 of word 1 to bit 3 of word 0 (overlapping), and the result of `std::copy`. -/
example : Range (memOf [0xa5#8, 0x3c#8, 0x99#8, 0x0f#8]) ⟨1, 5⟩ ⟨3, 2⟩ ∧
    Dest (memOf [0xa5#8, 0x3c#8, 0x99#8, 0x0f#8]) ⟨0, 3⟩ (len (⟨1, 5⟩ : BitIter 8) ⟨3, 2⟩) ∧
    (⟨0, 3⟩ : BitIter 8).addr ≤ (⟨1, 5⟩ : BitIter 8).addr :=
  ⟨range_memOf (by decide) (by decide) (by decide) (by decide) (by decide), dest_memOf (by decide) (by decide) (by decide), by decide⟩

example : ((runOn (Std.copy.code S8 true (Std.start ⟨1, 5⟩ ⟨3, 2⟩ ⟨0, 3⟩ ⟨0, 3⟩)) [0xa5#8, 0x3c#8, 0x99#8, 0x0f#8]).map fun r => (r.1.2.it 2, r.2)) =
    ((runOn (copy S8 ⟨1, 5⟩ ⟨3, 2⟩ ⟨0, 3⟩) [0xa5#8, 0x3c#8, 0x99#8, 0x0f#8]).map fun r => (some r.1, r.2)) := by decide +kernel

/-- Disjoint ranges of 7 bits for `std::swap_ranges`. -/
example : Range (memOf [0xa5#8, 0x3c#8, 0x99#8]) ⟨0, 2⟩ ⟨1, 1⟩ ∧ Dest (memOf [0xa5#8, 0x3c#8, 0x99#8]) ⟨1, 6⟩ (len (⟨0, 2⟩ : BitIter 8) ⟨1, 1⟩) ∧
    (⟨1, 1⟩ : BitIter 8).addr ≤ (⟨1, 6⟩ : BitIter 8).addr ∧ len (⟨0, 2⟩ : BitIter 8) ⟨1, 1⟩ < (8 : Nat) :=
  ⟨range_memOf (by decide) (by decide) (by decide) (by decide) (by decide), dest_memOf (by decide) (by decide) (by decide), by decide, by decide⟩

/-- C90: `std::rotate` on bit iterators rotates every range, and returns the new position of `first`. -/
theorem C90_std_rotate (S : ShiftSem w) (bi : Bool) (m : Mem w) (first nFirst last : BitIter w) (k : Nat) (hr : Range m first last)
    (hn : nFirst.Valid) (h1 : first.addr ≤ nFirst.addr) (h2 : nFirst.addr ≤ last.addr) (hk : len first last ≤ k) :
    ∃ s' r m', (Std.rotate k).code S bi (Std.start first last nFirst first) m = .ok ((some (), s'), m') ∧ s'.it 3 = some r ∧ r.Valid ∧
      r.addr = first.addr + (last.addr - nFirst.addr) ∧ Rotated m m' first.addr nFirst.addr last.addr := by
  have hl := Std.of_range hr
  have hle := hr.le
  have hlen : len first last = last.addr - first.addr := rfl
  obtain ⟨t', g1, g2⟩ := Std.rotate_ideal k (len first last).toNat (len first nFirst).toNat
    (Std.start first.addr last.addr nFirst.addr first.addr) (bitAt m) first.addr (by omega) (by unfold len; omega) rfl (by rw [← hl]; rfl)
    (by show some nFirst.addr = _; congr 1; unfold len; omega) (fun i a b => hr.mapped i a (by omega))
  obtain ⟨s', m', e1, e2, e3⟩ := Std.transfer S bi hr.1 hr.2 hn hr.1 g1
  obtain ⟨it, e4, e5, e6⟩ := e3 3 _ g2
  have ha : ((len first last).toNat : Int) = last.addr - first.addr := by omega
  have hb : ((len first nFirst).toNat : Int) = nFirst.addr - first.addr := by unfold len; omega
  refine ⟨s', it, m', e1, e4, e5, by omega, fun i => ?_⟩
  rw [e2 i]
  unfold Std.rotTape
  rw [ha, hb, show last.addr - first.addr - (nFirst.addr - first.addr) = last.addr - nFirst.addr by omega,
    show first.addr + (last.addr - first.addr) = last.addr by omega]

/-- C90: `std::rotate` and `bit::rotate`; `hlim` is the limit of C19. -/
theorem C90_rotate_partial (S : ShiftSem w) (bi : Bool) (m : Mem w) (first nFirst last : BitIter w) (k : Nat) (hr : Range m first last)
    (hn : nFirst.Valid) (h1 : first.addr ≤ nFirst.addr) (h2 : nFirst.addr < last.addr) (hlim : RotFits w (len first nFirst) (len nFirst last))
    (hk : len first last ≤ k) :
    ∃ s' r m', (Std.rotate k).code S bi (Std.start first last nFirst first) m = .ok ((some (), s'), m') ∧ s'.it 3 = some r ∧
      rotate S first nFirst last m = .ok (r, m') := by
  have hw : 0 < w := Nat.lt_of_le_of_lt (Nat.zero_le _) hr.1
  obtain ⟨s', r, m', e1, e2, e3, e4, e5⟩ := C90_std_rotate S bi m first nFirst last k hr hn h1 (by omega) hk
  obtain ⟨r2, m2, f1, f2, f3, f4⟩ := C19_rotate_partial S m first nFirst last hr hn h1 h2 hlim
  have hm : m2 = m' := mem_ext_bitAt hw fun i => by rw [f4 i, e5 i]
  have hi : r2 = r := BitIter.addr_inj f2 e3 (by omega)
  exact ⟨s', r, m', e1, e2, by rw [f1, hm, hi]⟩

/-- C90: `std::rotate` and `bit::rotate` with `nFirst = last`; `hok` is the limit of C20. -/
theorem C90_rotate_end_partial (S : ShiftSem w) (bi : Bool) (m : Mem w) (first last : BitIter w) (k : Nat) (hr : Range m first last)
    (hok : first.addr = last.addr ∨ last.pos ≠ 0 ∨ (w < len first last ∧ (bitAt m last.addr).isSome)) (hk : len first last ≤ k) :
    ∃ s', (Std.rotate k).code S bi (Std.start first last last first) m = .ok ((some (), s'), m) ∧ s'.it 3 = some first ∧
      rotate S first last last m = .ok (first, m) := by
  have hw : 0 < w := Nat.lt_of_le_of_lt (Nat.zero_le _) hr.1
  obtain ⟨s', r, m', e1, e2, e3, e4, e5⟩ := C90_std_rotate S bi m first last last k hr hr.2 hr.le (Int.le_refl _) hk
  have hm : m' = m := mem_ext_bitAt hw fun i => by
    rw [e5 i, if_neg (by omega)]
    by_cases c : first.addr + (last.addr - last.addr) ≤ i ∧ i < last.addr
    · rw [if_pos c]; congr 1; omega
    · rw [if_neg c]
  have hi : r = first := BitIter.addr_inj e3 hr.1 (by omega)
  rw [hm] at e1
  exact ⟨s', e1, by rw [e2, hi], C20_rotate_end_partial S m first last hr hok⟩

/-- The hypotheses for 21 bits, rotated by 9, and the results of both functions. -/
example : Range (memOf [0xa5#8, 0x3c#8, 0x99#8, 0x0f#8]) ⟨0, 6⟩ ⟨3, 3⟩ ∧ (⟨1, 7⟩ : BitIter 8).Valid ∧
    (⟨0, 6⟩ : BitIter 8).addr ≤ (⟨1, 7⟩ : BitIter 8).addr ∧ (⟨1, 7⟩ : BitIter 8).addr < (⟨3, 3⟩ : BitIter 8).addr ∧
    RotFits 8 (len (⟨0, 6⟩ : BitIter 8) ⟨1, 7⟩) (len (⟨1, 7⟩ : BitIter 8) ⟨3, 3⟩) ∧ len (⟨0, 6⟩ : BitIter 8) ⟨3, 3⟩ ≤ (21 : Nat) :=
  ⟨range_memOf (by decide) (by decide) (by decide) (by decide) (by decide), by decide, by decide, by decide, RotFits.of_len (by decide), by decide⟩

example : ((runOn ((Std.rotate 21).code S8 true (Std.start ⟨0, 6⟩ ⟨3, 3⟩ ⟨1, 7⟩ ⟨0, 6⟩)) [0xa5#8, 0x3c#8, 0x99#8, 0x0f#8]).map fun r => (r.1.2.it 3, r.2)) =
    ((runOn (rotate S8 ⟨0, 6⟩ ⟨1, 7⟩ ⟨3, 3⟩) [0xa5#8, 0x3c#8, 0x99#8, 0x0f#8]).map fun r => (some r.1, r.2)) := by decide +kernel

/-- The limits cannot be dropped: on these ranges the function of the standard library has its defined result and the library's function of the
same name has undefined behaviour or (`rotate` of a whole 8-bit word by its length) another result. -/
theorem C90_refuted :
    (∀ x, ∃ s' r m', (Std.rotate 8).code S8 true (Std.start ⟨0, 0⟩ ⟨1, 0⟩ ⟨1, 0⟩ ⟨0, 0⟩) (memOf [x]) = .ok ((some (), s'), m') ∧
      s'.it 3 = some r ∧ r.addr = 0 ∧ ∃ m'', rotate S8 ⟨0, 0⟩ ⟨1, 0⟩ ⟨1, 0⟩ (memOf [x]) = .ok (⟨1, 0⟩, m'')) ∧
    (∀ x y, ∃ s' m', (Std.rotate 16).code S8 true (Std.start ⟨0, 0⟩ ⟨2, 0⟩ ⟨2, 0⟩ ⟨0, 0⟩) (memOf [x, y]) = .ok ((some (), s'), m') ∧
      rotate S8 ⟨0, 0⟩ ⟨2, 0⟩ ⟨2, 0⟩ (memOf [x, y]) = .error .outOfBounds) ∧
    (∀ x, ∃ s' m', (Std.reverse 64).code S64 true (Std.start ⟨0, 7⟩ ⟨1, 0⟩ ⟨0, 7⟩ ⟨0, 7⟩) (memOf [x]) = .ok ((some (), s'), m') ∧
      reverse S64 ⟨0, 7⟩ ⟨1, 0⟩ (memOf [x]) = .error .overshift) ∧
    (∃ s', (Std.count true 1 0).code S8 true (Std.start ⟨0, 0⟩ ⟨0, 0⟩ ⟨0, 0⟩ ⟨0, 0⟩) (memOf []) = .ok ((some 0, s'), memOf []) ∧
      count S8 ⟨0, 0⟩ ⟨0, 0⟩ true (memOf []) = .error .outOfBounds) := by
  refine ⟨fun x => ?_, fun x y => ?_, fun x => ?_, ?_⟩
  · obtain ⟨s', r, m', e1, e2, e3, e4, e5⟩ := C90_std_rotate S8 true (memOf [x]) ⟨0, 0⟩ ⟨1, 0⟩ ⟨1, 0⟩ 8
      (range_memOf (by decide) (by decide) (by decide) (by decide) (by simp [BitIter.addr])) (by decide) (by decide) (by decide) (by decide)
    exact ⟨s', r, m', e1, e2, by rw [e4]; decide, C20_refuted_return x⟩
  · obtain ⟨s', r, m', e1, e2, e3, e4, e5⟩ := C90_std_rotate S8 true (memOf [x, y]) ⟨0, 0⟩ ⟨2, 0⟩ ⟨2, 0⟩ 16
      (range_memOf (by decide) (by decide) (by decide) (by decide) (by simp [BitIter.addr])) (by decide) (by decide) (by decide) (by decide)
    exact ⟨s', m', e1, C20_refuted_bounds x y⟩
  · have hr : Range (memOf [x]) ⟨0, 7⟩ ⟨1, 0⟩ := range_memOf (by decide) (by decide) (by decide) (by decide) (by simp [BitIter.addr])
    obtain ⟨t', h1⟩ := Std.reverseLoop_ideal 64 ((Std.start (7 : Int) 64 7 7).putIt 1 63) (bitAt (memOf [x])) 7 63 (by omega) rfl rfl
      (fun i a b => hr.mapped i a (by simp [BitIter.addr]; omega)) (by omega)
    have h2 : (Std.reverse 64).ideal (Std.start (BitIter.addr (⟨0, 7⟩ : BitIter 64)) (BitIter.addr (⟨1, 0⟩ : BitIter 64)) (BitIter.addr (⟨0, 7⟩ : BitIter 64))
        (BitIter.addr (⟨0, 7⟩ : BitIter 64))) (bitAt (memOf [x])) =
        .ok ((some (), t'), fun i => if 7 ≤ i ∧ i ≤ 63 then bitAt (memOf [x]) (7 + 63 - i) else bitAt (memOf [x]) i) := by
      show (Std.reverse 64).ideal (Std.start (7 : Int) 64 7 7) (bitAt (memOf [x])) = _
      unfold Std.reverse
      rw [Std.ideal_cmp (p := 7) (q := 64) rfl rfl, show Cmp.on 7 64 .eq = false by decide, if_neg (by simp), Std.ideal_dec (p := 64) rfl]
      exact h1
    obtain ⟨s', m', e1, _⟩ := Std.transfer S64 true hr.1 hr.2 hr.1 hr.1 h2
    exact ⟨s', m', e1, C18_refuted.2.2.2.2.2.2.2 x⟩
  · exact ⟨_, rfl, rfl⟩

end BitLib
