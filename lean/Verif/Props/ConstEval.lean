import Verif.Lemmas.ConstClient
import Verif.Props.Pointers
import Verif.Props.Client
/-
C103: which calls of the algorithms that are declared `constexpr` are constant expressions. `CE.f` is the text of `f` as a compiler evaluates it (`Model/ConstEval`);
it gives a constant if it ends with `.ok`.
-/
namespace BitLib
variable {w : Nat}

/-- C103: `copy`, `move`, `copy_backward` and both `transform`s are constant expressions for empty ranges only, and then do what they do at run time. -/
theorem C103_copy (S : ShiftSem w) (first last d first2 : BitIter w) (f : BitVec w → BitVec w) (g : BitVec w → BitVec w → BitVec w) (h : first.Valid) (hl : last.Valid)
    (m : Mem w) (r : BitIter w × Mem w) :
    (CE.copy first last d m = .ok r ↔ copy S first last d m = .ok r ∧ first.addr = last.addr) ∧
    (CE.move first last d m = .ok r ↔ move S first last d m = .ok r ∧ first.addr = last.addr) ∧
    (CE.copyBackward first last d m = .ok r ↔ copyBackward S first last d m = .ok r ∧ first.addr = last.addr) ∧
    (CE.transform first last d m = .ok r ↔ transform S f first last d m = .ok r ∧ first.addr = last.addr) ∧
    (CE.transform2 first last d m = .ok r ↔ transform2 S g first last first2 d m = .ok r ∧ first.addr = last.addr) := by
  rw [← BitIter.beq_iff h hl]
  exact ⟨CE.empty_only, CE.empty_only, CE.empty_only, CE.empty_only, CE.empty_only⟩

/- One bit is too many, and two iterators to the same bit are not. -/
example : (⟨0, 3⟩ : BitIter 8).Valid ∧ (⟨0, 4⟩ : BitIter 8).Valid ∧
    (∃ r, copy S8 ⟨0, 3⟩ ⟨0, 4⟩ ⟨1, 0⟩ (memOf [0#8, 0#8]) = .ok r) ∧
    CE.copy ⟨0, 3⟩ ⟨0, 4⟩ ⟨1, 0⟩ (memOf [0#8, 0#8]) = .error (.call .distance) ∧
    ∃ r, CE.copy ⟨0, 3⟩ ⟨0, 3⟩ ⟨1, 0⟩ (memOf [0#8, 0#8]) = .ok r := ⟨by decide, by decide, ⟨_, rfl⟩, rfl, _, rfl⟩

/-- C103: the same for `equal`. -/
theorem C103_equal (S : ShiftSem w) (first last d : BitIter w) (h : first.Valid) (hl : last.Valid) (m : Mem w) (r : Bool × Mem w) :
    CE.equal first last m = .ok r ↔ equal S first last d m = .ok r ∧ first.addr = last.addr := by
  rw [← BitIter.beq_iff h hl]
  exact CE.empty_only

example : (⟨0, 3⟩ : BitIter 8).Valid ∧ (⟨1, 3⟩ : BitIter 8).Valid ∧
    (∃ r, equal S8 ⟨0, 3⟩ ⟨1, 3⟩ ⟨0, 3⟩ (memOf [0#8, 0#8]) = .ok r ∧ r.1 = true) ∧
    CE.equal ⟨0, 3⟩ ⟨1, 3⟩ (memOf [0#8, 0#8]) = .error (.call .distance) ∧
    ∃ r, CE.equal ⟨1, 3⟩ ⟨1, 3⟩ (memOf [0#8, 0#8]) = .ok r ∧ r.1 = true := ⟨by decide, by decide, ⟨_, rfl, by decide⟩, rfl, _, rfl, rfl⟩

/-- C103: `count` is a constant expression exactly if both iterators point into one word of the array, which the end of the array is not. -/
theorem C103_count (A : Arr) (S : ShiftSem w) (first last : BitIter w) (v : Bool) (h : A.Has first) (m : Mem w) (r : Int × Mem w) :
    CE.count A S first last v m = .ok r ↔ count S first last v m = .ok r ∧ CountConst A first last := by
  rw [CE.count_iff, CountConst]
  have hf := h.valid
  unfold BitIter.Valid at hf
  have e1 : first.addr = first.base * w + first.pos := rfl
  have hlo := h.lo_base
  have : first.base < A.hi ↔ first.addr < A.hi * w := by
    constructor
    · intro hc
      have : (first.base + 1) * (w : Int) ≤ A.hi * w := Int.mul_le_mul_of_nonneg_right (by omega) (by omega)
      rw [Int.add_mul] at this
      omega
    · intro hc
      by_contra hn
      have : A.hi * (w : Int) ≤ first.base * w := Int.mul_le_mul_of_nonneg_right (by omega) (by omega)
      omega
  rw [← this]
  simp [hlo]

/- Bits of one word; one bit that is followed by the end of its word; and the empty range at the end of an array that is followed by another. -/
example : exArr.Has (⟨1, 2⟩ : BitIter 8) ∧ exArr.Has (⟨2, 0⟩ : BitIter 8) ∧
    (∃ r, CE.count exArr S8 ⟨1, 2⟩ ⟨1, 6⟩ true (memOf [0#8, 0xFC#8]) = .ok r ∧ r.1 = 4) ∧
    CE.count exArr S8 ⟨1, 7⟩ ⟨2, 0⟩ true (memOf [0#8, 0xFC#8]) = .error (.call .popcnt) ∧
    (∃ r, count S8 ⟨2, 0⟩ ⟨2, 0⟩ true (memOf [0#8, 0#8, 0#8]) = .ok r) ∧
    CE.count exArr S8 ⟨2, 0⟩ ⟨2, 0⟩ true (memOf [0#8, 0#8, 0#8]) = .error (.step (.pointer exArr 2)) :=
  ⟨by decide, by decide, ⟨_, rfl, by decide⟩, rfl, ⟨_, rfl⟩, rfl⟩

/-- C103: `find` is a constant expression exactly in the case `FindConst`, which for C++17 depends on the bits. -/
theorem C103_find (cpp20 : Bool) (A : Arr) (S : ShiftSem w) (first last : BitIter w) (v : Bool) (h : A.Has first) (hl : A.Has last)
    (hle : first.addr ≤ last.addr) (m : Mem w) (r : BitIter w × Mem w) :
    CE.find cpp20 A S first last v m = .ok r ↔ find S first last v m = .ok r ∧ FindConst cpp20 first last v m := by
  have h20 : (first.pos ≠ 0 → ¬ first.base + (if last.pos = 0 then 1 else 0) = last.base) →
      (CE.find true A S first last v m = .ok r ↔ find S first last v m = .ok r) := by
    intro hb
    rw [CE.find_true h hb]
    exact CE.within_same (C98_fill S A first last v h hl m).2 r
  by_cases hp : first.pos = 0
  · cases cpp20
    · simp only [FindConst, hp, ne_eq, not_true_eq_false, false_and, and_false, Bool.false_eq_true, if_false, iff_false]
      exact CE.never_find17 hp m r
    · rw [h20 fun h => absurd hp h]
      simp [FindConst, hp]
  · have ho := CE.oneWord_iff h.valid hl.valid (.inl hp) hle
    by_cases hb : Beyond first last
    · have hn : ¬ first.base + (if last.pos = 0 then 1 else 0) = last.base := fun e => ho.1 e hb
      cases cpp20
      · rw [CE.find17 h hp h.valid hn, h20 fun _ => hn]
        simp [FindConst, hp, hb]
      · rw [h20 fun _ => hn]
        simp [FindConst, hb]
    · have : ¬ FindConst cpp20 first last v m := by
        unfold FindConst
        split
        · simp [hp, hb]
        · simp [hb]
      simp only [this, and_false, iff_false]
      exact CE.never_find hp (ho.2 hb) m r

/- The first one from bit 2 on is in the first word, or not; and a range that ends in that word. -/
example : exArr.Has (⟨0, 2⟩ : BitIter 8) ∧ exArr.Has (⟨2, 0⟩ : BitIter 8) ∧ (⟨0, 2⟩ : BitIter 8).addr ≤ (⟨2, 0⟩ : BitIter 8).addr ∧
    (∃ r, CE.find false exArr S8 ⟨0, 2⟩ ⟨2, 0⟩ true (memOf [0x10#8, 1#8]) = .ok r ∧ r.1 = ⟨0, 4⟩) ∧
    CE.find false exArr S8 ⟨0, 2⟩ ⟨2, 0⟩ true (memOf [0#8, 1#8]) = .error (.call .stdFindIf) ∧
    (∃ r, CE.find true exArr S8 ⟨0, 2⟩ ⟨2, 0⟩ true (memOf [0#8, 1#8]) = .ok r ∧ r.1 = ⟨1, 0⟩) ∧
    CE.find true exArr S8 ⟨0, 2⟩ ⟨1, 0⟩ true (memOf [0x10#8, 1#8]) = .error (.call .distance) :=
  ⟨by decide, by decide, by decide, ⟨_, rfl, by decide⟩, rfl, ⟨_, rfl, by decide⟩, rfl⟩

/-- C103: `reverse` is a constant expression exactly in the case `ReverseConst`. -/
theorem C103_reverse (cpp20 : Bool) (A : Arr) (S : ShiftSem w) (first last : BitIter w) (h : A.Has first) (hl : A.Has last) (m : Mem w) (r : Unit × Mem w) :
    CE.reverse cpp20 A S first last m = .ok r ↔ reverse S first last m = .ok r ∧ ReverseConst cpp20 first last := by
  have hf := h.valid
  have hl' := hl.valid
  unfold BitIter.Valid at hf hl'
  have e1 : first.addr = first.base * w + first.pos := rfl
  have e2 : last.addr = last.base * w + last.pos := rfl
  have hgap : (first.addr + last.addr) % w = 0 ↔ first.pos = if last.pos = 0 then 0 else w - last.pos := by
    rw [e1, e2, show first.base * (w : Int) + first.pos + (last.base * w + last.pos) = ((first.pos + last.pos : Nat) : Int) + w * (first.base + last.base) by
      push_cast; ring, Int.add_mul_emod_self_left]
    rcases Nat.lt_or_ge (first.pos + last.pos) w with hlt | hge
    · rw [Int.emod_eq_of_lt (by omega) (by omega)]
      split <;> omega
    · rw [show ((first.pos + last.pos : Nat) : Int) = ((first.pos + last.pos - w : Nat) : Int) + w * 1 by omega, Int.add_mul_emod_self_left,
        Int.emod_eq_of_lt (by omega) (by omega)]
      split <;> omega
  unfold ReverseConst
  by_cases hin : first.base = last.base ∧ (first.pos ≠ 0 ∨ last.pos ≠ 0)
  · rw [CE.reverse_inside h hl hin.1 hin.2, CE.within_same ((C98_reverse S A first last h hl m).1 ?_)]
    · simp [hin]
    · rintro ⟨h1, h2, _⟩
      rw [Int.add_mul] at h2
      rw [e2, ← hin.1, h1] at h2
      omega
  · cases cpp20
    · simp only [hin, Bool.false_eq_true, false_and, or_false, and_false, iff_false]
      exact CE.never_reverse17 hin m r
    · rw [hgap]
      by_cases hg : first.pos = if last.pos = 0 then 0 else w - last.pos
      · rw [CE.reverse_true h hl hg, CE.within_same ((C98_reverse S A first last h hl m).1 ?_)]
        · simp [← hg]
        · rintro ⟨_, _, h3⟩
          split at h3 <;> split at hg <;> omega
      · simp only [hin, hg, and_false, or_false, iff_false]
        refine CE.never_reverse ?_ hg m r
        intro hb
        apply hg
        have : first.pos = 0 ∧ last.pos = 0 := by
          by_contra hc
          exact hin ⟨hb, by omega⟩
        rw [if_pos this.2, this.1]

/- Within a word; two words, with as many bits before as behind the range; and one bit less. -/
example : exArr.Has (⟨0, 3⟩ : BitIter 8) ∧ exArr.Has (⟨1, 5⟩ : BitIter 8) ∧
    (∃ r, CE.reverse false exArr S8 ⟨0, 3⟩ ⟨0, 6⟩ (memOf [0x08#8, 0#8]) = .ok r ∧ r.2 0 = some 0x20#8) ∧
    (∃ r, CE.reverse true exArr S8 ⟨0, 3⟩ ⟨1, 5⟩ (memOf [0x08#8, 0#8]) = .ok r ∧ r.2 1 = some 0x10#8) ∧
    CE.reverse false exArr S8 ⟨0, 3⟩ ⟨1, 5⟩ (memOf [0x08#8, 0#8]) = .error (.call .stdReverse) ∧
    CE.reverse true exArr S8 ⟨0, 3⟩ ⟨1, 4⟩ (memOf [0x08#8, 0#8]) = .error (.call .shiftLeft) :=
  ⟨by decide, by decide, ⟨_, rfl, by decide⟩, ⟨_, rfl, by decide⟩, rfl, rfl⟩

/-- C103: `swap_ranges` is a constant expression exactly in the case `SwapConst`. -/
theorem C103_swap_ranges (cpp20 : Bool) (A B : Arr) (S : ShiftSem w) (first last first2 : BitIter w) (h : A.Has first) (hl : A.Has last) (hd : B.Has first2)
    (hb : first2.addr + (last.addr - first.addr) ≤ B.hi * w) (m : Mem w) (r : BitIter w × Mem w) :
    CE.swapRanges cpp20 A B S first last first2 m = .ok r ↔ swapRanges S first last first2 m = .ok r ∧ SwapConst cpp20 first last first2 := by
  have hv : (CE.swapRanges cpp20 A B S first last first2 = CE.within (Ptr.swapRanges A B S first last first2)) →
      (CE.swapRanges cpp20 A B S first last first2 m = .ok r ↔ swapRanges S first last first2 m = .ok r) := by
    intro e
    rw [e, CE.within_same (C98_equal S A B first last first2 h hl hd hb m).2]
  unfold SwapConst
  cases he : first.beq last with
  | true =>
    rw [hv (CE.swapRanges_empty he)]
    simp [(BitIter.beq_iff h.valid hl.valid).1 he]
  | false =>
    have hne : ¬ first.addr = last.addr := fun e => by
      rw [(BitIter.beq_iff h.valid hl.valid).2 e] at he
      cases he
    by_cases hle : first.addr ≤ last.addr
    · have ho := CE.oneWord_iff h.valid hl.valid (.inr hne) hle
      by_cases hc : cpp20 = true ∧ Beyond first last ∧ first.pos = first2.pos
      · obtain ⟨rfl, hby, hp⟩ := hc
        rw [hv (CE.swapRanges_true (fun e => ho.1 e hby) hp)]
        simp [hby, hp]
      · simp only [hne, hc, false_or, and_false, iff_false]
        refine CE.never_swapRanges he ?_ m r
        by_cases hby : Beyond first last
        · by_cases hp : first.pos = first2.pos
          · right; right
            cases cpp20
            · rfl
            · exact absurd ⟨rfl, hby, hp⟩ hc
          · exact .inr (.inl hp)
        · exact .inl (ho.2 hby)
    · constructor
      · intro e
        exact absurd e ((CE.not_viable hle).bind _ m r)
      · rintro ⟨e, _⟩
        unfold swapRanges at e
        exact absurd e (CE.not_viable_run hle _ m r)

example : exArr.Has (⟨0, 3⟩ : BitIter 8) ∧ exArr.Has (⟨1, 5⟩ : BitIter 8) ∧ exArr'.Has (⟨2, 3⟩ : BitIter 8) ∧
    (⟨2, 3⟩ : BitIter 8).addr + ((⟨1, 5⟩ : BitIter 8).addr - (⟨0, 3⟩ : BitIter 8).addr) ≤ exArr'.hi * (8 : Nat) ∧
    (∃ r, CE.swapRanges true exArr exArr' S8 ⟨0, 3⟩ ⟨1, 5⟩ ⟨2, 3⟩ (memOf [0xFF#8, 0xFF#8, 0#8, 0#8]) = .ok r ∧ r.2 2 = some 0xF8#8) ∧
    CE.swapRanges false exArr exArr' S8 ⟨0, 3⟩ ⟨1, 5⟩ ⟨2, 3⟩ (memOf [0xFF#8, 0xFF#8, 0#8, 0#8]) = .error (.call .stdSwapRanges) ∧
    CE.swapRanges true exArr exArr' S8 ⟨0, 3⟩ ⟨0, 5⟩ ⟨2, 3⟩ (memOf [0xFF#8, 0xFF#8, 0#8, 0#8]) = .error (.call .distance) :=
  ⟨by decide, by decide, by decide, by decide, ⟨_, rfl, by decide⟩, rfl, rfl⟩

/-- C103: `is_within<N>` is one for all iterators of an array, and compares the distance with `N`. -/
theorem C103_is_within (A : Arr) (N : Nat) (first last : BitIter w) (h : A.Has first) (hl : A.Has last) (hle : first.addr ≤ last.addr) (m : Mem w) :
    CE.isWithin A N first last m = .ok (decide (last.addr - first.addr ≤ N), m) := by
  unfold CE.isWithin Ptr.isWithin
  rw [CE.isWithinAux_pure _ h hl hle]
  have := C50_is_within N first last h.valid hl.valid hle
  unfold isWithin at this
  show Except.ok (_, m) = _
  congr 2
  rw [Bool.eq_iff_iff, this, decide_eq_true_iff]

example : exArr.Has (⟨0, 3⟩ : BitIter 8) ∧ exArr.Has (⟨2, 0⟩ : BitIter 8) ∧
    (CE.isWithin exArr 13 ⟨0, 3⟩ ⟨2, 0⟩ (memOf [0#8, 0#8])).toOption.map (·.1) = some true ∧
    (CE.isWithin exArr 12 ⟨0, 3⟩ ⟨2, 0⟩ (memOf [0#8, 0#8])).toOption.map (·.1) = some false := ⟨by decide, by decide, by decide, by decide⟩

/-- C103: a program that uses iterators, references and pointers of one array is a constant expression exactly if it runs, its run on the tape keeps to the array
(`Client.Keeps`) and uses neither `swap` nor `distance`; it then does what it does at run time. -/
theorem C103_client {α : Type} (A : Arr) (S : ShiftSem w) (bi : Bool) (c : Client α) (o : Int) (m : Mem w) (s : Slots (BitIter w) (BitRef w) (BitPtr w))
    (t : Slots Int Int Int) (hs : SlotsAt o s t) :
    (∀ r, CE.client A S bi c s m = .ok r ↔ c.code S bi s m = .ok r ∧ c.Keeps w A o t (fun p => bitAt m (o + p))) ∧
    ((∃ r, CE.client A S bi c s m = .ok r) ↔
      (∃ r, c.ideal t (fun p => bitAt m (o + p)) = .ok r) ∧ c.Keeps w A o t (fun p => bitAt m (o + p))) := by
  have h := CE.client_iff (A := A) S bi c hs m (fun p => bitAt m (o + p)) (fun _ => rfl)
  refine ⟨h, ?_⟩
  simp only [h, exists_and_right]
  refine and_congr_left fun _ => ?_
  have := C89_exact S bi c o m s t hs
  revert this
  rcases c.ideal t (fun p => bitAt m (o + p)) with e | ⟨⟨x, t'⟩, tape⟩
  · intro h
    rw [h]
    simp
  · rintro ⟨s', m', h, _⟩
    exact ⟨fun _ => ⟨_, rfl⟩, fun _ => ⟨_, h⟩⟩

/- `*it = !*it` for the last bit of the array; then `++it`, which gives the end; and `*it` there, where other words follow. -/
def exFlip (end' : Bool) : Client Bool :=
  .call (.derefIt 0 0) fun _ => .call (.upd .flip 0) fun _ => .call (.incIt 0) fun _ =>
    if end' then .call (.derefIt 1 0) fun _ => .done true else .done false
def exLast : Slots (BitIter 8) (BitRef 8) (BitPtr 8) := ⟨fun k => if k = 0 then some ⟨1, 7⟩ else none, fun _ => none, fun _ => none⟩
def exLastT : Slots Int Int Int := ⟨fun k => if k = 0 then some 15 else none, fun _ => none, fun _ => none⟩

example : SlotsAt 0 exLast exLastT where
  it k := by
    unfold exLast exLastT
    by_cases h : k = 0
    · simp only [h, if_true]
      exact .inr ⟨_, _, rfl, rfl, by decide, by decide⟩
    · simp only [h, if_false]
      exact .inl ⟨rfl, rfl⟩
  ref _ := .inl ⟨rfl, rfl⟩
  ptr _ := .inl ⟨rfl, rfl⟩
example : (∃ r, CE.client exArr S8 true (exFlip false) exLast (memOf [0#8, 0#8, 0#8]) = .ok r ∧ r.2 1 = some 0x80#8) ∧
    (∃ r, (exFlip true).code S8 true exLast (memOf [0#8, 0#8, 0#8]) = .ok r) ∧
    CE.client exArr S8 true (exFlip true) exLast (memOf [0#8, 0#8, 0#8]) = .error (.step (.pointer exArr 2)) ∧
    CE.client exArr S8 true (.call (.distance 0 0) fun _ => .done ()) exLast (memOf [0#8, 0#8, 0#8]) = .error (.call .distance) :=
  ⟨⟨_, rfl, by decide⟩, ⟨_, rfl⟩, rfl, rfl⟩

end BitLib
