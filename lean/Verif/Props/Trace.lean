import Verif.Lemmas.Trace
import Verif.Lemmas.Puts
import Verif.Props.Threads
import Verif.Props.Cost
/-
C94: which words the algorithms access, one after the other. It depends on the positions that are passed, not on what the memory holds, except
for the two that may end early. And the algorithms that copy store only to words of their destination, so several threads may copy from the same source (C82).
-/
namespace BitLib
variable {w : Nat}

/-! ### Traces -/

/-- C94: the trace lists all accesses. -/
theorem C94_accesses {α : Type} (c : Code w α) : ∀ m : Mem w, (c.trace m).length = c.accesses m := by
  induction c with
  | ret a => intro m; rfl
  | stop e => intro m; rfl
  | load a k ih =>
    intro m
    rw [Code.trace, Code.accesses]
    cases m a with
    | none => rfl
    | some x => exact congrArg (· + 1) (ih x m)
  | store a x k ih =>
    intro m
    rw [Code.trace, Code.accesses]
    cases m a with
    | none => rfl
    | some y => exact congrArg (· + 1) (ih (m.set a x))

theorem trace_within {α : Type} {A : Int → Prop} (c : Code w α) : ∀ m : Mem w, c.Within A m → ∀ e ∈ c.trace m, A e.1 := by
  induction c with
  | ret a => intro m _ e he; cases he
  | stop a => intro m _ e he; cases he
  | load a k ih =>
    intro m h e he
    rw [Code.trace] at he
    cases hx : m a with
    | none => rw [hx] at he; cases List.mem_singleton.1 he; exact h.1
    | some x =>
      rw [hx] at he
      rcases List.mem_cons.1 he with rfl | he
      · exact h.1
      · exact ih x m (h.2 x hx) e he
  | store a x k ih =>
    intro m h e he
    rw [Code.trace] at he
    cases hx : m a with
    | none => rw [hx] at he; cases List.mem_singleton.1 he; exact h.1
    | some y =>
      rw [hx] at he
      rcases List.mem_cons.1 he with rfl | he
      · exact h.1
      · exact ih _ h.2 e he

/-- C94: a call that works with the bits `R` and `W` (for the library: `C78_*`) accesses words that hold such bits and no others, whatever code is
executed for it. -/
theorem C94_words {α : Type} (x : M w α) (R W : Int → Prop) (hx : Isolated x R W) (c : Code w α) (hc : c.Does x) (m : Mem w)
    (hm : ∀ i, R i ∨ W i → (bitAt m i).isSome) (a : Int) (s : Bool) (h : (a, s) ∈ c.trace m) : WordOf w (Either R W) a := by
  have hh : ∀ i, R i ∨ W i → bitAt (only (WordOf w (Either R W)) m) i = bitAt m i := fun i hi => bitAt_only m i ⟨i, hi, rfl⟩
  obtain ⟨r, m1, m2, -, h2, -⟩ := hx m (only (WordOf w (Either R W)) m) (fun i hi => ⟨hm i hi, by rw [hh i hi]; exact hm i hi⟩)
    (fun i hi => (hh i (Or.inl hi)).symm)
  exact trace_within c m (Code.within_of_run _ c m r m2 (by rw [← h2]; exact hc _)) _ h

/-- C94: the stores of the trace are stores that the code contains. -/
theorem C94_stores {α : Type} (c : Code w α) : ∀ (m : Mem w) (a : Int), (a, true) ∈ c.trace m → c.Stores a := by
  induction c with
  | ret a => intro m b h; cases h
  | stop e => intro m b h; cases h
  | load a k ih =>
    intro m b h
    rw [Code.trace] at h
    cases hx : m a with
    | none => rw [hx] at h; cases List.mem_singleton.1 h
    | some x =>
      rw [hx] at h
      rcases List.mem_cons.1 h with h | h
      · cases h
      · exact .load a k x (ih x m b h)
  | store a x k ih =>
    intro m b h
    rw [Code.trace] at h
    cases hx : m a with
    | none => rw [hx] at h; cases List.mem_singleton.1 h; exact .here _ _ _
    | some y =>
      rw [hx] at h
      rcases List.mem_cons.1 h with h | h
      · cases h; exact .here _ _ _
      · exact .store a x k (ih _ b h)

/-! ### The positions determine the accesses -/

section
variable (S : ShiftSem w) (m m' : Mem w) (first last d : BitIter w)

/-- C94: two calls of `copy` with the same iterators that end return the same iterator and access the same words in the same order, whatever the
two memories hold. -/
theorem C94_copy (p p' : BitIter w × Mem w) (h : copy S first last d m = .ok p) (h' : copy S first last d m' = .ok p') :
    p.1 = p'.1 ∧ (Gen.copy S first last d : Code w _).trace m = (Gen.copy S first last d : Code w _).trace m' :=
  Gen.o_copy m m' p.1 p'.1 p.2 p'.2 (by rw [Gen.r_copy]; exact h) (by rw [Gen.r_copy]; exact h') trivial

theorem C94_move (p p' : BitIter w × Mem w) (h : move S first last d m = .ok p) (h' : move S first last d m' = .ok p') :
    p.1 = p'.1 ∧ (Gen.move S first last d : Code w _).trace m = (Gen.move S first last d : Code w _).trace m' :=
  Gen.o_move m m' p.1 p'.1 p.2 p'.2 (by rw [Gen.r_move]; exact h) (by rw [Gen.r_move]; exact h') trivial

theorem C94_copy_backward (p p' : BitIter w × Mem w) (h : copyBackward S first last d m = .ok p) (h' : copyBackward S first last d m' = .ok p') :
    p.1 = p'.1 ∧ (Gen.copyBackward S first last d : Code w _).trace m = (Gen.copyBackward S first last d : Code w _).trace m' :=
  Gen.o_copyBackward m m' p.1 p'.1 p.2 p'.2 (by rw [Gen.r_copyBackward]; exact h) (by rw [Gen.r_copyBackward]; exact h') trivial

/-- C94: the value that `fill` writes makes no difference either. -/
theorem C94_fill (v v' : Bool) (p p' : Unit × Mem w) (h : fill S first last v m = .ok p) (h' : fill S first last v' m' = .ok p') :
    (Gen.fill S first last v : Code w _).trace m = (Gen.fill S first last v' : Code w _).trace m' :=
  (Gen.o_fill m m' p.1 p'.1 p.2 p'.2 (by rw [Gen.r_fill]; exact h) (by rw [Gen.r_fill]; exact h') trivial).2

/-- C94: nor the value that `count` counts (the result is another one, of course). -/
theorem C94_count (v v' : Bool) (p p' : Int × Mem w) (h : count S first last v m = .ok p) (h' : count S first last v' m' = .ok p') :
    (Gen.count S first last v : Code w _).trace m = (Gen.count S first last v' : Code w _).trace m' :=
  (Gen.o_count m m' p.1 p'.1 p.2 p'.2 (by rw [Gen.r_count]; exact h) (by rw [Gen.r_count]; exact h') trivial).2

/-- C94: nor the operation of `transform`. -/
theorem C94_transform (f f' : BitVec w → BitVec w) (p p' : BitIter w × Mem w) (h : transform S f first last d m = .ok p) (h' : transform S f' first last d m' = .ok p') :
    p.1 = p'.1 ∧ (Gen.transform S f first last d : Code w _).trace m = (Gen.transform S f' first last d : Code w _).trace m' :=
  Gen.o_transform m m' p.1 p'.1 p.2 p'.2 (by rw [Gen.r_transform]; exact h) (by rw [Gen.r_transform]; exact h') trivial

theorem C94_transform2 (second : BitIter w) (f f' : BitVec w → BitVec w → BitVec w) (p p' : BitIter w × Mem w) (h : transform2 S f first last second d m = .ok p) (h' : transform2 S f' first last second d m' = .ok p') :
    p.1 = p'.1 ∧ (Gen.transform2 S f first last second d : Code w _).trace m = (Gen.transform2 S f' first last second d : Code w _).trace m' :=
  Gen.o_transform2 m m' p.1 p'.1 p.2 p'.2 (by rw [Gen.r_transform2]; exact h) (by rw [Gen.r_transform2]; exact h') trivial

theorem C94_shift_left (n : Int) (p p' : BitIter w × Mem w) (h : shiftLeft S first last n m = .ok p) (h' : shiftLeft S first last n m' = .ok p') :
    p.1 = p'.1 ∧ (Gen.shiftLeft S first last n : Code w _).trace m = (Gen.shiftLeft S first last n : Code w _).trace m' :=
  Gen.o_shiftLeft m m' p.1 p'.1 p.2 p'.2 (by rw [Gen.r_shiftLeft]; exact h) (by rw [Gen.r_shiftLeft]; exact h') trivial

theorem C94_shift_right (n : Int) (p p' : BitIter w × Mem w) (h : shiftRight S first last n m = .ok p) (h' : shiftRight S first last n m' = .ok p') :
    p.1 = p'.1 ∧ (Gen.shiftRight S first last n : Code w _).trace m = (Gen.shiftRight S first last n : Code w _).trace m' :=
  Gen.o_shiftRight m m' p.1 p'.1 p.2 p'.2 (by rw [Gen.r_shiftRight]; exact h) (by rw [Gen.r_shiftRight]; exact h') trivial

theorem C94_reverse (p p' : Unit × Mem w) (h : reverse S first last m = .ok p) (h' : reverse S first last m' = .ok p') :
    (Gen.reverse S first last : Code w _).trace m = (Gen.reverse S first last : Code w _).trace m' :=
  (Gen.o_reverse m m' p.1 p'.1 p.2 p'.2 (by rw [Gen.r_reverse]; exact h) (by rw [Gen.r_reverse]; exact h') trivial).2

theorem C94_swap_ranges (p p' : BitIter w × Mem w) (h : swapRanges S first last d m = .ok p) (h' : swapRanges S first last d m' = .ok p') :
    p.1 = p'.1 ∧ (Gen.swapRanges S first last d : Code w _).trace m = (Gen.swapRanges S first last d : Code w _).trace m' :=
  Gen.o_swapRanges m m' p.1 p'.1 p.2 p'.2 (by rw [Gen.r_swapRanges]; exact h) (by rw [Gen.r_swapRanges]; exact h') trivial

theorem C94_rotate (p p' : BitIter w × Mem w) (h : rotate S first d last m = .ok p) (h' : rotate S first d last m' = .ok p') :
    p.1 = p'.1 ∧ (Gen.rotate S first d last : Code w _).trace m = (Gen.rotate S first d last : Code w _).trace m' :=
  Gen.o_rotate m m' p.1 p'.1 p.2 p'.2 (by rw [Gen.r_rotate]; exact h) (by rw [Gen.r_rotate]; exact h') trivial

end

/-! ### `find` and `equal` may end early -/

/-- C94: the accesses of `find` depend on the iterators and on the result only: two searches, for whatever value in whatever memory, that find the
same place access the same words in the same order. -/
theorem C94_find (S : ShiftSem w) (m m' : Mem w) (first last : BitIter w) (v v' : Bool) (hf : first.Valid) (p p' : BitIter w × Mem w)
    (h : find S first last v m = .ok p) (h' : find S first last v' m' = .ok p') (he : p.1 = p'.1) :
    (Gen.find S first last v : Code w _).trace m = (Gen.find S first last v' : Code w _).trace m' :=
  (Gen.o_find hf m m' p.1 p'.1 p.2 p'.2 (by rw [Gen.r_find]; exact h) (by rw [Gen.r_find]; exact h') he).2

/-- C94: without that condition it is not true: `find` stops at the first word that holds the value. -/
theorem C94_find_early : ¬ ∀ (S : ShiftSem 8) (m m' : Mem 8) (first last : BitIter 8) (v : Bool) (p p' : BitIter 8 × Mem 8),
    find S first last v m = .ok p → find S first last v m' = .ok p' →
    (Gen.find S first last v : Code 8 _).trace m = (Gen.find S first last v : Code 8 _).trace m' := by
  intro h
  have := h S8 (memOf [0#8, 0#8, 0#8]) (memOf [1#8, 0#8, 0#8]) ⟨0, 0⟩ ⟨3, 0⟩ true (⟨3, 0⟩, _) (⟨0, 0⟩, _) rfl rfl
  revert this
  decide +kernel

/-- C94: a comparison accesses the same words as one of the same ranges that returns `true`, in the same order, but may end early; if it returns
`true` as well, it does not. -/
theorem C94_equal (S : ShiftSem w) (m m' : Mem w) (first last d : BitIter w) (p p' : Bool × Mem w)
    (h : equal S first last d m = .ok p) (h' : equal S first last d m' = .ok p') (he : p'.1 = true) :
    (Gen.equal S first last d : Code w _).trace m <+: (Gen.equal S first last d : Code w _).trace m' ∧
    (p.1 = true → (Gen.equal S first last d : Code w _).trace m = (Gen.equal S first last d : Code w _).trace m') :=
  Gen.pf_equal m m' p.1 p'.1 p.2 p'.2 (by rw [Gen.r_equal]; exact h) (by rw [Gen.r_equal]; exact h') he

/-- C94: two comparisons that return `false` may end at different places. -/
theorem C94_equal_early : ¬ ∀ (S : ShiftSem 8) (m m' : Mem 8) (first last d : BitIter 8) (p p' : Bool × Mem 8),
    equal S first last d m = .ok p → equal S first last d m' = .ok p' → p.1 = p'.1 →
    (Gen.equal S first last d : Code 8 _).trace m = (Gen.equal S first last d : Code 8 _).trace m' := by
  intro h
  have := h S8 (memOf [0#8, 0#8, 0#8, 1#8, 0#8, 0#8]) (memOf [0#8, 0#8, 0#8, 0#8, 0#8, 1#8]) ⟨0, 0⟩ ⟨3, 0⟩ ⟨3, 0⟩ (false, _) (false, _) rfl rfl rfl
  revert this
  decide +kernel

/-! ### References -/

section
variable (m : Mem w) (r o : BitRef w) (hr : (m r.ptr).isSome)
include hr

/-- C94: reading a bit loads its word. -/
theorem C94_ref_read : (Gen.refToBool r : Code w _).trace m = [(r.ptr, false)] := by
  obtain ⟨x, hx⟩ := Option.isSome_iff_exists.1 hr
  show (Code.load r.ptr _).trace m = _
  rw [Code.trace, hx]
  rfl

/-- C94: every change of a bit (set, reset, flip, assignment of a value, `&=`, `|=`, `^=`) loads its word and stores it, also if the bit already has the value. -/
theorem C94_ref_update (u : Upd) : (Gen.refUpd r u : Code w _).trace m = [(r.ptr, false), (r.ptr, true)] := by
  obtain ⟨x, hx⟩ := Option.isSome_iff_exists.1 hr
  have key : ∀ f : BitVec w → BitVec w, (Code.load r.ptr fun x => Code.store r.ptr (f x) (.ret ())).trace m = [(r.ptr, false), (r.ptr, true)] := by
    intro f
    rw [Code.trace, hx]
    show (r.ptr, false) :: (Code.store r.ptr (f x) (.ret ())).trace m = _
    rw [Code.trace, hx]
    rfl
  cases u with
  | set => exact key _
  | reset => exact key _
  | flip => exact key _
  | setTo b => cases b <;> exact key _
  | assign b => cases b <;> exact key _
  | and b => exact key _
  | or b => exact key _
  | xor b => exact key _

/-- C94: assigning one bit to another loads the word of the other and loads and stores the own word. -/
theorem C94_ref_assign (ho : (m o.ptr).isSome) :
    (Gen.refAssignRef r o : Code w _).trace m = [(o.ptr, false), (r.ptr, false), (r.ptr, true)] := by
  obtain ⟨y, hy⟩ := Option.isSome_iff_exists.1 ho
  have h1 := C94_ref_update m r hr .set
  have h2 := C94_ref_update m r hr .reset
  show (Code.load o.ptr _).trace m = _
  rw [Code.trace, hy]
  dsimp only
  refine congrArg _ ?_
  show (if decide (y &&& o.mask ≠ 0#w) = true then (Gen.refSet r : Code w _) else Gen.refReset r).trace m = _
  split
  · exact h1
  · exact h2

/-- C94: swapping two bits is different: both are read first, and only if they differ, both words are changed. -/
theorem C94_ref_swap (ho : (m o.ptr).isSome) (b c : Bool) (m1 m2 : Mem w) (hb : r.toBool m = .ok (b, m1)) (hc : o.toBool m = .ok (c, m2)) :
    (Gen.refSwap r o : Code w _).trace m = [(r.ptr, false), (o.ptr, false)] ++
      (if b = c then [] else [(r.ptr, false), (r.ptr, true), (o.ptr, false), (o.ptr, true)]) := by
  obtain ⟨x, hx⟩ := Option.isSome_iff_exists.1 hr
  obtain ⟨y, hy⟩ := Option.isSome_iff_exists.1 ho
  have eb : decide (x &&& r.mask ≠ 0#w) = b := by
    have hb : (Gen.refToBool r : Code w _).run m = .ok (b, m1) := hb
    have hb : (Code.load r.ptr fun x => .ret (decide (x &&& r.mask ≠ 0#w))).run m = .ok (b, m1) := hb
    rw [Code.run_load_some hx] at hb
    exact (Prod.mk.inj (Except.ok.inj hb)).1
  have ec : decide (y &&& o.mask ≠ 0#w) = c := by
    have hc : (Code.load o.ptr fun x => .ret (decide (x &&& o.mask ≠ 0#w))).run m = .ok (c, m2) := hc
    rw [Code.run_load_some hy] at hc
    exact (Prod.mk.inj (Except.ok.inj hc)).1
  show (Code.load r.ptr _).trace m = _
  rw [Code.trace, hx]
  show (r.ptr, false) :: (Code.load o.ptr _).trace m = _
  rw [Code.trace, hy]
  show (r.ptr, false) :: (o.ptr, false) :: (if (⟨decide (x &&& r.mask ≠ 0#w)⟩ : BitVal).ne ⟨decide (y &&& o.mask ≠ 0#w)⟩ then
    (Gen.refFlip r >>= fun _ => Gen.refFlip o : Code w _) else pure ()).trace m = _
  rw [eb, ec]
  by_cases he : b = c
  · rw [if_pos he, if_neg (by subst he; simp [BitVal.ne])]
    rfl
  · rw [if_neg he, if_pos (by cases b <;> cases c <;> first | exact absurd rfl he | decide)]
    refine congrArg (fun l => (r.ptr, false) :: (o.ptr, false) :: l) ?_
    rw [Code.trace_bind (Gen.refFlip r : Code w _) _ m (m.set r.ptr (x ^^^ r.mask)) () (by
      show (Code.load r.ptr fun x => Code.store r.ptr (x ^^^ r.mask) (.ret ())).run m = _
      rw [Code.run_load_some hx, Code.run_store_some hx]
      rfl), show (Gen.refFlip r : Code w _) = Gen.refUpd r .flip from rfl, C94_ref_update m r hr .flip,
      show (Gen.refFlip o : Code w _) = Gen.refUpd o .flip from rfl, C94_ref_update _ o (by
        unfold Mem.set
        split
        · rfl
        · exact ho) .flip]
    rfl

end

/-- C94: so a program that swaps bits one by one, such as `std::swap_ranges`, accesses words that depend on the contents; the library's `swap_ranges`
does not (`C94_swap_ranges`). -/
theorem C94_std_swap_ranges : ¬ ∀ (S : ShiftSem 8) (m m' : Mem 8) (first last d : BitIter 8), Range m first last → Range m' first last →
    Dest m d (len first last) → Dest m' d (len first last) →
    (Gen.client S true (Std.swapRanges 9) (Std.start first last d d) : Code 8 _).trace m =
      (Gen.client S true (Std.swapRanges 9) (Std.start first last d d) : Code 8 _).trace m' := by
  intro h
  have := h S8 (memOf [0x0f#8, 0x0f#8]) (memOf [0x0f#8, 0x0e#8]) ⟨0, 0⟩ ⟨1, 0⟩ ⟨1, 0⟩
    (range_memOf (by decide) (by decide) (by decide) (by decide) (by decide)) (range_memOf (by decide) (by decide) (by decide) (by decide) (by decide))
    (dest_memOf (by decide) (by decide) (by decide)) (dest_memOf (by decide) (by decide) (by decide))
  revert this
  decide +kernel

/-! ### Which words are stored to -/

theorem wordOf_of_tw {lo hi a : Int} (hw : 0 < w) (hlt : lo < hi) (h : Tw w lo hi a) : WordOf w (Within lo hi) a := by
  obtain ⟨h1, h2⟩ := h
  have hw' : (0 : Int) < w := by omega
  refine ⟨max lo (a * w), ⟨le_max_left _ _, max_lt hlt h2⟩, ?_⟩
  refine le_antisymm (Int.lt_add_one_iff.1 ((Int.ediv_lt_iff_lt_mul hw').2 (max_lt h1 ?_))) ((Int.le_ediv_iff_mul_le hw').2 (le_max_right _ _))
  rw [Int.add_mul]
  omega

section
variable (S : ShiftSem w) (first last d : BitIter w) (hf : first.Valid) (hl : last.Valid) (hd : d.Valid) (a : Int)
include hf hl hd

/-- C94: `copy` stores to words that hold bits of its destination and to no others (it only loads the words of its source). -/
theorem C94_stores_copy (h : (Gen.copy S first last d : Code w _).Stores a) :
    WordOf w (Within d.addr (d.addr + len first last)) a := by
  have hp := (Gen.p_copy hf hl hd).stores h
  rw [BitIter.diff_eq] at hp
  unfold len at *
  by_cases hlt : first.addr < last.addr
  · exact wordOf_of_tw (lt_of_le_of_lt (Nat.zero_le _) hf) (by omega) (by rwa [Int.toNat_of_nonneg (by omega)] at hp)
  · refine absurd (Code.Puts.stores (T := NoWord) (Q := fun _ => True) ?_ h) id
    unfold Gen.copy
    exact Gen.p_bind_assert fun h0 => Gen.p_ite (fun _ => Gen.p_pure trivial) fun hne => absurd ((BitIter.beq_iff hf hl).2 (by
      rw [BitIter.diff_eq] at h0; omega)) hne

theorem C94_stores_move (h : (Gen.move S first last d : Code w _).Stores a) :
    WordOf w (Within d.addr (d.addr + len first last)) a := by
  have hp := (Gen.p_move hf hl hd).stores h
  rw [BitIter.diff_eq] at hp
  unfold len at *
  by_cases hlt : first.addr < last.addr
  · exact wordOf_of_tw (lt_of_le_of_lt (Nat.zero_le _) hf) (by omega) (by rwa [Int.toNat_of_nonneg (by omega)] at hp)
  · refine absurd (Code.Puts.stores (T := NoWord) (Q := fun _ => True) ?_ h) id
    unfold Gen.move
    exact Gen.p_bind_assert fun h0 => Gen.p_ite (fun _ => Gen.p_pure trivial) fun hne => absurd ((BitIter.beq_iff hf hl).2 (by
      rw [BitIter.diff_eq] at h0; omega)) hne

theorem C94_stores_copy_backward (h : (Gen.copyBackward S first last d : Code w _).Stores a) :
    WordOf w (Within (d.addr - len first last) d.addr) a := by
  have hp := (Gen.p_copyBackward hf hl hd).stores h
  rw [BitIter.diff_eq] at hp
  unfold len at *
  by_cases hlt : first.addr < last.addr
  · exact wordOf_of_tw (lt_of_le_of_lt (Nat.zero_le _) hf) (by omega) (by rwa [Int.toNat_of_nonneg (by omega)] at hp)
  · refine absurd (Code.Puts.stores (T := NoWord) (Q := fun _ => True) ?_ h) id
    unfold Gen.copyBackward
    exact Gen.p_bind_assert fun h0 => Gen.p_ite (fun _ => Gen.p_pure trivial) fun hne => absurd ((BitIter.beq_iff hf hl).2 (by
      rw [BitIter.diff_eq] at h0; omega)) hne

theorem C94_stores_transform (f : BitVec w → BitVec w) (h : (Gen.transform S f first last d : Code w _).Stores a) :
    WordOf w (Within d.addr (d.addr + len first last)) a := by
  have hp := (Gen.p_transform hf hl hd).stores h
  rw [BitIter.diff_eq] at hp
  unfold len at *
  by_cases hlt : first.addr < last.addr
  · exact wordOf_of_tw (lt_of_le_of_lt (Nat.zero_le _) hf) (by omega) (by rwa [Int.toNat_of_nonneg (by omega)] at hp)
  · refine absurd (Code.Puts.stores (T := NoWord) (Q := fun _ => True) ?_ h) id
    unfold Gen.transform
    exact Gen.p_bind_assert fun h0 => Gen.p_ite (fun _ => Gen.p_pure trivial) fun hne => absurd ((BitIter.beq_iff hf hl).2 (by
      rw [BitIter.diff_eq] at h0; omega)) hne

theorem C94_stores_transform2 (f : BitVec w → BitVec w → BitVec w) (second : BitIter w) (h : (Gen.transform2 S f first last second d : Code w _).Stores a) :
    WordOf w (Within d.addr (d.addr + len first last)) a := by
  have hp := (Gen.p_transform2 hf hl hd).stores h
  rw [BitIter.diff_eq] at hp
  unfold len at *
  by_cases hlt : first.addr < last.addr
  · exact wordOf_of_tw (lt_of_le_of_lt (Nat.zero_le _) hf) (by omega) (by rwa [Int.toNat_of_nonneg (by omega)] at hp)
  · refine absurd (Code.Puts.stores (T := NoWord) (Q := fun _ => True) ?_ h) id
    unfold Gen.transform2
    exact Gen.p_bind_assert fun h0 => Gen.p_ite (fun _ => Gen.p_pure trivial) fun hne => absurd ((BitIter.beq_iff hf hl).2 (by
      rw [BitIter.diff_eq] at h0; omega)) hne

end

/-! ### Several threads -/

/-- C82: the texts of `find`, `equal`, `count` and of reading a reference contain no store, as `C82_readers` demands of the code of the threads. -/
theorem C82_text_read (S : ShiftSem w) (first last d : BitIter w) (v : Bool) (r : BitRef w) (a : Int) :
    ¬ (Gen.find S first last v : Code w _).Stores a ∧ ¬ (Gen.equal S first last d : Code w _).Stores a ∧
    ¬ (Gen.count S first last v : Code w _).Stores a ∧ ¬ (Gen.refToBool r : Code w _).Stores a :=
  ⟨fun h => (Gen.p_find (T := NoWord)).stores h, fun h => (Gen.p_equal (T := NoWord)).stores h, fun h => (Gen.p_count (T := NoWord)).stores h,
    fun h => (Gen.p_refToBool (T := NoWord)).stores h⟩

/-- C82: any number of threads copy at the same time, thread `i` from `[first i, last i)` to `d i`. The sources may overlap, they may all be the same;
it is enough that no word of a destination holds bits of the source or the destination of another thread. Every interleaving of the accesses of the calls
is free of data races and undefined behaviour and ends, after the same number of accesses, with all copies made from the contents before, and
nothing else changed. -/
theorem C82_copies {ι : Type} [Fintype ι] [DecidableEq ι] (S : ShiftSem w) (first last d : ι → BitIter w) (m : Mem w)
    (hr : ∀ i, Range m (first i) (last i)) (hd : ∀ i, Dest m (d i) (len (first i) (last i)))
    (hov : ∀ i, (d i).addr ≤ (first i).addr ∨ (last i).addr ≤ (d i).addr)
    (hap : ∀ i j, i ≠ j → ∀ a, WordOf w (Within (d i).addr ((d i).addr + len (first i) (last i))) a →
      ¬ WordOf w (Either (Within (first j).addr (last j).addr) (Within (d j).addr ((d j).addr + len (first j) (last j)))) a) :
    ∃ (m' : Mem w) (N : Nat),
      (∀ i k, 0 ≤ k → k < len (first i) (last i) → bitAt m' ((d i).addr + k) = bitAt m ((first i).addr + k)) ∧
      (∀ j, (∀ i, ¬ Within (d i).addr ((d i).addr + len (first i) (last i)) j) → bitAt m' j = bitAt m j) ∧
      ∀ n t, Exec n (fun i => (Gen.copy S (first i) (last i) (d i) : Code w _), m) t → ¬ Race t ∧ ¬ Undef t ∧ n ≤ N ∧ (n < N → ∃ u, Step t u) ∧
        (n = N → (∃ r, Done t r ∧ ∀ i, (r i).Valid ∧ (r i).addr = (d i).addr + len (first i) (last i)) ∧ t.2 = m') := by
  obtain ⟨r, m', N, h1, h2, h3⟩ := C82_threads (fun i => copy S (first i) (last i) (d i)) (fun i => Within (first i).addr (last i).addr)
    (fun i => Within (d i).addr ((d i).addr + len (first i) (last i)))
    (fun i => C78_copy S _ _ _ (hr i).1 (hr i).2 (hd i).1 (hr i).3 (hov i)) m
    (fun i j hj => hj.elim (fun h => (hr i).4 j h.1 h.2) (fun h => (hd i).2 j h.1 h.2))
    (fun i => Gen.copy S (first i) (last i) (d i)) (fun i m => by rw [Gen.r_copy])
    (fun i j hij a hs _ => hap i j hij a (C94_stores_copy S _ _ _ (hr i).1 (hr i).2 (hd i).1 a hs))
  have key : ∀ i, ∃ mi, ((r i).Valid ∧ (r i).addr = (d i).addr + len (first i) (last i)) ∧
      Copied m mi (first i).addr (d i).addr (len (first i) (last i)) ∧
      ∀ j, Within (d i).addr ((d i).addr + len (first i) (last i)) j → bitAt m' j = bitAt mi j := by
    intro i
    obtain ⟨mi, hi, hj⟩ := h1 i
    obtain ⟨r', m'', e, e1, e2, e3⟩ := C06_copy S m (first i) (last i) (d i) (hr i) (hd i) (hov i)
    rw [hi] at e
    obtain ⟨rfl, rfl⟩ := Prod.mk.inj (Except.ok.inj e)
    exact ⟨mi, ⟨e1, e2⟩, e3, hj⟩
  refine ⟨m', N, fun i k hk1 hk2 => ?_, h2, fun n t h => ?_⟩
  · obtain ⟨mi, -, hc, hj⟩ := key i
    rw [hj _ ⟨by omega, by omega⟩, hc, if_pos ⟨by omega, by omega⟩]
    beta_reduce
    rw [show (first i).addr + ((d i).addr + k - (d i).addr) = (first i).addr + k by omega]
  · obtain ⟨g1, g2, g3, g4, g5⟩ := h3 n t h
    exact ⟨g1, g2, g3, g4, fun he => ⟨⟨r, (g5 he).1, fun i => (key i).elim fun _ hk => hk.1⟩, (g5 he).2⟩⟩

/-! ### Examples -/

/-- Two memories with different contents, and calls in both that end. -/
example : ∃ p p', copy S8 ⟨0, 3⟩ ⟨2, 6⟩ ⟨3, 5⟩ (memOf (List.replicate 6 0xa5#8)) = .ok p ∧
    copy S8 ⟨0, 3⟩ ⟨2, 6⟩ ⟨3, 5⟩ (memOf (List.replicate 6 0x3c#8)) = .ok p' := by
  obtain ⟨r, m', h, -⟩ := C06_copy S8 (memOf (List.replicate 6 0xa5#8)) ⟨0, 3⟩ ⟨2, 6⟩ ⟨3, 5⟩
    (range_memOf (by decide) (by decide) (by decide) (by decide) (by decide)) (dest_memOf (by decide) (by decide) (by decide)) (by decide)
  obtain ⟨r2, m2, h2, -⟩ := C06_copy S8 (memOf (List.replicate 6 0x3c#8)) ⟨0, 3⟩ ⟨2, 6⟩ ⟨3, 5⟩
    (range_memOf (by decide) (by decide) (by decide) (by decide) (by decide)) (dest_memOf (by decide) (by decide) (by decide)) (by decide)
  exact ⟨_, _, h, h2⟩

/-- The accesses of this call: words 0 to 2 are loaded only. -/
example : (Gen.copy S8 ⟨0, 3⟩ ⟨2, 6⟩ ⟨3, 5⟩ : Code 8 _).trace (memOf (List.replicate 6 0xa5#8)) =
    [(0, false), (3, false), (3, true), (0, false), (1, false), (4, true), (1, false), (2, false), (5, true)] := by
  decide +kernel

/-- Two searches that find the same place and do not have the same contents. -/
example : ∃ m m' : Mem 8, m ≠ m' ∧ ∃ p p', find S8 ⟨0, 3⟩ ⟨3, 0⟩ true m = .ok p ∧ find S8 ⟨0, 3⟩ ⟨3, 0⟩ false m' = .ok p' ∧ p.1 = p'.1 ∧ p.1 = ⟨1, 4⟩ :=
  ⟨memOf [0x00#8, 0x10#8, 0xff#8], memOf [0xff#8, 0x0f#8, 0x12#8], fun h => absurd (congrFun h 0) (by decide), (⟨1, 4⟩, _), (⟨1, 4⟩, _), rfl, rfl, rfl, rfl⟩

/-- A comparison that ends early and one that does not. -/
example : ∃ p p', equal S8 ⟨0, 3⟩ ⟨2, 0⟩ ⟨2, 3⟩ (memOf [0#8, 0#8, 0xff#8, 0#8]) = .ok p ∧ equal S8 ⟨0, 3⟩ ⟨2, 0⟩ ⟨2, 3⟩ (memOf [0#8, 7#8, 1#8, 7#8]) = .ok p' ∧
    p.1 = false ∧ p'.1 = true :=
  ⟨(false, _), (true, _), rfl, rfl, rfl, rfl⟩

/-- Two bits that differ. -/
example : ((memOf [0x01#8]) (⟨0, 1#8⟩ : BitRef 8).ptr).isSome ∧ (⟨0, 1#8⟩ : BitRef 8).toBool (memOf [0x01#8]) = .ok (true, memOf [0x01#8]) ∧
    (⟨0, 2#8⟩ : BitRef 8).toBool (memOf [0x01#8]) = .ok (false, memOf [0x01#8]) :=
  ⟨rfl, rfl, rfl⟩

/-- Three threads copy the same 13 bits, to words of their own. -/
example : ∃ (m' : Mem 8) (N : Nat), ∀ n t,
    Exec n (fun i : Fin 3 => (Gen.copy S8 ⟨0, 3⟩ ⟨2, 0⟩ ⟨2 + 2 * (i : Int), 1⟩ : Code 8 _), memOf (List.replicate 8 0xa5#8)) t →
      ¬ Race t ∧ (n = N → t.2 = m') := by
  have haddr : ∀ i : Fin 3, (⟨2 + 2 * (i : Int), 1⟩ : BitIter 8).addr = (2 + 2 * (i : Int)) * 8 + 1 := fun i => rfl
  have hlen : len (⟨0, 3⟩ : BitIter 8) ⟨2, 0⟩ = 13 := by decide
  obtain ⟨m', N, -, -, h⟩ := C82_copies (ι := Fin 3) S8 (fun _ => ⟨0, 3⟩) (fun _ => ⟨2, 0⟩) (fun i => ⟨2 + 2 * (i : Int), 1⟩) (memOf (List.replicate 8 0xa5#8))
    (fun _ => range_memOf (by decide) (by decide) (by decide) (by decide) (by decide))
    (fun i => dest_memOf (show 1 < 8 by decide) (by rw [haddr]; omega) (by rw [haddr, hlen]; show _ ≤ ((8 : Nat) * 8 : Int); omega))
    (fun i => Or.inr (by rw [haddr]; show (2 * 8 + 0 : Int) ≤ _; omega)) (by
      intro i j hij a ha hb
      obtain ⟨x, ⟨hx1, hx2⟩, rfl⟩ := ha
      obtain ⟨y, hy, hxy⟩ := hb
      rw [haddr] at hx1 hx2
      rw [hlen] at hx2
      have hne : (i : Nat) ≠ j := fun h => hij (Fin.ext h)
      rcases hy with ⟨h1, h2⟩ | ⟨h1, h2⟩
      · have h2 : y < 2 * 8 + 0 := h2
        have h1 : 0 * 8 + 3 ≤ y := h1
        omega
      · rw [haddr] at h1 h2
        rw [hlen] at h2
        omega)
  exact ⟨m', N, fun n t ht => ⟨(h n t ht).1, fun he => ((h n t ht).2.2.2.2 he).2⟩⟩

end BitLib
