import Verif.Lemmas.Ref
import Verif.Props.Run
/- C03, C04, C05, C54: bit references, bit pointers and bit values. -/
namespace BitLib
variable {w : Nat}

/-! ### C03 -/

/-- C03: `*it` designates the bit of `it`, `it[n]` the bit `n` places after it, for any signed `n`. -/
theorem C03_deref (S : ShiftSem w) (it : BitIter w) (h : it.Valid) (n : Int) :
    (∃ r, it.deref S = .ok r ∧ r.At it.addr) ∧ (∃ r, it.index S n = .ok r ∧ r.At (it.addr + n)) ∧
    it.index S n = (it.add n).deref S := by
  have hw : 0 < w := Nat.lt_of_le_of_lt (Nat.zero_le _) h
  have e : it.index S n = (it.add n).deref S := rfl
  refine ⟨?_, ?_, e⟩
  · obtain ⟨r, h1, h2, _⟩ := ref_make S it.base it.pos h
    exact ⟨r, h1, h2⟩
  · obtain ⟨r, h1, h2, _⟩ := ref_make S (it.add n).base (it.add n).pos (BitIter.add_valid hw it n)
    rw [e]
    refine ⟨r, h1, ?_⟩
    have := BitIter.add_addr hw it n
    rw [show (it.add n).base * (w : Int) + (it.add n).pos = (it.add n).addr from rfl, this] at h2
    exact h2

/-- C03: `it.mask()` selects the bit `it.position()`, and `*it` has that word, position and mask. -/
theorem C03_mask (S : ShiftSem w) (bi : Bool) (it : BitIter w) (h : it.Valid) :
    ∃ k r, it.mask S = .ok k ∧ (∀ i, i < w → k.getLsbD i = decide (i = it.pos)) ∧ it.deref S = .ok r ∧
      r.ptr = it.base ∧ r.mask = k ∧ r.position bi = .ok it.pos := by
  obtain ⟨r, h1, _, h3, h4⟩ := ref_make S it.base it.pos h
  refine ⟨1#w <<< it.pos, r, S.shl_ok h, ?_, h1, h3, h4, ref_position bi r it.pos h h4⟩
  intro i hi
  exact getLsbD_oneShl it.pos i hi

/-- C03: reading yields the designated bit and changes nothing. -/
theorem C03_read (m : Mem w) (r : BitRef w) (a : Int) (b : Bool) (hr : r.At a) (hb : bitAt m a = some b) :
    r.toBool m = .ok (b, m) := by
  obtain ⟨x, m', h, rfl, rfl⟩ := wp_refRead (Q := fun x m' => x = b ∧ m' = m) hr hb ⟨rfl, rfl⟩
  exact h

/-- The nine single-bit updates of the library, with their boolean meaning as a function of the old value. -/
inductive RefOp (w : Nat) where
  | set | reset | flip
  | setTo (v : Bool) | assignVal (v : BitVal) | assignWord (x : BitVec w)
  | andAssign (v : BitVal) | orAssign (v : BitVal) | xorAssign (v : BitVal)

/-- The modelled program of each operation. -/
def RefOp.run (r : BitRef w) : RefOp w → M w Unit
  | .set => r.set
  | .reset => r.reset
  | .flip => r.flip
  | .setTo v => r.setTo v
  | .assignVal v => r.assignVal v
  | .assignWord x => r.assignWord x
  | .andAssign v => r.andAssign v
  | .orAssign v => r.orAssign v
  | .xorAssign v => r.xorAssign v

/-- The intended boolean operation. -/
def RefOp.spec (old : Bool) : RefOp w → Bool
  | .set => true
  | .reset => false
  | .flip => !old
  | .setTo v => v
  | .assignVal v => v.value
  | .assignWord x => x.getLsbD 0
  | .andAssign v => old && v.value
  | .orAssign v => old || v.value
  | .xorAssign v => old ^^ v.value

/-- C03: every update changes exactly the designated bit, to the value of the boolean operation;
reading the reference afterwards yields that value. -/
theorem C03_write (m : Mem w) (r : BitRef w) (a : Int) (b : Bool) (op : RefOp w) (hr : r.At a) (hb : bitAt m a = some b) :
    ∃ m', op.run r m = .ok ((), m') ∧ (∀ i, bitAt m' i = if i = a then some (op.spec b) else bitAt m i) ∧
      r.toBool m' = .ok (op.spec b, m') := by
  have hs : (bitAt m a).isSome := by rw [hb]; rfl
  have key : wp (op.run r) m (fun _ m' => OneBit m m' a (op.spec b)) := by
    cases op with
    | set => exact wp_refSet hr hs (fun _ h => h)
    | reset => exact wp_refReset hr hs (fun _ h => h)
    | flip => exact wp_refFlip hr hb (fun _ h => h)
    | setTo v => exact wp_refSetTo hr hs (fun _ h => h)
    | assignVal v => exact wp_refSetTo (v := v.value) hr hs (fun _ h => h)
    | assignWord x =>
      show wp (if x &&& 1#w ≠ 0#w then r.set else r.reset) m _
      by_cases h : x &&& 1#w ≠ 0#w
      · rw [if_pos h]
        rw [and_one_ne_zero] at h
        refine wp_refSet hr hs (fun m' h' => ?_)
        show OneBit m m' a (x.getLsbD 0)
        rw [h]; exact h'
      · rw [if_neg h]
        rw [and_one_ne_zero] at h
        refine wp_refReset hr hs (fun m' h' => ?_)
        show OneBit m m' a (x.getLsbD 0)
        rw [show x.getLsbD 0 = false by simpa using h]; exact h'
    | andAssign v => exact wp_refAnd hr hb (fun _ h => h)
    | orAssign v => exact wp_refOr hr hb (fun _ h => h)
    | xorAssign v => exact wp_refXor hr hb (fun _ h => h)
  obtain ⟨_, m', h, hm⟩ := key
  exact ⟨m', h, hm, C03_read m' r a _ hr (by rw [hm a, if_pos rfl])⟩

/-- C03: `assign(word, pos)` assigns bit `pos` of the word; a position outside the word is rejected by the assertion. -/
theorem C03_assign_pos (S : ShiftSem w) (m : Mem w) (r : BitRef w) (a : Int) (x : BitVec w) (pos : Nat) (hr : r.At a)
    (hb : (bitAt m a).isSome) :
    (pos < w → ∃ m', r.assignWordPos S x pos m = .ok ((), m') ∧
      ∀ i, bitAt m' i = if i = a then some (x.getLsbD pos) else bitAt m i) ∧
    (w ≤ pos → r.assignWordPos S x pos m = .error .assertFail) := by
  constructor
  · intro hp
    have : wp (r.assignWordPos S x pos) m (fun _ m' => OneBit m m' a (x.getLsbD pos)) := by
      unfold BitRef.assignWordPos
      rw [wp_bind, wp_assert]
      refine ⟨hp, ?_⟩
      rw [wp_bind, wp_shr S hp]
      by_cases h : (x >>> pos) &&& 1#w ≠ 0#w
      · rw [if_pos h]
        rw [and_one_ne_zero] at h
        refine wp_refSet hr hb (fun m' h' => ?_)
        rw [show x.getLsbD pos = true by simpa using h]; exact h'
      · rw [if_neg h]
        rw [and_one_ne_zero] at h
        refine wp_refReset hr hb (fun m' h' => ?_)
        rw [show x.getLsbD pos = false by simpa using h]; exact h'
    obtain ⟨_, m', h, hm⟩ := this
    exact ⟨m', h, hm⟩
  · intro hp
    unfold BitRef.assignWordPos assertM
    rw [if_neg (by omega)]; rfl

/-- C03: assignment from another reference (which may share the word, or be the same bit) copies the bit. -/
theorem C03_assign_ref (m : Mem w) (r o : BitRef w) (a c : Int) (v : Bool) (hr : r.At a) (ho : o.At c)
    (hb : (bitAt m a).isSome) (hv : bitAt m c = some v) :
    ∃ m', r.assignRef o m = .ok ((), m') ∧ ∀ i, bitAt m' i = if i = a then some v else bitAt m i := by
  have : wp (r.assignRef o) m (fun _ m' => OneBit m m' a v) := by
    unfold BitRef.assignRef
    rw [wp_bind]
    exact wp_refRead ho hv (wp_refSetTo hr hb (fun _ h => h))
  obtain ⟨_, m', h, hm⟩ := this
  exact ⟨m', h, hm⟩

/-- C03: the word holding the bit must be accessible: otherwise every access is out of bounds. -/
theorem C03_unmapped (m : Mem w) (r : BitRef w) (op : RefOp w) (h : m r.ptr = none) :
    r.toBool m = .error .outOfBounds ∧ op.run r m = .error .outOfBounds := by
  have hl : load r.ptr m = .error .outOfBounds := by unfold load; rw [h]
  have hbind : ∀ {α : Type} (f : BitVec w → M w α), (load r.ptr >>= f) m = .error .outOfBounds := by
    intro α f
    show (load r.ptr m >>= fun p => f p.1 p.2) = _
    rw [hl]; rfl
  refine ⟨hbind _, ?_⟩
  cases op with
  | set => exact hbind _
  | reset => exact hbind _
  | flip => exact hbind _
  | setTo v => cases v <;> exact hbind _
  | assignVal v =>
    show (if v.value then r.set else r.reset) m = _
    cases v.value <;> exact hbind _
  | assignWord x =>
    show (if x &&& 1#w ≠ 0#w then r.set else r.reset) m = _
    split
    · exact hbind _
    · exact hbind _
  | andAssign v => exact hbind _
  | orAssign v => exact hbind _
  | xorAssign v => exact hbind _

/-- The hypotheses hold for bit 11 of two words. -/
example : (⟨1, 0x08#8⟩ : BitRef 8).At 11 ∧ bitAt (memOf [0xa5#8, 0x3c#8]) 11 = some true :=
  ⟨⟨3, by decide, by decide, by decide⟩, by decide⟩

example : runOn (RefOp.run (⟨1, 0x08#8⟩ : BitRef 8) .flip) [0xa5#8, 0x3c#8] = .ok ((), [0xa5#8, 0x34#8]) := by decide +kernel

/-! ### C04 -/

/-- C04: swapping two references exchanges the two bits and changes nothing else.
The two bits may lie in different words, in one word, or be the same bit. -/
theorem C04_swap (m : Mem w) (l r : BitRef w) (a c : Int) (x y : Bool) (hl : l.At a) (hr : r.At c)
    (hx : bitAt m a = some x) (hy : bitAt m c = some y) :
    ∃ m', BitRef.swap l r m = .ok ((), m') ∧
      ∀ i, bitAt m' i = if i = a then some y else if i = c then some x else bitAt m i := by
  have : wp (BitRef.swap l r) m (fun _ m' => ∀ i, bitAt m' i = if i = a then some y else if i = c then some x else bitAt m i) := by
    unfold BitRef.swap BitRef.toVal
    simp only [wp_bind]
    refine wp_refRead hl hx ?_
    rw [wp_pure]
    refine wp_refRead hr hy ?_
    rw [wp_pure]
    by_cases hxy : x = y
    · subst hxy
      rw [if_neg (by cases x <;> decide), wp_pure]
      intro i
      split_ifs with h1 h2
      · rw [h1, hx]
      · rw [h2, hy]
      · rfl
    · rw [if_pos (by cases x <;> cases y <;> simp_all <;> decide), wp_bind]
      have hac : a ≠ c := by rintro rfl; rw [hx] at hy; exact hxy (by simpa using hy)
      refine wp_refFlip hl hx (fun m1 h1 => ?_)
      refine wp_refFlip (b := y) hr (by rw [h1 c, if_neg (Ne.symm hac), hy]) (fun m2 h2 => ?_)
      intro i
      rw [h2 i, h1 i]
      have e1 : (!y) = x := by cases x <;> cases y <;> simp_all
      have e2 : (!x) = y := by cases x <;> cases y <;> simp_all
      rw [e1, e2]
      split_ifs with h3 h4 h5
      · omega
      · rfl
      · rfl
      · rfl
  obtain ⟨_, m', h, hm⟩ := this
  exact ⟨m', h, hm⟩

/-- C04: swapping a reference with a `bit_value` exchanges the two. -/
theorem C04_swap_value (m : Mem w) (l : BitRef w) (a : Int) (x : Bool) (v : BitVal) (hl : l.At a) (hx : bitAt m a = some x) :
    ∃ m', BitRef.swapVal l v m = .ok (⟨x⟩, m') ∧ ∀ i, bitAt m' i = if i = a then some v.value else bitAt m i := by
  have : wp (BitRef.swapVal l v) m (fun r m' => r = ⟨x⟩ ∧ OneBit m m' a v.value) := by
    unfold BitRef.swapVal BitRef.toVal
    simp only [wp_bind]
    refine wp_refRead hl hx ?_
    rw [wp_pure]
    obtain ⟨y⟩ := v
    by_cases hxy : y = x
    · subst hxy
      rw [if_neg (by cases y <;> decide), wp_pure]
      refine ⟨rfl, fun i => ?_⟩
      split_ifs with h1
      · rw [h1, hx]
      · rfl
    · rw [if_pos (by cases x <;> cases y <;> simp_all <;> decide), wp_bind]
      refine wp_refFlip hl hx (fun m1 h1 => ?_)
      rw [wp_pure]
      have e1 : (!y) = x := by cases x <;> cases y <;> simp_all
      have e2 : (!x) = y := by cases x <;> cases y <;> simp_all
      refine ⟨?_, ?_⟩
      · show (⟨!y⟩ : BitVal) = ⟨x⟩
        rw [e1]
      · rw [e2] at h1; exact h1
  obtain ⟨r, m', h, rfl, hm⟩ := this
  exact ⟨m', h, hm⟩

/-- Two bits of one word, and one bit with itself. -/
example : (⟨0, 0x01#8⟩ : BitRef 8).At 0 ∧ (⟨0, 0x02#8⟩ : BitRef 8).At 1 ∧
    bitAt (memOf [0xa5#8]) 0 = some true ∧ bitAt (memOf [0xa5#8]) 1 = some false :=
  ⟨⟨0, by decide, by decide, by decide⟩, ⟨1, by decide, by decide, by decide⟩, by decide, by decide⟩

example : runOn (BitRef.swap (⟨0, 0x01#8⟩ : BitRef 8) ⟨0, 0x02#8⟩) [0xa5#8] = .ok ((), [0xa6#8]) := by decide +kernel
example : runOn (BitRef.swap (⟨0, 0x01#8⟩ : BitRef 8) ⟨0, 0x01#8⟩) [0xa5#8] = .ok ((), [0xa5#8]) := by decide +kernel

/-! ### C05 -/

/-- A bit address is designated by one pointer only. -/
theorem BitPtr.at_inj {p q : BitPtr w} {a : Int} (hp : p.At a) (hq : q.At a) : p = q := by
  obtain ⟨⟨pp, pk⟩⟩ := p
  obtain ⟨⟨qp, qk⟩⟩ := q
  obtain ⟨i, hi, hk, ha⟩ := hp
  obtain ⟨j, hj, hk', ha'⟩ := hq
  dsimp only at *
  have e : (⟨pp, i⟩ : BitIter w) = ⟨qp, j⟩ := BitIter.addr_inj (show i < w from hi) (show j < w from hj)
    (show pp * (w : Int) + i = qp * (w : Int) + j by omega)
  injection e with e1 e2
  subst e1 e2
  rw [hk, hk']

theorem BitPtr.make_at (S : ShiftSem w) (a : Int) (p : Nat) (hp : p < w) :
    ∃ q, BitPtr.make S a p = .ok q ∧ q.At (a * (w : Int) + p) := by
  obtain ⟨r, h1, h2, _⟩ := ref_make S a p hp
  refine ⟨⟨r⟩, ?_, h2⟩
  unfold BitPtr.make
  rw [h1]; rfl

/-- C05: the constructors: an aligned pointer, a pointer with a position, `it.operator->()`. -/
theorem C05_construct (S : ShiftSem w) (a : Int) (p : Nat) (hp : p < w) :
    (BitPtr.aligned a : BitPtr w).At (a * (w : Int)) ∧ (∃ q, BitPtr.make S a p = .ok q ∧ q.At (a * (w : Int) + p)) ∧
    (∃ q, BitPtr.ofIter S ⟨a, p⟩ = .ok q ∧ q.At (⟨a, p⟩ : BitIter w).addr) :=
  ⟨⟨0, by omega, (by simp [BitPtr.aligned, BitRef.aligned]), (by simp [BitPtr.aligned, BitRef.aligned])⟩,
    BitPtr.make_at S a p hp, BitPtr.make_at S a p hp⟩

/-- C05: `&ref` points to the designated bit, and `*p` designates it. -/
theorem C05_address_of (S : ShiftSem w) (bi : Bool) (r : BitRef w) (a : Int) (hr : r.At a) :
    ∃ q, BitPtr.ofRef S bi r = .ok q ∧ q.At a ∧ q.deref = r := by
  obtain ⟨i, hi, hk, ha⟩ := hr
  obtain ⟨q, h1, h2⟩ := BitPtr.make_at S r.ptr i hi
  refine ⟨q, ?_, by rw [ha]; exact h2, ?_⟩
  · unfold BitPtr.ofRef
    rw [ref_position bi r i hi hk]; exact h1
  · have : q = ⟨r⟩ := BitPtr.at_inj h2 ⟨i, hi, hk, rfl⟩
    rw [this]; rfl

/-- C05: `p + n` and `p - n` move by `n` bits for any signed `n`, and `p[n]` designates the bit `n` places after. -/
theorem C05_add_sub (S : ShiftSem w) (bi : Bool) (p : BitPtr w) (a : Int) (hp : p.At a) (n : Int) :
    (∃ q, p.add S bi n = .ok q ∧ q.At (a + n)) ∧ (∃ q, p.sub S bi n = .ok q ∧ q.At (a - n)) ∧
    (∃ r, p.index S bi n = .ok r ∧ r.At (a + n)) := by
  obtain ⟨i, hi, hk, ha⟩ := hp
  have hw : 0 < w := by omega
  have e : a = (⟨p.ref.ptr, i⟩ : BitIter w).addr := ha
  have h1 := BitIter.add_addr hw ⟨p.ref.ptr, i⟩ n
  have h2 := BitIter.sub_addr hw ⟨p.ref.ptr, i⟩ n
  have v1 := BitIter.add_valid hw (⟨p.ref.ptr, i⟩ : BitIter w) n
  have v2 := BitIter.sub_valid hw (⟨p.ref.ptr, i⟩ : BitIter w) n
  refine ⟨?_, ?_, ?_⟩
  · obtain ⟨q, hq, hqa⟩ := BitPtr.make_at S _ _ v1
    refine ⟨q, ?_, by rw [e, ← h1]; exact hqa⟩
    unfold BitPtr.add
    rw [ref_position bi p.ref i hi hk]
    exact hq
  · obtain ⟨q, hq, hqa⟩ := BitPtr.make_at S _ _ v2
    refine ⟨q, ?_, by rw [e, ← h2]; exact hqa⟩
    unfold BitPtr.sub
    rw [ref_position bi p.ref i hi hk]
    exact hq
  · obtain ⟨q, hq, hqa, _⟩ := ref_make S _ _ v1
    refine ⟨q, ?_, by rw [e, ← h1]; exact hqa⟩
    unfold BitPtr.index
    rw [ref_position bi p.ref i hi hk]
    exact hq

/-- C05: the mask-based `++` and `--` agree with `+ 1` and `- 1`, also across word boundaries. -/
theorem C05_inc_dec (S : ShiftSem w) (bi : Bool) (p : BitPtr w) (a : Int) (hp : p.At a) :
    (∃ q, p.inc S bi = .ok q ∧ q.At (a + 1) ∧ p.add S bi 1 = .ok q) ∧
    (∃ q, p.dec S bi = .ok q ∧ q.At (a - 1) ∧ p.sub S bi 1 = .ok q) := by
  have h0 := C05_add_sub S bi p a hp 1
  obtain ⟨⟨q1, hq1, ha1⟩, ⟨q2, hq2, ha2⟩, _⟩ := h0
  obtain ⟨i, hi, hk, ha⟩ := hp
  have hw : 0 < w := by omega
  constructor
  · have : ∃ q, p.inc S bi = .ok q ∧ q.At (a + 1) := by
      unfold BitPtr.inc
      rw [ref_position bi p.ref i hi hk]
      show ∃ q, (if i + 1 < w then _ else _) = _ ∧ _
      by_cases h : i + 1 < w
      · rw [if_pos h, S.shl_ok (by omega)]
        refine ⟨_, rfl, i + 1, h, ?_, ?_⟩
        · show p.ref.mask <<< 1 = _
          rw [hk, ← BitVec.shiftLeft_add]
        · show a + 1 = p.ref.ptr * (w : Int) + ((i + 1 : Nat) : Int)
          push_cast; omega
      · rw [if_neg h]
        refine ⟨_, rfl, 0, hw, ?_, ?_⟩
        · show 1#w = _
          simp
        · show a + 1 = (p.ref.ptr + 1) * (w : Int) + ((0 : Nat) : Int)
          rw [Int.add_mul]; omega
    obtain ⟨q, h1, h2⟩ := this
    exact ⟨q, h1, h2, by rw [hq1, BitPtr.at_inj ha1 h2]⟩
  · have : ∃ q, p.dec S bi = .ok q ∧ q.At (a - 1) := by
      unfold BitPtr.dec
      rw [ref_position bi p.ref i hi hk]
      show ∃ q, (if i ≠ 0 then _ else _) = _ ∧ _
      by_cases h : i ≠ 0
      · rw [if_pos h, S.shr_ok (by omega)]
        refine ⟨_, rfl, i - 1, by omega, ?_, ?_⟩
        · show p.ref.mask >>> 1 = _
          rw [hk]
          apply BitVec.eq_of_getLsbD_eq
          intro j hj
          rw [BitVec.getLsbD_ushiftRight, getLsbD_oneShl (i - 1) j hj]
          by_cases hj2 : 1 + j < w
          · rw [getLsbD_oneShl i (1 + j) hj2]
            congr 1
            rw [eq_iff_iff]; omega
          · rw [BitVec.getLsbD_of_ge _ _ (by omega)]
            symm
            rw [decide_eq_false_iff_not]; omega
        · show a - 1 = p.ref.ptr * (w : Int) + ((i - 1 : Nat) : Int)
          omega
      · rw [if_neg h, S.shl_ok (by omega)]
        refine ⟨_, rfl, w - 1, by omega, rfl, ?_⟩
        show a - 1 = (p.ref.ptr - 1) * (w : Int) + ((w - 1 : Nat) : Int)
        rw [Int.sub_mul]; omega
    obtain ⟨q, h1, h2⟩ := this
    exact ⟨q, h1, h2, by rw [hq2, BitPtr.at_inj ha2 h2]⟩

/-- C05: difference and the six comparisons are those of the bit addresses. -/
theorem C05_diff_compare (bi : Bool) (p q : BitPtr w) (a b : Int) (hp : p.At a) (hq : q.At b) :
    BitPtr.diff bi p q = .ok (a - b) ∧ BitPtr.eq bi p q = .ok (decide (a = b)) ∧ BitPtr.ne bi p q = .ok (decide (a ≠ b)) ∧
    BitPtr.lt bi p q = .ok (decide (a < b)) ∧ BitPtr.le bi p q = .ok (decide (a ≤ b)) ∧
    BitPtr.gt bi p q = .ok (decide (a > b)) ∧ BitPtr.ge bi p q = .ok (decide (a ≥ b)) := by
  obtain ⟨i, hi, hk, ha⟩ := hp
  obtain ⟨j, hj, hk', hb⟩ := hq
  have tri : (p.ref.ptr < q.ref.ptr ∧ p.ref.ptr * (w : Int) + w ≤ q.ref.ptr * w) ∨
      (p.ref.ptr = q.ref.ptr ∧ p.ref.ptr * (w : Int) = q.ref.ptr * w) ∨
      (q.ref.ptr < p.ref.ptr ∧ q.ref.ptr * (w : Int) + w ≤ p.ref.ptr * w) := by
    rcases Int.lt_trichotomy p.ref.ptr q.ref.ptr with h | h | h
    · exact Or.inl ⟨h, base_lt_mul h⟩
    · exact Or.inr (Or.inl ⟨h, by rw [h]⟩)
    · exact Or.inr (Or.inr ⟨h, base_lt_mul h⟩)
  unfold BitPtr.diff BitPtr.eq BitPtr.ne BitPtr.lt BitPtr.le BitPtr.gt BitPtr.ge
  rw [ref_position bi p.ref i hi hk, ref_position bi q.ref j hj hk']
  refine ⟨?_, ?_, ?_, ?_, ?_, ?_, ?_⟩
  · show Except.ok ((p.ref.ptr - q.ref.ptr) * (w : Int) + ((i : Int) - (j : Int))) = _
    rw [Int.sub_mul]; congr 1; omega
  · show Except.ok (decide (p.ref.ptr = q.ref.ptr ∧ i = j)) = _
    congr 1; rw [decide_eq_decide]; omega
  · show Except.ok (decide (p.ref.ptr ≠ q.ref.ptr ∨ i ≠ j)) = _
    congr 1; rw [decide_eq_decide]; omega
  · show Except.ok (decide (p.ref.ptr < q.ref.ptr ∨ (p.ref.ptr = q.ref.ptr ∧ i < j))) = _
    congr 1; rw [decide_eq_decide]; omega
  · show Except.ok (decide (p.ref.ptr < q.ref.ptr ∨ (p.ref.ptr = q.ref.ptr ∧ i ≤ j))) = _
    congr 1; rw [decide_eq_decide]; omega
  · show Except.ok (decide (p.ref.ptr > q.ref.ptr ∨ (p.ref.ptr = q.ref.ptr ∧ i > j))) = _
    congr 1; rw [decide_eq_decide]; omega
  · show Except.ok (decide (p.ref.ptr > q.ref.ptr ∨ (p.ref.ptr = q.ref.ptr ∧ i ≥ j))) = _
    congr 1; rw [decide_eq_decide]; omega

/-- C05: `(p + n) - p == n` and `(p + n) - n == p`. -/
theorem C05_round_trip (S : ShiftSem w) (bi : Bool) (p : BitPtr w) (a : Int) (hp : p.At a) (n : Int) :
    ∃ q, p.add S bi n = .ok q ∧ BitPtr.diff bi q p = .ok n ∧ q.sub S bi n = .ok p := by
  obtain ⟨⟨q, hq, ha⟩, _, _⟩ := C05_add_sub S bi p a hp n
  obtain ⟨_, ⟨q2, hq2, ha2⟩, _⟩ := C05_add_sub S bi q (a + n) ha n
  refine ⟨q, hq, ?_, ?_⟩
  · rw [(C05_diff_compare bi q p _ _ ha hp).1]; congr 1; omega
  · rw [hq2, BitPtr.at_inj (p := q2) (q := p) (a := a) (by rw [show a = a + n - n by omega]; exact ha2) hp]

/-- The last bit of a word, and a backward step over a word boundary. -/
example : (⟨⟨3, 0x80#8⟩⟩ : BitPtr 8).At 31 ∧ (⟨⟨3, 0x80#8⟩⟩ : BitPtr 8).inc S8 true = .ok ⟨⟨4, 0x01#8⟩⟩ ∧
    (⟨⟨3, 0x80#8⟩⟩ : BitPtr 8).add S8 false (-9) = .ok ⟨⟨2, 0x40#8⟩⟩ :=
  ⟨⟨7, by decide, by decide, by decide⟩, by decide +kernel, by decide +kernel⟩

/-! ### C54 -/

/-- C54: the operations of `bit_value` are the boolean operations. -/
theorem C54_operations (a b : BitVal) (x : Bool) :
    (BitVal.default).toBool = false ∧ (BitVal.ofBool x).toBool = x ∧
    (a.andAssign b).toBool = (a.toBool && b.toBool) ∧ (a.orAssign b).toBool = (a.toBool || b.toBool) ∧
    (a.xorAssign b).toBool = (a.toBool ^^ b.toBool) ∧
    (a.setTo x).toBool = x ∧ a.set.toBool = true ∧ a.reset.toBool = false ∧ a.flip.toBool = !a.toBool ∧
    (a.swap b = (b, a)) ∧
    a.not.toBool = !a.toBool ∧ (a.and b).toBool = (a.toBool && b.toBool) ∧ (a.or b).toBool = (a.toBool || b.toBool) ∧
    (a.xor b).toBool = (a.toBool ^^ b.toBool) := by
  obtain ⟨a⟩ := a
  obtain ⟨b⟩ := b
  cases a <;> cases b <;> cases x <;> decide

/-- C54: the comparisons order `0` before `1`, and a `bit_value` is determined by its boolean. -/
theorem C54_comparisons (a b : BitVal) :
    a.eq b = (a.toBool == b.toBool) ∧ a.ne b = (a.toBool != b.toBool) ∧ a.lt b = (!a.toBool && b.toBool) ∧
    a.le b = (!a.toBool || b.toBool) ∧ a.gt b = (a.toBool && !b.toBool) ∧ a.ge b = (a.toBool || !b.toBool) ∧
    (a.toBool = b.toBool → a = b) := by
  obtain ⟨a⟩ := a
  obtain ⟨b⟩ := b
  cases a <;> cases b <;> decide

/-- C54: a `bit_value` built from (or assigned) a word takes the least significant bit. -/
theorem C54_of_word (b : BitVal) (x : BitVec w) :
    (BitVal.ofWord x).toBool = x.getLsbD 0 ∧ (b.assign x).toBool = x.getLsbD 0 := by
  have : decide (x &&& 1#w ≠ 0#w) = x.getLsbD 0 := by
    rw [Bool.eq_iff_iff, decide_eq_true_eq]; exact and_one_ne_zero x
  exact ⟨this, this⟩

/-- C54: a `bit_value` built from (or assigned) `(word, pos)` takes bit `pos`; a position outside the word is rejected. -/
theorem C54_of_word_pos (S : ShiftSem w) (b : BitVal) (x : BitVec w) (pos : Nat) :
    (pos < w → BitVal.ofWordPos S x pos = .ok ⟨x.getLsbD pos⟩ ∧ b.assignPos S x pos = .ok ⟨x.getLsbD pos⟩) ∧
    (w ≤ pos → BitVal.ofWordPos S x pos = .error .assertFail ∧ b.assignPos S x pos = .error .assertFail) := by
  constructor
  · intro h
    have e : decide ((x >>> pos) &&& 1#w ≠ 0#w) = x.getLsbD pos := by
      rw [Bool.eq_iff_iff, decide_eq_true_eq, and_one_ne_zero]; simp
    unfold BitVal.ofWordPos BitVal.assignPos
    rw [if_pos h, S.shr_ok h]
    refine ⟨?_, ?_⟩ <;>
    · show Except.ok (BitVal.mk (decide ((x >>> pos) &&& 1#w ≠ 0#w))) = _
      rw [e]
  · intro h
    unfold BitVal.ofWordPos BitVal.assignPos
    rw [if_neg (by omega)]
    exact ⟨rfl, rfl⟩

/-- C54: a `bit_value` converted from a reference has the value of the designated bit. -/
theorem C54_of_ref (m : Mem w) (r : BitRef w) (a : Int) (b : Bool) (hr : r.At a) (hb : bitAt m a = some b) :
    r.toVal m = .ok (⟨b⟩, m) := by
  unfold BitRef.toVal
  show (r.toBool m >>= fun p => _) = _
  rw [C03_read m r a b hr hb]; rfl

example : BitVal.ofWordPos S16 0x8000#16 15 = .ok ⟨true⟩ ∧ (BitVal.ofWord 0xfffe#16).toBool = false := by decide +kernel

end BitLib
