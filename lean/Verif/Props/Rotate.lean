import Verif.Lemmas.RotateExact
import Verif.Props.Run
/-
C19, C20, C21: rotate. `S` ranges over all shift semantics, so every `ok` also shows that no oversized shift is performed.
-/
namespace BitLib
variable {w : Nat}

/-- C19 for ranges whose parts satisfy `RotFits`, in particular (`RotFits.of_len`) all ranges shorter than `(2^32+1)*(w+1)` bits (missing:
the others, for all of which the claim is false, see `C19_refuted` and `C19_exact`): the range becomes `[n_first, last)` followed by
`[first, n_first)`, nothing else changes, and `first + (last - n_first)` is returned. -/
theorem C19_rotate_partial (S : ShiftSem w) (m : Mem w) (first nFirst last : BitIter w) (hr : Range m first last)
    (hn : nFirst.Valid) (h1 : first.addr ≤ nFirst.addr) (h2 : nFirst.addr < last.addr)
    (hlim : RotFits w (len first nFirst) (len nFirst last)) :
    ∃ r m', rotate S first nFirst last m = .ok (r, m') ∧ r.Valid ∧ r.addr = first.addr + (last.addr - nFirst.addr) ∧
      Rotated m m' first.addr nFirst.addr last.addr :=
  wp_rotate S hr.1 hn hr.2 h1 h2 hlim hr.4
    (Q := fun r m' => r.Valid ∧ r.addr = first.addr + (last.addr - nFirst.addr) ∧ Rotated m m' first.addr nFirst.addr last.addr)
    (fun _ _ h1 h2 h3 => ⟨h1, h2, h3⟩)

example : Range (memOf [0xa5#8, 0x3c#8, 0x99#8, 0x0f#8]) ⟨0, 6⟩ ⟨3, 3⟩ ∧ (⟨1, 7⟩ : BitIter 8).Valid ∧
    (⟨0, 6⟩ : BitIter 8).addr ≤ (⟨1, 7⟩ : BitIter 8).addr ∧ (⟨1, 7⟩ : BitIter 8).addr < (⟨3, 3⟩ : BitIter 8).addr ∧
    RotFits 8 (len (⟨0, 6⟩ : BitIter 8) ⟨1, 7⟩) (len (⟨1, 7⟩ : BitIter 8) ⟨3, 3⟩) :=
  ⟨range_memOf (by decide) (by decide) (by decide) (by decide) (by decide), by decide, by decide, by decide, RotFits.of_len (by decide)⟩

/-- The limit concerns the ratio of the parts, not the length: a left part of a million bits and a right part of a trillion bits. -/
example : RotFits 64 1000000 1000000000000 := RotFits.of_parts (by decide) (fun _ => by decide)

/-- 21 bits `1 0 0 0 1 1 1 1 0 | 0 1 0 0 1 1 0 0 1 1 1 1` rotated by 9 (general block swap path: both parts exceed a word). -/
example : runOn (rotate S8 ⟨0, 6⟩ ⟨1, 7⟩ ⟨3, 3⟩) [0x65#8, 0x3c#8, 0x99#8, 0x0f#8]
    = .ok (⟨2, 2⟩, [0xa5#8, 0xcc#8, 0xc7#8, 0x0b#8]) := by decide +kernel

/-- The memory with word 0 equal to 1 and all other words 0 (used by the counterexamples). -/
def oneBit (w : Nat) : Mem w := fun a => some (if a = 0 then 1#w else 0#w)

theorem bitAt_oneBit (hw : 0 < w) (i : Int) : bitAt (oneBit w) i = some (decide (i = 0)) := by
  have h1 := Int.emod_add_mul_ediv i (w : Int)
  have h2 : 0 ≤ i % (w : Int) := Int.emod_nonneg _ (by omega)
  have h3 : i % (w : Int) < w := Int.emod_lt_of_pos _ (by omega)
  unfold bitAt oneBit
  simp only [Option.map_some]
  congr 1
  by_cases h : i / (w : Int) = 0
  · rw [if_pos h]
    rw [h] at h1
    have : i % (w : Int) = i := by omega
    rw [this]
    rw [show (BitVec.getLsbD 1#w i.toNat) = decide (i.toNat = 0) by
      rw [BitVec.getLsbD_one]
      by_cases hi : i.toNat = 0
      · simp [hi, hw]
      · simp [hi]]
    congr 1
    exact propext ⟨by omega, by omega⟩
  · rw [if_neg h]
    have : i ≠ 0 := by rintro rfl; simp at h
    simp [this]

/-- C19 is false for every word width: with `n_first = last - (w+1)` and `(2^32+1)*(w+1)` bits the counter `unsigned int full_swaps`
wraps to 0 and the result is wrong (w = 8: ranges of 4.5 GiB). -/
theorem C19_refuted (w : Nat) (hw : 0 < w) (S : ShiftSem w) :
    ¬ ∀ (m : Mem w) (first nFirst last : BitIter w), Range m first last → nFirst.Valid → first.addr ≤ nFirst.addr →
      nFirst.addr < last.addr →
      ∃ r m', rotate S first nFirst last m = .ok (r, m') ∧ Rotated m m' first.addr nFirst.addr last.addr := by
  intro h
  have hmap : ∀ a b, Mapped (oneBit w) a b := by intro a b i _ _; rw [bitAt_oneBit hw]; rfl
  have hat : ∀ n : Int, ∃ it : BitIter w, it.Valid ∧ it.addr = n := fun n =>
    ⟨(⟨0, 0⟩ : BitIter w).add n, BitIter.add_valid hw _ _, by rw [BitIter.add_addr hw]; simp [BitIter.addr]⟩
  obtain ⟨first, hfv, hfa⟩ := hat 0
  obtain ⟨last, hlv, hla⟩ := hat (rotLimit w)
  obtain ⟨nf, hnv, hna⟩ := hat (rotLimit w - (w + 1))
  have hlim : rotLimit w = (2 ^ 32 + 1) * ((w : Int) + 1) := rfl
  obtain ⟨r, m', hr, hrot⟩ := h (oneBit w) first nf last
    ⟨hfv, hlv, by omega, hmap _ _⟩ hnv (by omega) (by omega)
  obtain ⟨r2, m2, hr2, hrot2⟩ := wp_rotate_wrap S (m := oneBit w) (first := first) (nFirst := nf) (last := last) hfv
    hnv hlv (by omega) (by omega) (hmap _ _)
    (Q := fun _ m' => Rotated (oneBit w) m' first.addr (first.addr + (w + 1)) last.addr) (fun _ _ h => h)
  rw [hr] at hr2
  cases hr2
  have e1 := hrot (w + 1)
  have e2 := hrot2 (w + 1)
  rw [if_neg (by omega), if_pos (by omega), bitAt_oneBit hw, decide_eq_true (by omega)] at e1
  rw [if_pos (by omega), bitAt_oneBit hw, decide_eq_false (by omega)] at e2
  rw [e1] at e2
  cases e2

/-- C20 is false (wrong return value): 8-bit words, one whole word. `last` is returned instead of `first`. -/
theorem C20_refuted_return :
    ∀ x : BitVec 8, ∃ m', rotate S8 ⟨0, 0⟩ ⟨1, 0⟩ ⟨1, 0⟩ (memOf [x]) = .ok (⟨1, 0⟩, m') := by
  intro x
  exact ⟨_, rfl⟩

/-- C20 is false (oversized shift): 32- and 64-bit words, one whole word, and the upper half of an 8-bit word. -/
theorem C20_refuted_overshift :
    (∀ x, rotate S32 ⟨0, 0⟩ ⟨1, 0⟩ ⟨1, 0⟩ (memOf [x]) = .error .overshift) ∧
    (∀ x, rotate S64 ⟨0, 0⟩ ⟨1, 0⟩ ⟨1, 0⟩ (memOf [x]) = .error .overshift) ∧
    outcome (rotate S8 ⟨0, 4⟩ ⟨1, 0⟩ ⟨1, 0⟩) (memOf [0xa5#8]) = some .overshift :=
  ⟨fun _ => rfl, fun _ => rfl, by decide +kernel⟩

/-- C20 is false (out of bounds): a range of two whole words ending at the end of the allocation; the word after it is read. -/
theorem C20_refuted_bounds : ∀ x y, rotate S8 ⟨0, 0⟩ ⟨2, 0⟩ ⟨2, 0⟩ (memOf [x, y]) = .error .outOfBounds := fun _ _ => rfl

/-- C20 as stated is therefore false. -/
theorem C20_refuted :
    ¬ ∀ (m : Mem 8) (first last : BitIter 8), Range m first last → rotate S8 first last last m = .ok (first, m) := by
  intro h
  have := h (memOf [0#8]) ⟨0, 0⟩ ⟨1, 0⟩ (range_memOf (by decide) (by decide) (by decide) (by decide) (by decide))
  obtain ⟨m', h'⟩ := C20_refuted_return 0#8
  rw [h'] at this
  cases this

/-- C20, what remains true (missing: `last` at a word boundary, unless the range is empty, or is longer than a word and the word after it
is accessible): nothing changes and `first` is returned. -/
theorem C20_rotate_end_partial (S : ShiftSem w) (m : Mem w) (first last : BitIter w) (hr : Range m first last)
    (hok : first.addr = last.addr ∨ last.pos ≠ 0 ∨ (w < len first last ∧ (bitAt m last.addr).isSome)) :
    rotate S first last last m = .ok (first, m) := by
  obtain ⟨r, m', h, rfl, rfl⟩ := wp_rotate_end S hr.1 hr.2 hr.3 hok hr.4 (Q := fun r m' => r = first ∧ m' = m) ⟨rfl, rfl⟩
  exact h

/-- C20: in the working cases with `last` inside a word, only words of the range are accessed. -/
theorem C20_rotate_end_footprint_partial (S : ShiftSem w) (m : Mem w) (first last : BitIter w) (hr : Range m first last)
    (hok : last.pos ≠ 0) : ∃ r m', rotate S first last last (m.only (HoldsBit w first.addr last.addr)) = .ok (r, m') :=
  ⟨_, _, C20_rotate_end_partial S _ first last (hr.only (fun _ h => h)) (Or.inr (Or.inl hok))⟩

example : Range (memOf [0xa5#8, 0x3c#8, 0x99#8]) ⟨0, 6⟩ ⟨2, 3⟩ ∧ (⟨2, 3⟩ : BitIter 8).pos ≠ 0 :=
  ⟨range_memOf (by decide) (by decide) (by decide) (by decide) (by decide), by decide⟩

/-- C20, every case in which `last` is at a word boundary and the range is not empty (`pw` is the width of the promoted word type):
a whole word that is narrower than `int` is kept but `last` is returned; a whole word that is not, and a part of a word, shift by too much;
longer ranges read the word after the range. -/
theorem C20_outcomes (pw : Nat) (h : w ≤ pw) (hpw : pw + w ≤ 2 ^ 64) (m : Mem w) (first last : BitIter w) (hr : Range m first last)
    (hne : first.addr < last.addr) (hp : last.pos = 0) :
    (len first last = w → w < pw → rotate (.strict pw h) first last last m = .ok (last, m)) ∧
    (len first last = w → w = pw → rotate (.strict pw h) first last last m = .error .overshift) ∧
    (len first last < w → rotate (.strict pw h) first last last m = .error .overshift) ∧
    (w < len first last → bitAt m last.addr = none → rotate (.strict pw h) first last last m = .error .outOfBounds) := by
  have hf' : first.pos < w := hr.1
  have hl' : last.pos < w := hr.2
  have hw : 0 < w := by omega
  have hfa : first.addr = first.base * w + first.pos := rfl
  have hla : last.addr = last.base * w + last.pos := rfl
  have hbb := base_le_of_addr hr.2 (by omega : first.addr ≤ last.addr)
  have hbeq : ¬ first.beq last := by rw [BitIter.beq_iff hr.1 hr.2]; omega
  have hs : (bitAt m first.addr).isSome := hr.4 _ (by omega) hne
  have hgo : ∀ e : Except UB (BitIter w × Mem w),
      (if first.base + 1 = last.base then rotateSingle (.strict pw h) first last last
      else if isWithin w first last then do
        let k ← distance first last
        let x ← getWord (.strict pw h) first k.toNat
        let newLast ← shiftLeft (.strict pw h) first last k
        writeWord (.strict pw h) x newLast k.toNat
        pure newLast
      else if isWithin w last last then do
        let p ← distance last last
        let x ← getWord (.strict pw h) last p.toNat
        let newLast ← shiftRight (.strict pw h) first last p
        writeWord (.strict pw h) x first p.toNat
        pure newLast
      else rotateViaRaw (.strict pw h) first last last) m = e → rotate (.strict pw h) first last last m = e := by
    intro e he
    rw [← he]
    have h1 : (assertViable first last : M w Unit) m = .ok ((), m) := by
      obtain ⟨_, _, e1, rfl⟩ := (wp_assertViable (m := m) (Q := fun _ m' => m' = m)).2 ⟨hr.3, rfl⟩
      exact e1
    have h2 : (assertViable last last : M w Unit) m = .ok ((), m) := by
      obtain ⟨_, _, e1, rfl⟩ := (wp_assertViable (m := m) (Q := fun _ m' => m' = m)).2 ⟨Int.le_refl last.addr, rfl⟩
      exact e1
    unfold rotate
    rw [if_neg hbeq, if_pos hp]
    show (assertViable first last m >>= fun p => (assertViable last last p.2 >>= fun p => (assertViable first last p.2 >>= _))) = _
    rw [h1]
    show (assertViable last last m >>= fun p => (assertViable first last p.2 >>= _)) = _
    rw [h2]
    show (assertViable first last m >>= _) = _
    rw [h1]
    rfl
  have hsame : len first last ≤ w → first.base + 1 = last.base := by
    intro hle
    unfold len at hle
    by_contra hc
    have h1 : first.base + 2 ≤ last.base ∨ last.base = first.base := by omega
    rcases h1 with h1 | h1
    · have := Int.mul_le_mul_of_nonneg_right h1 (show (0 : Int) ≤ w by omega)
      rw [Int.add_mul] at this
      omega
    · rw [h1] at hla; omega
  have hpos0 : first.base + 1 = last.base → len first last = (w : Int) - first.pos := by
    intro hb
    rw [← hb, Int.add_mul] at hla
    unfold len; omega
  refine ⟨fun hlen hlt => ?_, fun hlen heq => ?_, fun hlen => ?_, fun hlen hnone => ?_⟩
  · have hb := hsame (by omega)
    have hz : first.pos = 0 := by have := hpos0 hb; omega
    obtain ⟨r, m', e, rfl, rfl⟩ : wp (rotateSingle (.strict pw h) first last last) m fun r m' => r = last ∧ m' = m := by
      unfold rotateSingle
      rw [if_pos ⟨hz, hp⟩, wp_bind]
      refine wp_load_bits hw first.addr (by omega) (by omega) hs ?_
      intro x hx
      rw [hp, wp_bind, show (ShiftSem.strict pw h).shr x 0 = .ok (x >>> 0) from if_pos (show 0 < pw by omega), wp_lift_ok, wp_bind,
        show (ShiftSem.strict pw h).shl x (w - 0) = .ok (x <<< (w - 0)) from if_pos (show w - 0 < pw by omega), wp_lift_ok, wp_bind]
      refine wp_store_bits hw first.addr (by omega) (by omega) hs ?_
      intro m' hm'
      rw [wp_pure]
      refine ⟨BitIter.addr_inj (BitIter.add_valid hw _ _) hr.2 (by rw [BitIter.add_addr hw]; unfold len at hlen; omega), ?_⟩
      apply mem_ext_bitAt hw
      intro i
      rw [hm' i]
      beta_reduce
      split_ifs with hi
      · obtain ⟨j, hj⟩ : ∃ j : Nat, i = first.base * w + j := ⟨(i - first.base * w).toNat, by omega⟩
        subst hj
        rw [show (first.base * (w : Int) + j - first.base * w).toNat = j by omega, hx j (by omega), BitVec.getLsbD_or,
          BitVec.shiftLeft_eq_zero (by omega)]
        simp
      · rfl
    apply hgo
    rw [if_pos hb, e]
  · have hb := hsame (by omega)
    have hz : first.pos = 0 := by have := hpos0 hb; omega
    apply hgo
    rw [if_pos hb]
    unfold rotateSingle
    rw [if_pos ⟨hz, hp⟩]
    refine fails_bind (e := .overshift) (wp_load_bits hw first.addr (by omega) (by omega) hs ?_)
    intro x _
    rw [hp, show (ShiftSem.strict pw h).shr x 0 = .ok (x >>> 0) from if_pos (show 0 < pw by omega)]
    refine fails_bind (wp_lift_ok.2 (fails_bind_left ?_))
    rw [show (ShiftSem.strict pw h).shl x (w - 0) = .error .overshift from if_neg (show ¬ w - 0 < pw by omega)]
    rfl
  · have hb := hsame (by omega)
    have hz : 0 < first.pos := by have := hpos0 hb; omega
    apply hgo
    rw [if_pos hb]
    unfold rotateSingle
    rw [if_neg (by omega), if_pos hp, hp]
    dsimp only
    have hk : pw ≤ subSize 0 first.pos := by unfold subSize toSize; rw [if_neg (by omega)]; omega
    rw [subSize_le (show first.pos ≤ w by omega)]
    refine fails_bind (e := .overshift) ?_
    rw [wp_shl (.strict pw h) (by omega)]
    refine fails_bind ?_
    rw [wp_shl (.strict pw h) hf']
    refine fails_bind (wp_load_bits hw first.addr (by omega) (by omega) hs ?_)
    intro x _
    refine fails_bind_left ?_
    rw [show ∀ y : BitVec w, (ShiftSem.strict pw h).shr y (subSize 0 first.pos) = .error .overshift from
      fun y => if_neg (show ¬ subSize 0 first.pos < pw by omega)]
    rfl
  · unfold len at hlen
    apply hgo
    rw [if_neg (by intro hb; have := hpos0 hb; unfold len at this; omega),
      if_neg (by rw [isWithin_iff w first last hr.1 hr.2 hr.3]; omega),
      if_pos ((isWithin_iff w last last hr.2 hr.2 (by omega)).2 (by omega))]
    refine fails_bind (e := .outOfBounds) ?_
    rw [wp_distance]
    refine ⟨by omega, ?_⟩
    rw [Int.sub_self]
    refine fails_bind_left ?_
    unfold getWord
    refine fails_bind ?_
    rw [wp_assert]
    refine ⟨by simp, fails_bind_left (fails_load ?_)⟩
    have h0 := bitAt_word m last.base 0 hw
    rw [show last.base * (w : Int) + ((0 : Nat) : Int) = last.addr by omega, hnone] at h0
    cases hc : m last.base with
    | none => rfl
    | some v => rw [hc] at h0; cases h0

example : 8 + 32 ≤ 2 ^ 64 ∧ Range (memOf [0xa5#8, 0x3c#8]) ⟨0, 4⟩ ⟨2, 0⟩ ∧ (⟨0, 4⟩ : BitIter 8).addr < (⟨2, 0⟩ : BitIter 8).addr ∧
    (8 : Int) < len (⟨0, 4⟩ : BitIter 8) ⟨2, 0⟩ ∧ bitAt (memOf [0xa5#8, 0x3c#8]) (⟨2, 0⟩ : BitIter 8).addr = none :=
  ⟨by decide, range_memOf (by decide) (by decide) (by decide) (by decide) (by decide), by decide, by decide, by decide⟩

/-- C20 exactly: nothing changes and `first` is returned if and only if the range is empty, or `last` is inside a word, or the range is longer
than a word and the word after it is accessible. -/
theorem C20_exact (pw : Nat) (h : w ≤ pw) (hpw : pw + w ≤ 2 ^ 64) (m : Mem w) (first last : BitIter w) (hr : Range m first last) :
    rotate (.strict pw h) first last last m = .ok (first, m) ↔
      first.addr = last.addr ∨ last.pos ≠ 0 ∨ (w < len first last ∧ (bitAt m last.addr).isSome) := by
  constructor
  · intro he
    by_contra hc
    have hne : first.addr < last.addr := by have := hr.3; omega
    have hp : last.pos = 0 := by omega
    obtain ⟨h1, h2, h3, h4⟩ := C20_outcomes pw h hpw m first last hr hne hp
    rcases Int.lt_trichotomy (len first last) w with hl | hl | hl
    · rw [h3 hl] at he; cases he
    · rcases Nat.lt_or_eq_of_le h with hlt | heq
      · rw [h1 hl hlt] at he
        cases he
        omega
      · rw [h2 hl heq] at he; cases he
    · have : bitAt m last.addr = none := by
        cases hb : bitAt m last.addr with
        | none => rfl
        | some v => exact absurd (Or.inr (Or.inr ⟨hl, by rw [hb]; rfl⟩)) hc
      rw [h4 hl this] at he; cases he
  · exact C20_rotate_end_partial _ m first last hr

example : 8 + 32 ≤ 2 ^ 64 ∧ Range (memOf [0xa5#8, 0x3c#8, 0x99#8]) ⟨0, 6⟩ ⟨2, 0⟩ :=
  ⟨by decide, range_memOf (by decide) (by decide) (by decide) (by decide) (by decide)⟩

/-- C21: `rotate` terminates without undefined behaviour for every range, however long, and never changes a bit outside the range. -/
theorem C21_rotate_terminates (S : ShiftSem w) (m : Mem w) (first nFirst last : BitIter w) (hr : Range m first last)
    (hn : nFirst.Valid) (h1 : first.addr ≤ nFirst.addr) (h2 : nFirst.addr < last.addr) :
    ∃ r m', rotate S first nFirst last m = .ok (r, m') ∧ r.Valid ∧ r.addr = first.addr + (last.addr - nFirst.addr) ∧
      (∀ i, (i < first.addr ∨ last.addr ≤ i) → bitAt m' i = bitAt m i) ∧ SameMapped m m' :=
  wp_rotate_frame S hr.1 hn hr.2 h1 h2 hr.4
    (Q := fun r m' => r.Valid ∧ r.addr = first.addr + (last.addr - nFirst.addr) ∧
      (∀ i, (i < first.addr ∨ last.addr ≤ i) → bitAt m' i = bitAt m i) ∧ SameMapped m m')
    (fun _ _ h1 h2 h3 => ⟨h1, h2, h3.1, h3.2⟩)

/-- C19/C21: only words of the range are accessed, for every length. -/
theorem C21_rotate_footprint (S : ShiftSem w) (m : Mem w) (first nFirst last : BitIter w) (hr : Range m first last)
    (hn : nFirst.Valid) (h1 : first.addr ≤ nFirst.addr) (h2 : nFirst.addr < last.addr) :
    ∃ r m', rotate S first nFirst last (m.only (HoldsBit w first.addr last.addr)) = .ok (r, m') := by
  obtain ⟨r, m', h, _⟩ := C21_rotate_terminates S _ first nFirst last (hr.only (fun _ h => h)) hn h1 h2
  exact ⟨r, m', h⟩

/-- C21 for ranges whose parts satisfy `RotFits` both ways round, in particular all ranges shorter than `(2^32+1)*(w+1)` bits (missing: the
others, see `C21_refuted` and `C21_exact`): rotating by `k` and then at the returned iterator (that is, by `length - k`) restores the memory. -/
theorem C21_rotate_restores_partial (S : ShiftSem w) (m : Mem w) (first nFirst last : BitIter w) (hr : Range m first last)
    (hn : nFirst.Valid) (h1 : first.addr < nFirst.addr) (h2 : nFirst.addr < last.addr)
    (hlim : RotFits w (len first nFirst) (len nFirst last)) (hlim2 : RotFits w (len nFirst last) (len first nFirst)) :
    ∃ r m', rotate S first nFirst last m = .ok (r, m') ∧ r.addr - first.addr = len first last - (nFirst.addr - first.addr) ∧
      rotate S first r last m' = .ok (nFirst, m) := by
  have hw : 0 < w := Nat.lt_of_le_of_lt (Nat.zero_le _) hr.1
  obtain ⟨r, m', h, hv, ha, hrot⟩ := C19_rotate_partial S m first nFirst last hr hn (by omega) h2 hlim
  have hr' : Range m' first last := ⟨hr.1, hr.2, hr.3, (hrot.sameMapped (by omega) (by omega) hr.4).mapped hr.4⟩
  obtain ⟨r2, m2, h', hv', ha', hrot'⟩ := C19_rotate_partial S m' first r last hr' hv (by omega) (by omega)
    (by rw [show len first r = len nFirst last by unfold len; omega, show len r last = len first nFirst by unfold len; omega]; exact hlim2)
  refine ⟨r, m', h, by unfold len; omega, ?_⟩
  rw [h', BitIter.addr_inj hv' hn (by omega)]
  congr 2
  apply mem_ext_bitAt hw
  intro i
  rw [hrot' i]
  split_ifs with c1 c2
  · rw [hrot, if_neg (by omega), if_pos (by omega)]; congr 1; omega
  · rw [hrot, if_pos (by omega)]; congr 1; omega
  · rw [hrot, if_neg (by omega), if_neg (by omega)]

example : Range (memOf [0xa5#8, 0x3c#8, 0x99#8, 0x0f#8]) ⟨0, 6⟩ ⟨3, 3⟩ ∧ (⟨1, 7⟩ : BitIter 8).Valid ∧
    (⟨0, 6⟩ : BitIter 8).addr < (⟨1, 7⟩ : BitIter 8).addr ∧ (⟨1, 7⟩ : BitIter 8).addr < (⟨3, 3⟩ : BitIter 8).addr ∧
    RotFits 8 (len (⟨0, 6⟩ : BitIter 8) ⟨1, 7⟩) (len (⟨1, 7⟩ : BitIter 8) ⟨3, 3⟩) ∧
    RotFits 8 (len (⟨1, 7⟩ : BitIter 8) ⟨3, 3⟩) (len (⟨0, 6⟩ : BitIter 8) ⟨1, 7⟩) :=
  ⟨range_memOf (by decide) (by decide) (by decide) (by decide) (by decide), by decide, by decide, by decide,
    RotFits.of_len (by decide), RotFits.of_len (by decide)⟩

/-- C21 (second part) is false for every word width: at `(2^32+1)*(w+1)` bits, rotating by `length - (w+1)` and then by `w+1` does not
restore the contents. -/
theorem C21_refuted (w : Nat) (hw : 0 < w) (S : ShiftSem w) :
    ¬ ∀ (m : Mem w) (first nFirst last back : BitIter w), Range m first last → nFirst.Valid → back.Valid →
      first.addr < nFirst.addr → nFirst.addr < last.addr →
      back.addr - first.addr = len first last - (nFirst.addr - first.addr) →
      ∃ r r' m', rotate S first nFirst last m = .ok (r, m') ∧ rotate S first back last m' = .ok (r', m) := by
  intro h
  have hmap : ∀ a b, Mapped (oneBit w) a b := by intro a b i _ _; rw [bitAt_oneBit hw]; rfl
  have hat : ∀ n : Int, ∃ it : BitIter w, it.Valid ∧ it.addr = n := fun n =>
    ⟨(⟨0, 0⟩ : BitIter w).add n, BitIter.add_valid hw _ _, by rw [BitIter.add_addr hw]; simp [BitIter.addr]⟩
  obtain ⟨first, hfv, hfa⟩ := hat 0
  obtain ⟨last, hlv, hla⟩ := hat (rotLimit w)
  obtain ⟨nf, hnv, hna⟩ := hat (rotLimit w - (w + 1))
  obtain ⟨bk, hbv, hba⟩ := hat (w + 1)
  have hlim : rotLimit w = (2 ^ 32 + 1) * ((w : Int) + 1) := rfl
  obtain ⟨r, r', m', hr, hr'⟩ := h (oneBit w) first nf last bk
    ⟨hfv, hlv, by omega, hmap _ _⟩ hnv hbv (by omega) (by omega)
    (by unfold len; omega)
  obtain ⟨r2, m2, hr2, hrot2⟩ := wp_rotate_wrap S (m := oneBit w) (first := first) (nFirst := nf) (last := last) hfv
    hnv hlv (by omega) (by omega) (hmap _ _)
    (Q := fun _ m' => Rotated (oneBit w) m' first.addr (first.addr + (w + 1)) last.addr) (fun _ _ h => h)
  rw [hr] at hr2
  cases hr2
  have hmap2 : Mapped m' first.addr last.addr := (hrot2.sameMapped (by omega) (by omega) (hmap _ _)).mapped (hmap _ _)
  obtain ⟨r3, m3, hr3, hrot3⟩ := wp_rotate_wrap_fwd S (m := m') (first := first) (nFirst := bk) (last := last) hfv
    hbv hlv (by omega) (by omega) hmap2
    (Q := fun _ m3 => Rotated m' m3 first.addr bk.addr last.addr) (fun _ _ h => h)
  rw [hr'] at hr3
  cases hr3
  have e1 := hrot3 0
  rw [if_pos (by omega), hrot2, if_pos (by omega), bitAt_oneBit hw, bitAt_oneBit hw, decide_eq_true (by omega)] at e1
  rw [decide_eq_false (by omega)] at e1
  cases e1

/-- C19, the failure in general: when the right part has more than `w` bits and the left part at least `2^32` times as many, the bit that
arrives where the first bit of the range belongs is the one `2 * (last - n_first)` bits after it. -/
theorem C19_rotate_overflow (S : ShiftSem w) (m : Mem w) (first nFirst last : BitIter w) (hr : Range m first last)
    (hn : nFirst.Valid) (h1 : (w : Int) < len nFirst last) (h2 : 2 ^ 32 * len nFirst last ≤ len first nFirst) :
    ∃ r m', rotate S first nFirst last m = .ok (r, m') ∧
      bitAt m' (first.addr + len nFirst last) = bitAt m (first.addr + 2 * len nFirst last) :=
  wp_rotate_overflow S hr.1 hn hr.2 h1 h2 hr.4
    (Q := fun _ m' => bitAt m' (first.addr + len nFirst last) = bitAt m (first.addr + 2 * len nFirst last)) (fun _ _ h => h)

/-- C19 exactly: `rotate` rotates every contents of the range if and only if no block count overflows 32 bits in any round (`RotFits`). -/
theorem C19_exact (S : ShiftSem w) (first nFirst last : BitIter w) (hf : first.Valid) (hn : nFirst.Valid) (hl : last.Valid)
    (h1 : first.addr ≤ nFirst.addr) (h2 : nFirst.addr < last.addr) :
    (∀ m : Mem w, Range m first last →
      ∃ r m', rotate S first nFirst last m = .ok (r, m') ∧ r.Valid ∧ r.addr = first.addr + (last.addr - nFirst.addr) ∧
        Rotated m m' first.addr nFirst.addr last.addr) ↔
    RotFits w (len first nFirst) (len nFirst last) := by
  have hw0 : 0 < w := Nat.lt_of_le_of_lt (Nat.zero_le _) hf
  constructor
  · intro h hc
    obtain ⟨g, hg⟩ := hc.witness S
    have hpt := hc.parts
    unfold len at hpt hg
    have hr : Range (bitsMem w fun i => g (i - first.addr)) first last := ⟨hf, hl, by omega, mapped_bitsMem hw0 _ _ _⟩
    obtain ⟨r, m', e, -, -, hrot⟩ := h _ hr
    obtain ⟨r2, m2, e2, hb⟩ := wp_rotate_loop S (m := bitsMem w fun i => g (i - first.addr)) hf hn hl hpt.1 hpt.2
      (by intro heq; unfold len at hc; rw [heq] at hc; cases hc <;> omega)
      (Q := fun _ m' => ¬ Rotated (bitsMem w fun i => g (i - first.addr)) m' first.addr nFirst.addr last.addr) (by
        intro fuel hfu
        refine wp_mono (hg fuel first _ hf (by omega) (fun i _ _ => by rw [bitAt_bitsMem hw0]; congr 2; omega)) ?_
        intro _ m' hn _ _ _ hrot
        exact hn (hrot.congr rfl (by omega) (by omega)))
    rw [e] at e2
    cases e2
    exact hb hrot
  · intro h m hr
    exact C19_rotate_partial S m first nFirst last hr hn h1 h2 h

example : (⟨0, 6⟩ : BitIter 8).Valid ∧ (⟨1, 7⟩ : BitIter 8).Valid ∧ (⟨3, 3⟩ : BitIter 8).Valid ∧
    (⟨0, 6⟩ : BitIter 8).addr ≤ (⟨1, 7⟩ : BitIter 8).addr ∧ (⟨1, 7⟩ : BitIter 8).addr < (⟨3, 3⟩ : BitIter 8).addr := by decide

/-- C19: which lengths fail need not be obvious: `w = 64`, a left part of 32.5 GiB and a right part that is just 65 bits longer. -/
theorem C19_fails_near_half (w : Nat) : RotFails w ((2 ^ 32 + 1) * ((w : Int) + 1)) ((2 ^ 32 + 2) * ((w : Int) + 1)) := by
  have e : (2 ^ 32 + 2) * ((w : Int) + 1) % ((2 ^ 32 + 1) * ((w : Int) + 1)) = (w : Int) + 1 :=
    emod_of_eq (c := 1) (by omega) (by omega) (by omega)
  refine .left (by omega) (by omega) ?_
  rw [e]
  exact .count (by omega) (by omega)

/-- C19: a sufficient condition that is easy to check: the shorter part has fewer than `(2^32+1)*(w+1)` bits, and the left part fewer than
`2^32` times the bits of the right part (unless that has at most `w` bits). The bound on the shorter part cannot be raised
(`C19_fails_near_half`), and the second condition cannot be dropped (`RotFails.count`). -/
theorem C19_fits (left right : Int) (h1 : min left right < (2 ^ 32 + 1) * ((w : Int) + 1))
    (h2 : (w : Int) < right → left < 2 ^ 32 * right) : RotFits w left right := RotFits.of_parts h1 h2

example : min (1000000 : Int) 1000000000000 < (2 ^ 32 + 1) * (((64 : Nat) : Int) + 1) ∧
    (((64 : Nat) : Int) < 1000000000000 → (1000000 : Int) < 2 ^ 32 * 1000000000000) := by decide

/-- C21 exactly: the two rotations restore every contents of the range if and only if no block count overflows in either of them (two wrong
rotations never cancel out). -/
theorem C21_exact (S : ShiftSem w) (first nFirst last : BitIter w) (hf : first.Valid) (hn : nFirst.Valid) (hl : last.Valid)
    (h1 : first.addr < nFirst.addr) (h2 : nFirst.addr < last.addr) :
    (∀ m : Mem w, Range m first last →
      ∃ r m', rotate S first nFirst last m = .ok (r, m') ∧ rotate S first r last m' = .ok (nFirst, m)) ↔
    RotFits w (len first nFirst) (len nFirst last) ∧ RotFits w (len nFirst last) (len first nFirst) := by
  have hw0 : 0 < w := Nat.lt_of_le_of_lt (Nat.zero_le _) hf
  constructor
  · intro h
    suffices hs : ¬ (RotFails w (len first nFirst) (len nFirst last) ∨ RotFails w (len nFirst last) (len first nFirst)) from
      ⟨fun hc => hs (Or.inl hc), fun hc => hs (Or.inr hc)⟩
    intro hc
    obtain ⟨g, hg⟩ := RotFails.restores S hc
    have hpt : (w : Int) < len first nFirst ∧ (w : Int) < len nFirst last := by
      rcases hc with hc | hc
      · exact hc.parts
      · exact hc.parts.symm
    have hne : len first nFirst ≠ len nFirst last := by
      intro heq
      rw [heq] at hc
      rcases hc with hc | hc <;> cases hc <;> omega
    unfold len at hpt hg hne
    have hr : Range (bitsMem w fun i => g (i - first.addr)) first last := ⟨hf, hl, by omega, mapped_bitsMem hw0 _ _ _⟩
    obtain ⟨r, m', e, e'⟩ := h _ hr
    obtain ⟨r2, m2, e2, hb⟩ := wp_rotate_loop S (m := bitsMem w fun i => g (i - first.addr)) hf hn hl hpt.1 hpt.2 hne
      (Q := fun r m' => r.Valid ∧ r.addr = first.addr + (last.addr - nFirst.addr) ∧
        wp (rotate S first r last) m' fun _ m'' => m'' ≠ bitsMem w fun i => g (i - first.addr)) (by
        intro fuel hfu
        have hh : Holds (bitsMem w fun i => g (i - first.addr)) first.addr (nFirst.addr - first.addr + (last.addr - nFirst.addr)) g :=
          fun i _ _ => by rw [bitAt_bitsMem hw0]; congr 2; omega
        obtain ⟨u, m1, e1, -⟩ := hg fuel fuel first _ hf (by omega) (by omega) hh
        refine ⟨u, m1, e1, fun r hv ha => ⟨hv, ha, ?_⟩⟩
        refine wp_rotate_loop S hf hv hl (by omega) (by omega) (by omega) ?_
        intro fuel2 hfu2
        obtain ⟨u2, m2, e2, h2⟩ := hg fuel fuel2 first _ hf (by omega) (by omega) hh
        rw [e1] at e2
        cases e2
        rw [show r.addr - first.addr = last.addr - nFirst.addr by omega, show last.addr - r.addr = nFirst.addr - first.addr by omega]
        exact wp_mono h2 fun _ m'' hn _ _ _ => hn)
    rw [e] at e2
    cases e2
    obtain ⟨-, -, r3, m3, e3, hn3⟩ := hb
    rw [e'] at e3
    cases e3
    exact hn3 rfl
  · rintro ⟨ha, hb⟩ m hr
    obtain ⟨r, m', e, -, e'⟩ := C21_rotate_restores_partial S m first nFirst last hr hn h1 h2 ha hb
    exact ⟨r, m', e, e'⟩

example : (⟨0, 6⟩ : BitIter 8).Valid ∧ (⟨1, 7⟩ : BitIter 8).Valid ∧ (⟨3, 3⟩ : BitIter 8).Valid ∧
    (⟨0, 6⟩ : BitIter 8).addr < (⟨1, 7⟩ : BitIter 8).addr ∧ (⟨1, 7⟩ : BitIter 8).addr < (⟨3, 3⟩ : BitIter 8).addr := by decide

end BitLib
