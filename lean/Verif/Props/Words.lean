import Verif.Lemmas.Instr2
import Verif.Lemmas.Bitswap
import Verif.Lemmas.Swap
import Verif.Lemmas.Query
import Verif.Lemmas.Overshift
import Verif.Props.Run
/-
C39 counts, C40 extraction and blending, C41 exchange, C42 deposit and extract, C43 bit reversal, C44 byte reversal,
C45 double shifts, C46 carries, C47 multiplication, C49 get_word and write_word.
-/
namespace BitLib
variable {w : Nat}

/-! ### C39 -/

/-- C39: the portable population count returns the number of set bits; the loop ends within its fuel. -/
theorem C39_popcnt (x : BitVec w) : ∃ r, popcntPort x = .ok r ∧ r.toNat = onesBelow x w :=
  ⟨_, popcntPort_spec x, toNat_ofNat_le (onesBelow_le x w)⟩

/-- C39: the overload with compiler builtins returns the same. -/
theorem C39_popcnt_builtin (x : BitVec w) : ∃ r, popcntBuiltin x = .ok r ∧ r.toNat = onesBelow x w :=
  ⟨_, popcntBuiltin_spec x, toNat_ofNat_le (onesBelow_le x w)⟩

/-- C39: the portable leading zero count. -/
theorem C39_lzcnt (x : BitVec w) : ∃ r, lzcntPort x = .ok r ∧ LeadingZeros x r.toNat := by
  by_cases hx : x = 0#w
  · subst hx
    refine ⟨_, lzcntPort_zero, ?_⟩
    rw [toNat_ofNat_le (Nat.le_refl w)]
    exact ⟨Nat.le_refl w, fun i _ => by simp, fun h => absurd h (Nat.lt_irrefl w)⟩
  · obtain ⟨p, hp, hb, hz⟩ := exists_top x hx
    refine ⟨_, lzcntPort_top hp hb hz, ?_⟩
    rw [toNat_ofNat_le (by omega)]
    refine ⟨by omega, fun i hi => hz i (by omega), fun _ => ?_⟩
    rw [show w - 1 - (w - 1 - p) = p by omega]; exact hb

/-- C39: the overload with compiler builtins returns the same, and never calls a builtin with argument 0. -/
theorem C39_lzcnt_builtin (x : BitVec w) : ∃ r, lzcntBuiltin x = .ok r ∧ LeadingZeros x r.toNat := by
  rw [lzcntBuiltin_eq]; exact C39_lzcnt x

/-- C39: the portable trailing zero count. -/
theorem C39_tzcnt (x : BitVec w) : ∃ r, tzcntPort x = .ok r ∧ TrailingZeros x r.toNat := by
  by_cases hx : x = 0#w
  · subst hx
    refine ⟨_, tzcntPort_zero, ?_⟩
    rw [toNat_ofNat_le (Nat.le_refl w)]
    exact ⟨Nat.le_refl w, fun i _ => by simp, fun h => absurd h (Nat.lt_irrefl w)⟩
  · obtain ⟨p, hp, hb, hz⟩ := exists_bot x hx
    refine ⟨_, tzcntPort_bot hp hb hz, ?_⟩
    rw [toNat_ofNat_le (by omega)]
    exact ⟨by omega, hz, fun _ => hb⟩

/-- C39: the overload with compiler builtins returns the same, and never calls a builtin with argument 0. -/
theorem C39_tzcnt_builtin (x : BitVec w) : ∃ r, tzcntBuiltin x = .ok r ∧ TrailingZeros x r.toNat := by
  rw [tzcntBuiltin_eq]; exact C39_tzcnt x

/-- The specified counts are unique, so the theorems determine the results. -/
theorem C39_unique (x : BitVec w) (k l : Nat) :
    (LeadingZeros x k → LeadingZeros x l → k = l) ∧ (TrailingZeros x k → TrailingZeros x l → k = l) := by
  constructor
  · rintro ⟨a1, a2, a3⟩ ⟨b1, b2, b3⟩
    rcases Nat.lt_trichotomy k l with h | h | h
    · have := a3 (by omega); rw [b2 _ (by omega)] at this; exact absurd this (by simp)
    · exact h
    · have := b3 (by omega); rw [a2 _ (by omega)] at this; exact absurd this (by simp)
  · rintro ⟨a1, a2, a3⟩ ⟨b1, b2, b3⟩
    rcases Nat.lt_trichotomy k l with h | h | h
    · have := a3 (by omega); rw [b2 _ (by omega)] at this; exact absurd this (by simp)
    · exact h
    · have := b3 (by omega); rw [a2 _ (by omega)] at this; exact absurd this (by simp)

example : popcntPort 0xb4#8 = .ok 4#8 ∧ lzcntPort 0x14#8 = .ok 3#8 ∧ tzcntPort 0x14#8 = .ok 2#8 ∧
    lzcntBuiltin 0x14#16 = .ok 11#16 ∧ tzcntBuiltin 0#32 = .ok 32#32 := by decide +kernel

/-! ### C40 -/

/-- C40: `_bextr` right-aligns the field. `hl`: with `len = digits` the code evaluates `1 << digits`. -/
theorem C40_bextr_partial (S : ShiftSem w) (x : BitVec w) (start len : Nat) (hs : start < w)
    (hl : len < w ∨ S.FullShiftOk) (hsl : start + len ≤ w) :
    ∃ r, bextr S x start len = .ok r ∧
      ∀ i, i < w → r.getLsbD i = if i < len then x.getLsbD (start + i) else false := by
  have hl' : len < S.pw ∨ S.Lenient := by
    rcases hl with h | h | h
    · exact lt_pw S h
    · exact Or.inl (by omega)
    · exact Or.inr h
  obtain ⟨r, hr, hb⟩ := wp_lift.1 (wp_bextr S (x := x) (m := fun _ => none) hs hl' (Q := fun y _ => ∀ i, i < w →
    y.getLsbD i = (decide (i < len) && x.getLsbD (start + i))) (fun y h => h))
  refine ⟨r, hr, fun i hi => ?_⟩
  rw [hb i hi]
  by_cases h : i < len <;> simp [h]

/-- C40: `_bitblend(a, b, start, len)` takes the field from `b` and everything else from `a`. -/
theorem C40_bitblend_partial (S : ShiftSem w) (a b : BitVec w) (start len : Nat) (hs : start < w)
    (hl : len < w ∨ S.FullShiftOk) (hsl : start + len ≤ w) :
    ∃ r, bitblend4 S a b start len = .ok r ∧
      ∀ i, i < w → r.getLsbD i = if start ≤ i ∧ i < start + len then b.getLsbD i else a.getLsbD i := by
  apply bitblend4_ok S a b hs
  rcases hl with h | h | h
  · exact lt_pw S h
  · exact Or.inl (by omega)
  · exact Or.inr h

/-- C40: the mask form selects bit by bit. -/
theorem C40_bitblend_mask (a b k : BitVec w) (i : Nat) :
    (bitblend3 a b k).getLsbD i = if k.getLsbD i then b.getLsbD i else a.getLsbD i := bitblend3_getLsbD a b k i

/-- C40 is false as stated: on a 32- or 64-bit word, extracting or blending the whole word shifts by the word width. -/
theorem C40_refuted (a b : BitVec w) :
    bextr (Unpromoted w) a 0 w = .error .overshift ∧ bitblend4 (Unpromoted w) a b 0 w = .error .overshift := by
  have h : (Unpromoted w).shl 1#w w = .error .overshift := by
    unfold ShiftSem.shl
    rw [if_neg (show ¬ w < (Unpromoted w).pw from Nat.lt_irrefl w)]; rfl
  unfold bextr bitblend4
  rw [h]
  exact ⟨rfl, rfl⟩

/-- C40 exactly, for every start and length and every width `pw` of the promoted word type: `_bextr` is undefined iff one of them is a
whole promoted word or more, and otherwise returns the requested bits (0 beyond the word). -/
theorem C40_bextr_exact (pw : Nat) (h : w ≤ pw) (x : BitVec w) (start len : Nat) :
    (start < pw ∧ len < pw → ∃ r, bextr (.strict pw h) x start len = .ok r ∧
      ∀ i, i < w → r.getLsbD i = if i < len then x.getLsbD (start + i) else false) ∧
    (¬ (start < pw ∧ len < pw) → bextr (.strict pw h) x start len = .error .overshift) := by
  constructor
  · rintro ⟨hs, hl⟩
    obtain ⟨a, ha, hmask⟩ := mask_ok (.strict pw h) len (Or.inl hl)
    refine ⟨x >>> start &&& ((a * boolWord (decide (len < w)) - 1#w) * boolWord (decide (start < w))), ?_, ?_⟩
    · unfold bextr
      rw [ha, show (ShiftSem.strict pw h).shr x start = .ok (x >>> start) from if_pos hs]
      rfl
    · intro i hi
      by_cases hsw : start < w
      · rw [decide_eq_true hsw, boolWord_true_mul, BitVec.getLsbD_and, hmask i hi, BitVec.getLsbD_ushiftRight]
        by_cases h1 : i < len <;> simp [h1]
      · rw [decide_eq_false hsw, boolWord_false_mul, BitVec.getLsbD_of_ge x (start + i) (by omega)]
        simp
  · intro hn
    unfold bextr
    by_cases hl : len < pw
    · rw [show (ShiftSem.strict pw h).shl 1#w len = .ok (1#w <<< len) from if_pos hl,
        show (ShiftSem.strict pw h).shr x start = .error .overshift from if_neg (fun hc => hn ⟨hc, hl⟩)]
      rfl
    · rw [show (ShiftSem.strict pw h).shl 1#w len = .error .overshift from if_neg hl]
      rfl

/-- C40 exactly: the same for `_bitblend`. -/
theorem C40_bitblend_exact (pw : Nat) (h : w ≤ pw) (a b : BitVec w) (start len : Nat) :
    (start < pw ∧ len < pw → ∃ r, bitblend4 (.strict pw h) a b start len = .ok r ∧
      ∀ i, i < w → r.getLsbD i = if start ≤ i ∧ i < start + len then b.getLsbD i else a.getLsbD i) ∧
    (¬ (start < pw ∧ len < pw) → bitblend4 (.strict pw h) a b start len = .error .overshift) := by
  constructor
  · rintro ⟨hs, hl⟩
    by_cases hsw : start < w
    · exact bitblend4_ok (.strict pw h) a b hsw (Or.inl hl)
    · unfold bitblend4
      rw [show (ShiftSem.strict pw h).shl 1#w len = .ok (1#w <<< len) from if_pos hl]
      simp only [bind, Except.bind, pure, Except.pure]
      rw [show ∀ y : BitVec w, (ShiftSem.strict pw h).shl y start = .ok (y <<< start) from fun y => if_pos hs]
      refine ⟨_, rfl, ?_⟩
      intro i hi
      rw [decide_eq_false hsw, boolWord_false_mul, if_neg (by omega)]
      simp
  · intro hn
    unfold bitblend4
    by_cases hl : len < pw
    · rw [show (ShiftSem.strict pw h).shl 1#w len = .ok (1#w <<< len) from if_pos hl]
      show (ShiftSem.strict pw h).shl _ start >>= _ = _
      rw [show ∀ y : BitVec w, (ShiftSem.strict pw h).shl y start = .error .overshift from fun y => if_neg (fun hc => hn ⟨hc, hl⟩)]
      rfl
    · rw [show (ShiftSem.strict pw h).shl 1#w len = .error .overshift from if_neg hl]
      rfl

/-- Both cases of the exact theorems occur for every word type. -/
example : (3 < 32 ∧ 5 < 32) ∧ ¬ (0 < 32 ∧ 32 < 32) ∧ ¬ (64 < 64 ∧ 1 < 64) := by decide

example : bextr S8 0b10110100#8 2 4 = .ok 0b1101#8 ∧ bitblend4 S8 0xff#8 0x00#8 2 3 = .ok 0b11100011#8 ∧
    bextr S8 0xa7#8 0 8 = .ok 0xa7#8 := by decide +kernel

/-! ### C41 -/

theorem word_mapped {m : Mem w} {a : Int} {s len : Nat} (ha : (m a).isSome) (hs : s + len ≤ w) :
    Mapped m (a * w + s) (a * w + s + len) := by
  intro i h1 h2
  have := bitAt_word m a (i - a * w).toNat (by omega)
  rw [show a * (w : Int) + ((i - a * w).toNat : Int) = i by omega] at this
  rw [this, Option.isSome_map]; exact ha

/-- C41: the field exchange at two offsets, also when both references designate the same word (the fields must not overlap).
No oversized shift occurs, whatever `len` is. -/
theorem C41_bitexch (S : ShiftSem w) (m : Mem w) (a0 a1 : Int) (s0 s1 len : Nat) (hs0 : s0 + len ≤ w) (hs1 : s1 + len ≤ w)
    (h0 : 0 < len) (ha : (m a0).isSome) (hb : (m a1).isSome)
    (hd : a0 ≠ a1 ∨ s0 + len ≤ s1 ∨ s1 + len ≤ s0) :
    ∃ m', bitexch5 S a0 a1 s0 s1 len m = .ok ((), m') ∧ Swapped m m' (a0 * w + s0) (a1 * w + s1) len := by
  have hw : 0 < w := by omega
  have hd' : a0 * (w : Int) + s0 + len ≤ a1 * w + s1 ∨ a1 * (w : Int) + s1 + len ≤ a0 * w + s0 := by
    rcases Int.lt_trichotomy a0 a1 with h | h | h
    · left
      have := base_lt_mul (w := w) h
      omega
    · subst h
      rcases hd with h | h | h
      · exact absurd rfl h
      · left; omega
      · right; omega
    · right
      have := base_lt_mul (w := w) h
      omega
  obtain ⟨_, m', h, hm⟩ := wp_bitexch5 S hs0 hs1 h0 (word_mapped ha hs0) (word_mapped hb hs1) hd'
    (Q := fun _ m' => Swapped m m' (a0 * w + s0) (a1 * w + s1) len) (fun m' h => h.swapped (by omega) hd')
  exact ⟨m', h, hm⟩

/-- C41: the exchange of the same field of two different words. -/
theorem C41_bitexch_same_offset (S : ShiftSem w) (m : Mem w) (a0 a1 : Int) (s len : Nat) (hs : s + len ≤ w)
    (h0 : 0 < len) (ha : (m a0).isSome) (hb : (m a1).isSome) (hd : a0 ≠ a1) :
    ∃ m', bitexch4 S a0 a1 s len m = .ok ((), m') ∧ Swapped m m' (a0 * w + s) (a1 * w + s) len := by
  have hd' : a0 * (w : Int) + s + len ≤ a1 * w + s ∨ a1 * (w : Int) + s + len ≤ a0 * w + s := by
    rcases Int.lt_trichotomy a0 a1 with h | h | h
    · left
      have := base_lt_mul (w := w) h
      omega
    · exact absurd h hd
    · right
      have := base_lt_mul (w := w) h
      omega
  obtain ⟨_, m', h, hm⟩ := wp_bitexch4 S hs h0 (word_mapped ha hs) (word_mapped hb hs) hd'
    (Q := fun _ m' => Swapped m m' (a0 * w + s) (a1 * w + s) len) (fun m' h => h.swapped (by omega) hd')
  exact ⟨m', h, hm⟩

/-- C41: the mask form exchanges, between two different words, the bits selected by the mask. -/
theorem C41_bitexch_mask (m : Mem w) (a0 a1 : Int) (x y k : BitVec w) (hd : a0 ≠ a1) (ha : m a0 = some x) (hb : m a1 = some y) :
    ∃ m' x' y', bitexch3 a0 a1 k m = .ok ((), m') ∧ m' a0 = some x' ∧ m' a1 = some y' ∧
      (∀ c, c ≠ a0 → c ≠ a1 → m' c = m c) ∧
      ∀ i, i < w → x'.getLsbD i = (if k.getLsbD i then y.getLsbD i else x.getLsbD i) ∧
        y'.getLsbD i = (if k.getLsbD i then x.getLsbD i else y.getLsbD i) := by
  have hd' : a1 ≠ a0 := fun h => hd h.symm
  let x1 := x ^^^ (y &&& k)
  let y1 := y ^^^ (x1 &&& k)
  let x2 := x1 ^^^ (y1 &&& k)
  refine ⟨((m.set a0 x1).set a1 y1).set a0 x2, x2, y1, ?_, ?_, ?_, ?_, ?_⟩
  · simp [bitexch3, bind, StateT.bind, Except.bind, load, store, ha, hb, Mem.set, hd, hd', x1, y1, x2]
  · simp [Mem.set]
  · simp [Mem.set, hd']
  · intro c h1 h2
    simp [Mem.set, h1, h2]
  · intro i _
    simp only [x2, y1, x1, BitVec.getLsbD_xor, BitVec.getLsbD_and]
    cases x.getLsbD i <;> cases y.getLsbD i <;> cases k.getLsbD i <;> decide

/-- C41: a field of length 0 changes nothing. -/
theorem C41_bitexch_len_zero (S : ShiftSem w) (m : Mem w) (a0 a1 : Int) (s0 s1 : Nat) (hs0 : s0 < w) (hs1 : s1 < w)
    (ha : (m a0).isSome) (hb : (m a1).isSome) : bitexch5 S a0 a1 s0 s1 0 m = .ok ((), m) := by
  obtain ⟨x, hx⟩ := Option.isSome_iff_exists.1 ha
  obtain ⟨y, hy⟩ := Option.isSome_iff_exists.1 hb
  have hset : ∀ (c : Int) (z : BitVec w), m c = some z → m.set c z = m := by
    intro c z h; funext b; unfold Mem.set; split_ifs with hb; rw [hb, h]; rfl
  have hk : exchMask S 0 = .ok 0#w := by
    unfold exchMask
    rw [if_pos (by omega), S.shl_ok (by omega)]
    simp [bind, Except.bind, pure, Except.pure]
  have stepL : ∀ (d s : Int) (n st : Nat) (u v : BitVec w), n < w → st < w → m d = some u → m s = some v →
      exchStepL S d s n 0#w st m = .ok ((), m) := by
    intro d s n st u v hn hst hu hv
    unfold exchStepL
    simp [bind, StateT.bind, Except.bind, load, store, lift, hu, hv, S.shl_ok hn, S.shl_ok hst, hset]
  have stepR : ∀ (d s : Int) (n st : Nat) (u v : BitVec w), n < w → st < w → m d = some u → m s = some v →
      exchStepR S d s n 0#w st m = .ok ((), m) := by
    intro d s n st u v hn hst hu hv
    unfold exchStepR
    simp [bind, StateT.bind, Except.bind, load, store, lift, hu, hv, S.shr_ok hn, S.shl_ok hst, hset]
  unfold bitexch5
  rw [hk]
  by_cases h : s0 ≥ s1
  · simp only [h, if_true, bind, StateT.bind, lift, Except.bind]
    rw [stepL a0 a1 _ _ x y (by omega) hs0 hx hy]
    simp only
    rw [stepR a1 a0 _ _ y x (by omega) hs1 hy hx]
    simp only
    rw [stepL a0 a1 _ _ x y (by omega) hs0 hx hy]
  · simp only [h, if_false, bind, StateT.bind, lift, Except.bind]
    rw [stepR a0 a1 _ _ x y (by omega) hs0 hx hy]
    simp only
    rw [stepL a1 a0 _ _ y x (by omega) hs1 hy hx]
    simp only
    rw [stepR a0 a1 _ _ x y (by omega) hs0 hx hy]

example : runOn (bitexch5 S8 0 0 1 5 3) [0b11100000#8] = .ok ((), [0b00001110#8]) ∧
    runOn (bitexch5 S8 0 1 0 0 8) [0x12#8, 0x34#8] = .ok ((), [0x34#8, 0x12#8]) := ⟨rfl, rfl⟩

/-! ### C42 -/

/-- C42: `_pdep` scatters. -/
theorem C42_pdep (x m : BitVec w) : ∃ r, pdep x m = .ok r ∧ Deposited x m r := pdep_spec x m

/-- C42: `_pext` gathers. -/
theorem C42_pext (x m : BitVec w) : ∃ r, pext x m = .ok r ∧ Extracted x m r := pext_spec x m

/-- C42: extracting what was deposited keeps the low `popcount(m)` bits. -/
theorem C42_pext_pdep (x m : BitVec w) : ∃ r s, pdep x m = .ok r ∧ pext r m = .ok s ∧
    ∀ i, i < w → s.getLsbD i = if i < onesBelow m w then x.getLsbD i else false := by
  obtain ⟨r, hr, hd⟩ := pdep_spec x m
  obtain ⟨s, hs, he, hz⟩ := pext_spec r m
  refine ⟨r, s, hr, hs, fun i hi => ?_⟩
  split_ifs with h
  · obtain ⟨j, hj, hb, ho⟩ := exists_rank m h
    have := he j hj hb
    rw [ho] at this
    rw [this, hd j hj, depBit, hb, ho, Bool.true_and]
  · exact hz i (by omega)

/-- C42: depositing what was extracted gives `x & m`. -/
theorem C42_pdep_pext (x m : BitVec w) : ∃ r, pext x m = .ok r ∧ pdep r m = .ok (x &&& m) := by
  obtain ⟨r, hr, he, _⟩ := pext_spec x m
  obtain ⟨s, hs, hd⟩ := pdep_spec r m
  refine ⟨r, hr, ?_⟩
  rw [hs]
  congr 1
  apply BitVec.eq_of_getLsbD_eq
  intro i hi
  rw [hd i hi, BitVec.getLsbD_and, depBit]
  cases hb : m.getLsbD i
  · simp
  · rw [he i hi hb]; simp

/-- The specification of the extraction determines the result. -/
theorem C42_unique (x m r s : BitVec w) (hr : Extracted x m r) (hs : Extracted x m s) : r = s := by
  apply BitVec.eq_of_getLsbD_eq
  intro i hi
  by_cases h : i < onesBelow m w
  · obtain ⟨j, hj, hb, ho⟩ := exists_rank m h
    rw [← ho, hr.1 j hj hb, hs.1 j hj hb]
  · rw [hr.2 i (by omega), hs.2 i (by omega)]

example : pdep 0b101#8 0b11010010#8 = .ok 0b01000010#8 ∧ pext 0b01000010#8 0b11010010#8 = .ok 0b0101#8 := by decide +kernel

/-! ### C43 -/

/-- C43: `_bitswap` mirrors the bits, for every width and whichever of its three methods is used. -/
theorem C43_bitswap (x : BitVec w) (i : Nat) (hi : i < w) : (bitswap x).getLsbD i = x.getLsbD (w - 1 - i) := bitswap_spec x i hi

/-- C43: `_bitswap` is an involution. -/
theorem C43_involutive (x : BitVec w) : bitswap (bitswap x) = x := by
  apply BitVec.eq_of_getLsbD_eq
  intro i hi
  rw [bitswap_spec _ i hi, bitswap_spec _ _ (by omega)]
  congr 1; omega

example : bitswap 0b00010110#8 = 0b01101000#8 ∧ bitswap 0x8001#16 = 0x8001#16 ∧ bitswap 0x1#24 = 0x800000#24 := by decide +kernel

/-! ### C44 -/

theorem byteOf_eq (x : BitVec w) (i k : Nat) : (byteOf x i).testBit k = (decide (k < 8) && x.getLsbD (8 * i + k)) := by
  unfold byteOf
  rw [show 256 ^ i = 2 ^ (8 * i) by rw [Nat.pow_mul], show 256 = 2 ^ 8 from rfl, Nat.testBit_mod_two_pow, Nat.testBit_div_two_pow,
    ← BitVec.testBit_toNat, Nat.add_comm]

/-- C44: `_byteswap` reverses the order of the bytes. -/
theorem C44_byteswap (n : Nat) (x : BitVec (8 * n)) (i : Nat) (hi : i < n) :
    byteOf (byteswap x) i = byteOf x (n - 1 - i) := by
  apply Nat.eq_of_testBit_eq
  intro k
  rw [byteOf_eq, byteOf_eq]
  by_cases hk : k < 8
  · rw [byteswap_spec x rfl _ (by omega)]
    congr 2; omega
  · simp [hk]

/-- C44: the 128-bit form built from two 64-bit reversals. -/
theorem C44_byteswap128 (x : BitVec 128) (i : Nat) (hi : i < 16) :
    byteOf (byteswap128 x) i = byteOf x (15 - i) := by
  apply Nat.eq_of_testBit_eq
  intro k
  rw [byteOf_eq, byteOf_eq]
  by_cases hk : k < 8
  · rw [byteswap128_spec x _ (by omega)]
    congr 2; omega
  · simp [hk]

/-- C44: `_byteswap` is an involution. -/
theorem C44_involutive (n : Nat) (x : BitVec (8 * n)) : byteswap (byteswap x) = x := by
  apply BitVec.eq_of_getLsbD_eq
  intro i hi
  rw [byteswap_spec _ rfl i hi, byteswap_spec _ rfl _ (by omega)]
  congr 1; omega

theorem C44_involutive128 (x : BitVec 128) : byteswap128 (byteswap128 x) = x := by
  apply BitVec.eq_of_getLsbD_eq
  intro i hi
  rw [byteswap128_spec _ i hi, byteswap128_spec _ _ (by omega)]
  congr 1; omega

example : byteswap 0x12345678#32 = 0x78563412#32 ∧ byteswap 0x123456#24 = 0x563412#24 := by decide +kernel

/-! ### C45 -/

/-- C45: `_shld` returns the high word of `dst:src` shifted left by `cnt`, for `0 < cnt < 2 * digits`. -/
theorem C45_shld_partial (S : ShiftSem w) (dst src : BitVec w) (cnt : Nat) (h0 : 0 < cnt) (h1 : cnt < w + w) :
    shld S dst src cnt = .ok (((dst ++ src) <<< cnt).extractLsb' w w) := by
  unfold shld
  by_cases h : cnt < w
  · rw [if_pos h, S.shl_ok h, S.shr_ok (by omega)]
    simp only [bind, Except.bind, pure, Except.pure]
    congr 1
    apply BitVec.eq_of_getLsbD_eq
    intro i hi
    rw [BitVec.getLsbD_or, BitVec.getLsbD_shiftLeft, BitVec.getLsbD_ushiftRight, BitVec.getLsbD_extractLsb',
      BitVec.getLsbD_shiftLeft, BitVec.getLsbD_append]
    by_cases hic : i < cnt
    · simp [hi, hic, show ¬ (w + i < cnt) by omega, show w + i - cnt = w - cnt + i by omega]
      omega
    · simp [hi, hic, show ¬ (w + i - cnt < w) by omega, show ¬ (w + i < cnt) by omega, show w + i - cnt - w = i - cnt by omega,
        BitVec.getLsbD_of_ge src (w - cnt + i) (by omega)]
  · rw [if_neg h, S.shl_ok (by omega)]
    simp only [bind, Except.bind, pure, Except.pure, decide_eq_true h1, boolWord_true_mul]
    congr 1
    apply BitVec.eq_of_getLsbD_eq
    intro i hi
    rw [BitVec.getLsbD_shiftLeft, BitVec.getLsbD_extractLsb', BitVec.getLsbD_shiftLeft, BitVec.getLsbD_append]
    by_cases hic : w + i < cnt
    · simp [hi, hic, show i < cnt - w by omega]
    · simp [hi, hic, show ¬ (i < cnt - w) by omega, show w + i - cnt = i - (cnt - w) by omega]
      intro h; omega

/-- C45: `_shrd` returns the low word of `src:dst` shifted right by `cnt`, for `0 < cnt < 2 * digits`. -/
theorem C45_shrd_partial (S : ShiftSem w) (dst src : BitVec w) (cnt : Nat) (h0 : 0 < cnt) (h1 : cnt < w + w) :
    shrd S dst src cnt = .ok (((src ++ dst) >>> cnt).extractLsb' 0 w) := by
  unfold shrd
  by_cases h : cnt < w
  · rw [if_pos h, S.shr_ok h, S.shl_ok (by omega)]
    simp only [bind, Except.bind, pure, Except.pure]
    congr 1
    apply BitVec.eq_of_getLsbD_eq
    intro i hi
    rw [BitVec.getLsbD_or, BitVec.getLsbD_shiftLeft, BitVec.getLsbD_ushiftRight, BitVec.getLsbD_extractLsb',
      BitVec.getLsbD_ushiftRight, BitVec.getLsbD_append]
    by_cases hic : cnt + i < w
    · simp [hi, hic, show i < w - cnt by omega]
    · simp [hi, hic, show ¬ (i < w - cnt) by omega, BitVec.getLsbD_of_ge dst (cnt + i) (by omega),
        show cnt + i - w = i - (w - cnt) by omega]
  · rw [if_neg h, S.shr_ok (by omega)]
    simp only [bind, Except.bind, pure, Except.pure, decide_eq_true h1, boolWord_true_mul]
    congr 1
    apply BitVec.eq_of_getLsbD_eq
    intro i hi
    rw [BitVec.getLsbD_ushiftRight, BitVec.getLsbD_extractLsb', BitVec.getLsbD_ushiftRight, BitVec.getLsbD_append]
    simp [hi, show ¬ (cnt + i < w) by omega, show cnt + i - w = cnt - w + i by omega]

/-- C45: a count of 0 returns `dst` when words are narrower than `int`. -/
theorem C45_zero_narrow (S : ShiftSem w) (h : w < S.pw) (hw : 0 < w) (dst src : BitVec w) :
    shld S dst src 0 = .ok dst ∧ shrd S dst src 0 = .ok dst := by
  unfold shld shrd
  rw [if_pos hw, if_pos hw, S.shl_ok hw, S.shr_ok hw]
  have h1 : S.shr src (w - 0) = .ok (src >>> w) := by unfold ShiftSem.shr; rw [Nat.sub_zero, if_pos h]
  have h2 : S.shl src (w - 0) = .ok (src <<< w) := by unfold ShiftSem.shl; rw [Nat.sub_zero, if_pos h]
  rw [h1, h2]
  simp only [bind, Except.bind, pure, Except.pure]
  rw [shr_width src (Nat.le_refl w), BitVec.shiftLeft_eq_zero (Nat.le_refl w)]
  simp

/-- C45 is false for 32- and 64-bit words: a count of 0 shifts `src` by the word width. -/
theorem C45_refuted (hw : 0 < w) (dst src : BitVec w) :
    shld (Unpromoted w) dst src 0 = .error .overshift ∧ shrd (Unpromoted w) dst src 0 = .error .overshift := by
  unfold shld shrd
  rw [if_pos hw, if_pos hw, ShiftSem.shl_ok _ hw, ShiftSem.shr_ok _ hw]
  have h1 : (Unpromoted w).shr src (w - 0) = .error .overshift := by
    unfold ShiftSem.shr; rw [Nat.sub_zero, if_neg (show ¬ w < (Unpromoted w).pw from Nat.lt_irrefl w)]; rfl
  have h2 : (Unpromoted w).shl src (w - 0) = .error .overshift := by
    unfold ShiftSem.shl; rw [Nat.sub_zero, if_neg (show ¬ w < (Unpromoted w).pw from Nat.lt_irrefl w)]; rfl
  rw [h1, h2]
  exact ⟨rfl, rfl⟩

/-- On a CPU that masks the count (x86) the result for count 0 is not `dst`. -/
theorem C45_refuted_value : ∃ S : ShiftSem 32, S.pw = 32 ∧ S.Lenient ∧ shrd S 0x1#32 0x2#32 0 ≠ .ok 0x1#32 :=
  ⟨⟨32, Nat.le_refl _, fun x n => .ok (x <<< (n % 32)), fun x n => .ok (x >>> (n % 32))⟩, rfl,
    fun x n => ⟨⟨_, rfl⟩, ⟨_, rfl⟩⟩, by decide +kernel⟩

/-- C45 exactly, for every count and every width `pw` of the promoted word type: `_shld` is undefined iff the count is 0 and the word is not
promoted, or exceeds the word by a whole promoted word; otherwise it returns the high word of `dst:src` shifted left. -/
theorem C45_shld_exact (pw : Nat) (h : w ≤ pw) (hw : 0 < w) (dst src : BitVec w) (cnt : Nat) :
    shld (.strict pw h) dst src cnt = if (cnt = 0 ∧ pw = w) ∨ w + pw ≤ cnt then .error .overshift
      else .ok (((dst ++ src) <<< cnt).extractLsb' w w) := by
  by_cases h0 : cnt = 0
  · subst h0
    by_cases hp : pw = w
    · subst hp
      rw [if_pos (Or.inl ⟨rfl, rfl⟩)]
      exact (C45_refuted hw dst src).1
    · rw [if_neg (by omega), (C45_zero_narrow (.strict pw h) (show w < pw by omega) hw dst src).1]
      congr 1
      apply BitVec.eq_of_getLsbD_eq
      intro i hi
      rw [BitVec.getLsbD_extractLsb', BitVec.getLsbD_shiftLeft, BitVec.getLsbD_append]
      simp [hi]
  · by_cases h1 : cnt < w + w
    · rw [if_neg (by omega), C45_shld_partial _ dst src cnt (by omega) h1]
    · unfold shld
      rw [if_neg (by omega)]
      by_cases h2 : w + pw ≤ cnt
      · rw [if_pos (Or.inr h2), show (ShiftSem.strict pw h).shl src (cnt - w) = .error .overshift from if_neg (show ¬ cnt - w < pw by omega)]
        rfl
      · rw [if_neg (by omega), show (ShiftSem.strict pw h).shl src (cnt - w) = .ok (src <<< (cnt - w)) from if_pos (show cnt - w < pw by omega)]
        simp only [bind, Except.bind, pure, Except.pure, decide_eq_false h1, boolWord_false_mul]
        congr 1
        rw [BitVec.shiftLeft_eq_zero (by omega)]
        simp

/-- C45 exactly: the same for `_shrd`. -/
theorem C45_shrd_exact (pw : Nat) (h : w ≤ pw) (hw : 0 < w) (dst src : BitVec w) (cnt : Nat) :
    shrd (.strict pw h) dst src cnt = if (cnt = 0 ∧ pw = w) ∨ w + pw ≤ cnt then .error .overshift
      else .ok (((src ++ dst) >>> cnt).extractLsb' 0 w) := by
  by_cases h0 : cnt = 0
  · subst h0
    by_cases hp : pw = w
    · subst hp
      rw [if_pos (Or.inl ⟨rfl, rfl⟩)]
      exact (C45_refuted hw dst src).2
    · rw [if_neg (by omega), (C45_zero_narrow (.strict pw h) (show w < pw by omega) hw dst src).2]
      congr 1
      apply BitVec.eq_of_getLsbD_eq
      intro i hi
      rw [BitVec.getLsbD_extractLsb', BitVec.getLsbD_ushiftRight, BitVec.getLsbD_append]
      simp [hi]
  · by_cases h1 : cnt < w + w
    · rw [if_neg (by omega), C45_shrd_partial _ dst src cnt (by omega) h1]
    · unfold shrd
      rw [if_neg (by omega)]
      by_cases h2 : w + pw ≤ cnt
      · rw [if_pos (Or.inr h2), show (ShiftSem.strict pw h).shr src (cnt - w) = .error .overshift from if_neg (show ¬ cnt - w < pw by omega)]
        rfl
      · rw [if_neg (by omega), show (ShiftSem.strict pw h).shr src (cnt - w) = .ok (src >>> (cnt - w)) from if_pos (show cnt - w < pw by omega)]
        simp only [bind, Except.bind, pure, Except.pure, decide_eq_false h1, boolWord_false_mul]
        congr 1
        apply BitVec.eq_of_getLsbD_eq
        intro i hi
        rw [BitVec.getLsbD_extractLsb', BitVec.getLsbD_ushiftRight, BitVec.getLsbD_of_ge _ (cnt + _) (by omega)]
        simp

example : 8 ≤ 32 ∧ 0 < 8 ∧ ¬ ((0 = 0 ∧ 32 = 8) ∨ 8 + 32 ≤ 0) ∧ ((0 = 0 ∧ 32 = 32) ∨ 32 + 32 ≤ 0) := by decide

example : shld S8 0x12#8 0x34#8 4 = .ok 0x23#8 ∧ shrd S8 0x12#8 0x34#8 4 = .ok 0x41#8 ∧ shld S8 0x12#8 0x34#8 12 = .ok 0x40#8 := by
  decide +kernel

/-! ### C46 -/

/-- C46: the sum and the carry out of one step are exact. -/
theorem C46_addcarry (hw : 0 < w) (c : Bool) (a b : BitVec w) :
    (addcarry c a b).1.toNat + (addcarry c a b).2.toNat * 2 ^ w = a.toNat + b.toNat + c.toNat := addcarry_spec hw c a b

/-- C46: the difference and the borrow out of one step are exact. -/
theorem C46_subborrow (hw : 0 < w) (c : Bool) (a b : BitVec w) :
    (subborrow c a b).1.toNat + (b.toNat + c.toNat) = a.toNat + (subborrow c a b).2.toNat * 2 ^ w := subborrow_spec hw c a b

/-- C46: the branches that compute in a wider type agree with the portable ones. -/
theorem C46_wide {ww : Nat} (hw : 0 < w) (h : w < ww) (c : Bool) (a b : BitVec w) :
    addcarryWide ww c a b = addcarry c a b ∧ subborrowWide ww c a b = subborrow c a b := by
  have e1 := addcarryWide_spec hw h c a b
  have e2 := addcarry_spec hw c a b
  have e3 := subborrowWide_spec hw h c a b
  have e4 := subborrow_spec hw c a b
  have b1 := (addcarryWide ww c a b).1.isLt
  have b2 := (addcarry c a b).1.isLt
  have b3 := (subborrowWide ww c a b).1.isLt
  have b4 := (subborrow c a b).1.isLt
  constructor
  · generalize addcarryWide ww c a b = p at *
    generalize addcarry c a b = q at *
    obtain ⟨p1, p2⟩ := p
    obtain ⟨q1, q2⟩ := q
    dsimp only at *
    have h2 : p2 = q2 := by
      cases p2 <;> cases q2 <;> simp only [Bool.toNat_false, Bool.toNat_true, Nat.zero_mul, Nat.one_mul] at e1 e2 <;>
        first | rfl | (exfalso; omega)
    subst h2
    have h1 : p1 = q1 := BitVec.eq_of_toNat_eq (by omega)
    rw [h1]
  · generalize subborrowWide ww c a b = p at *
    generalize subborrow c a b = q at *
    obtain ⟨p1, p2⟩ := p
    obtain ⟨q1, q2⟩ := q
    dsimp only at *
    have h2 : p2 = q2 := by
      cases p2 <;> cases q2 <;> simp only [Bool.toNat_false, Bool.toNat_true, Nat.zero_mul, Nat.one_mul] at e3 e4 <;>
        first | rfl | (exfalso; omega)
    subst h2
    have h1 : p1 = q1 := BitVec.eq_of_toNat_eq (by omega)
    rw [h1]

/-- A client loop: add two numbers word by word, least significant first. -/
def addChain : Bool → List (BitVec w × BitVec w) → List (BitVec w) × Bool
  | c, [] => ([], c)
  | c, (a, b) :: rest =>
    let r := addcarry c a b
    let s := addChain r.2 rest
    (r.1 :: s.1, s.2)

/-- A client loop: subtract two numbers word by word. -/
def subChain : Bool → List (BitVec w × BitVec w) → List (BitVec w) × Bool
  | c, [] => ([], c)
  | c, (a, b) :: rest =>
    let r := subborrow c a b
    let s := subChain r.2 rest
    (r.1 :: s.1, s.2)

/-- C46: chaining computes the multi-word sum, for any number of words. -/
theorem C46_add_chain (hw : 0 < w) (c : Bool) (l : List (BitVec w × BitVec w)) :
    wordsVal (addChain c l).1 + (addChain c l).2.toNat * 2 ^ (w * l.length) =
      wordsVal (l.map Prod.fst) + wordsVal (l.map Prod.snd) + c.toNat := by
  induction l generalizing c with
  | nil => simp [addChain, wordsVal]
  | cons p l ih =>
    obtain ⟨a, b⟩ := p
    have h := addcarry_spec hw c a b
    have h2 := ih (addcarry c a b).2
    simp only [addChain, wordsVal, List.map_cons, List.length_cons]
    rw [Nat.mul_add, Nat.mul_one, Nat.pow_add]
    generalize (addcarry c a b).1.toNat = r at *
    generalize (addcarry c a b).2 = c1 at *
    generalize wordsVal (addChain c1 l).1 = s at *
    generalize (addChain c1 l).2.toNat = cc at *
    generalize 2 ^ (w * l.length) = L at *
    generalize 2 ^ w = P at *
    generalize wordsVal (l.map Prod.fst) = va at *
    generalize wordsVal (l.map Prod.snd) = vb at *
    have h3 : P * (s + cc * L) = P * (va + vb + c1.toNat) := by rw [h2]
    nlinarith [h, h3]

/-- C46: chaining computes the multi-word difference, for any number of words. -/
theorem C46_sub_chain (hw : 0 < w) (c : Bool) (l : List (BitVec w × BitVec w)) :
    wordsVal (subChain c l).1 + (wordsVal (l.map Prod.snd) + c.toNat) =
      wordsVal (l.map Prod.fst) + (subChain c l).2.toNat * 2 ^ (w * l.length) := by
  induction l generalizing c with
  | nil => simp [subChain, wordsVal]
  | cons p l ih =>
    obtain ⟨a, b⟩ := p
    have h := subborrow_spec hw c a b
    have h2 := ih (subborrow c a b).2
    simp only [subChain, wordsVal, List.map_cons, List.length_cons]
    rw [Nat.mul_add, Nat.mul_one, Nat.pow_add]
    generalize (subborrow c a b).1.toNat = r at *
    generalize (subborrow c a b).2 = c1 at *
    generalize wordsVal (subChain c1 l).1 = s at *
    generalize (subChain c1 l).2.toNat = cc at *
    generalize 2 ^ (w * l.length) = L at *
    generalize 2 ^ w = P at *
    generalize wordsVal (l.map Prod.fst) = va at *
    generalize wordsVal (l.map Prod.snd) = vb at *
    have h3 : P * (s + (vb + c1.toNat)) = P * (va + cc * L) := by rw [h2]
    nlinarith [h, h3]

example : addcarry true 0xff#8 0xff#8 = (0xff#8, true) ∧ addcarry false 0x7f#8 0x80#8 = (0xff#8, false) ∧
    subborrow true 0x00#8 0xff#8 = (0x00#8, true) ∧ subborrow false 0x10#8 0x01#8 = (0x0f#8, false) := by decide +kernel

/-! ### C47 -/

/-- C47: the portable full multiplication, for every even width. -/
theorem C47_mulx {h : Nat} (hh : 0 < h) (hw : w = 2 * h) (a b : BitVec w) :
    (mulx a b).2.toNat * 2 ^ w + (mulx a b).1.toNat = a.toNat * b.toNat := mulx_spec hh (by omega) a b

/-- C47: the branches that compute in a type of at least twice the width. -/
theorem C47_mulx_wide {ww : Nat} (h : 2 * w ≤ ww) (a b : BitVec w) :
    (mulxWide ww a b).2.toNat * 2 ^ w + (mulxWide ww a b).1.toNat = a.toNat * b.toNat := mulxWide_spec (by omega) a b

example : mulx 0xff#8 0xff#8 = (0x01#8, 0xfe#8) ∧ mulx 0xdeadbeef#32 0xcafebabe#32 = mulxWide 64 0xdeadbeef#32 0xcafebabe#32 := by
  decide +kernel

/-! ### C49 -/

/-- C49: `write_word` stores the low `len` bits of `x` at `it` and changes nothing else. -/
theorem C49_write_word (S : ShiftSem w) (m : Mem w) (x : BitVec w) (it : BitIter w) (len : Nat) (hlen : len ≤ w) (h0 : 0 < len)
    (hd : Dest m it len) :
    ∃ m', writeWord S x it len m = .ok ((), m') ∧
      Wrote m m' it.addr (it.addr + len) (fun i => some (x.getLsbD (i - it.addr).toNat)) := by
  obtain ⟨_, m', h, hm⟩ := wp_writeWord S (src := x) hd.1 hlen h0 hd.2
    (Q := fun _ m' => Wrote m m' it.addr (it.addr + len) (fun i => some (x.getLsbD (i - it.addr).toNat))) (fun _ h => h)
  exact ⟨m', h, hm⟩

/-- C49: `get_word` returns a word whose low `len` bits are those at `it`, and leaves the memory as it is. -/
theorem C49_get_word (S : ShiftSem w) (m : Mem w) (it : BitIter w) (len : Nat) (hlen : len ≤ w) (h0 : 0 < len)
    (hd : Dest m it len) :
    ∃ x, getWord S it len m = .ok (x, m) ∧ ∀ i : Nat, i < len → bitAt m (it.addr + i) = some (x.getLsbD i) := by
  obtain ⟨x, m', h, hm, he⟩ := wp_getWord S hd.1 hlen h0 hd.2
    (Q := fun x m' => (∀ i : Nat, i < len → bitAt m (it.addr + i) = some (x.getLsbD i)) ∧ m' = m) (fun x h => ⟨h, rfl⟩)
  exact ⟨x, he ▸ h, hm⟩

/-- C49: reading back after writing returns the low `len` bits. -/
theorem C49_round_trip (S : ShiftSem w) (m : Mem w) (x : BitVec w) (it : BitIter w) (len : Nat) (hlen : len ≤ w) (h0 : 0 < len)
    (hd : Dest m it len) :
    ∃ m' y, writeWord S x it len m = .ok ((), m') ∧ getWord S it len m' = .ok (y, m') ∧
      ∀ i, i < len → y.getLsbD i = x.getLsbD i := by
  obtain ⟨m', h, hm⟩ := C49_write_word S m x it len hlen h0 hd
  have hd' : Dest m' it len := ⟨hd.1, by
    intro i h1 h2
    rw [hm i, if_pos ⟨h1, h2⟩]; rfl⟩
  obtain ⟨y, h2, hy⟩ := C49_get_word S m' it len hlen h0 hd'
  refine ⟨m', y, h, h2, fun i hi => ?_⟩
  have := hy i hi
  rw [hm, if_pos (by omega)] at this
  beta_reduce at this
  rw [show (it.addr + (i : Int) - it.addr).toNat = i by omega] at this
  exact (Option.some.inj this).symm

/-- C49: writing back what was read changes nothing. -/
theorem C49_write_back (S : ShiftSem w) (m : Mem w) (it : BitIter w) (len : Nat) (hlen : len ≤ w) (h0 : 0 < len)
    (hd : Dest m it len) :
    ∃ x, getWord S it len m = .ok (x, m) ∧ writeWord S x it len m = .ok ((), m) := by
  obtain ⟨x, h, hx⟩ := C49_get_word S m it len hlen h0 hd
  obtain ⟨m', h2, hm⟩ := C49_write_word S m x it len hlen h0 hd
  have hw : 0 < w := by omega
  have : m' = m := by
    apply mem_ext_bitAt hw
    intro i
    rw [hm i]
    split_ifs with hi
    · beta_reduce
      rw [← hx (i - it.addr).toNat (by omega)]; congr 1; omega
    · rfl
  rw [this] at h2
  exact ⟨x, h, h2⟩

/-- C49: only words holding one of the `len` bits are accessed, by either function. -/
theorem C49_footprint (S : ShiftSem w) (m : Mem w) (x : BitVec w) (it : BitIter w) (len : Nat) (hlen : len ≤ w) (h0 : 0 < len)
    (hd : Dest m it len) :
    (∃ m', writeWord S x it len (m.only (HoldsBit w it.addr (it.addr + len))) = .ok ((), m')) ∧
    ∃ y m', getWord S it len (m.only (HoldsBit w it.addr (it.addr + len))) = .ok (y, m') := by
  have hd' : Dest (m.only (HoldsBit w it.addr (it.addr + len))) it len := hd.only (fun _ h => h)
  obtain ⟨m', h, _⟩ := C49_write_word S _ x it len hlen h0 hd'
  obtain ⟨y, h2, _⟩ := C49_get_word S _ it len hlen h0 hd'
  exact ⟨⟨m', h⟩, ⟨y, _, h2⟩⟩

example : runOn (writeWord S8 0xff#8 ⟨0, 6⟩ 5) [0x00#8, 0x00#8] = .ok ((), [0xc0#8, 0x07#8]) ∧
    Dest (memOf [0x00#8, 0x00#8]) ⟨0, 6⟩ 5 := by
  exact ⟨rfl, dest_memOf (by decide) (by decide) (by decide)⟩

end BitLib
