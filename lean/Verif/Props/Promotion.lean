import Verif.Lemmas.Promotion
/-
C56: integer promotion. `P`-functions evaluate in 32-bit `int`, as C++ does for words of at most 16 bits; `Own w` evaluates at
the word's own width, where a shift by the width or more gives 0. The equalities with the functions used by the rest of the
model hold for every operand and every count, including which runs are undefined.
-/
namespace BitLib
variable {w : Nat}

/-! ### `_bitblend` -/

/-- C56: the mask form of `_bitblend`. -/
theorem C56_bitblend_mask (hw : w ≤ 16) (a b k : BitVec w) : bitblend3P a b k = bitblend3 a b k := by
  simp only [bitblend3P, bitblend3, narrow_xor, narrow_and, narrow_promote hw]

/-- C56: `_bitblend` on promoted operands with the C++20 shift (what GCC and Clang do in all versions) equals the
own-width evaluation for all operands and all counts below 32, in particular for `start` or `len` equal to the word width. -/
theorem C56_bitblend (h0 : 0 < w) (hw : w ≤ 16) (a b : BitVec w) (start len : Nat) (hs : start < 32) (hl : len < 32) :
    bitblend4P .cxx20 a b start len = bitblend4 (Own w) a b start len := by
  unfold bitblend4P bitblend4
  simp only [bind, Except.bind, pure, Except.pure, Own_shl]
  rw [promote_one h0, ishl_cxx20 _ hl]
  dsimp only
  rw [imul_bool]
  dsimp only
  have := mask_isub h0 hw len
  rw [promote_one h0] at this
  rw [this]
  dsimp only
  rw [ishl_cxx20 _ hs]
  dsimp only
  rw [imul_bool]
  simp only [narrow_xor, narrow_and, narrow_promote hw, narrow_mul hw, narrow_bool, narrow_shl hw, narrow_sub hw, narrow_one h0 hw]

/-- C56: the promoted `_bitblend` is the function the rest of the model uses, for every operand and count; both
are undefined for the same counts (32 or more). -/
theorem C56_bitblend_model (h0 : 0 < w) (hw : w ≤ 16) (a b : BitVec w) (start len : Nat) :
    bitblend4P .cxx20 a b start len = bitblend4 (Narrow hw) a b start len := by
  by_cases hl : len < 32
  · by_cases hs : start < 32
    · rw [C56_bitblend h0 hw a b start len hs hl]
      unfold bitblend4
      simp only [bind, Except.bind, pure, Except.pure, Own_shl, Narrow_shl, if_neg (show ¬ 32 ≤ len by omega), if_neg (show ¬ 32 ≤ start by omega)]
    · unfold bitblend4P bitblend4
      simp only [bind, Except.bind, pure, Except.pure, Narrow_shl, if_neg (show ¬ 32 ≤ len by omega), if_pos (show 32 ≤ start by omega)]
      rw [promote_one h0, ishl_cxx20 _ hl]
      dsimp only
      rw [imul_bool]
      dsimp only
      have := mask_isub h0 hw len
      rw [promote_one h0] at this
      rw [this]
      dsimp only
      rw [ishl_over _ (by omega)]
  · unfold bitblend4P bitblend4
    simp only [bind, Except.bind, pure, Except.pure, Narrow_shl, if_pos (show 32 ≤ len by omega)]
    rw [ishl_over _ (by omega)]

/-- C56 for `_bitblend` under the C++17 rule (missing: `len = digits`, see `C56_refuted_cxx17`): for proper fields the promoted
evaluation is defined and equals the own-width one. -/
theorem C56_bitblend_cxx17_partial (h0 : 0 < w) (hw : w ≤ 16) (a b : BitVec w) (start len : Nat) (hs : start ≤ w) (hl : len < w) :
    bitblend4P .cxx17 a b start len = bitblend4 (Own w) a b start len := by
  rw [← C56_bitblend h0 hw a b start len (by omega) (by omega)]
  unfold bitblend4P
  simp only [bind, Except.bind, pure, Except.pure]
  rw [ishl_word _ hw _ (by omega), ishl_word _ hw _ (by omega)]
  dsimp only
  rw [imul_bool]
  dsimp only
  rw [promote_one h0]
  have := mask_isub h0 hw len
  rw [promote_one h0] at this
  rw [this]
  dsimp only
  have e : (1#32 <<< len * promoteBool (decide (len < w)) - 1#32).toInt = 2 ^ len - 1 := by
    rw [decide_eq_true hl, show promoteBool true = 1#32 from rfl, BitVec.mul_one, sub_one_toInt (by omega)]
  have hp : (0 : Int) < 2 ^ len := Int.pow_pos (by decide)
  have hq : (2 : Int) ^ len * 2 ^ start ≤ 2 ^ 31 := by
    rw [← Int.pow_add]
    have : 2 ^ (len + start) ≤ 2 ^ 31 := Nat.pow_le_pow_right (by decide) (by omega)
    exact_mod_cast this
  have hr : (0 : Int) < 2 ^ start := Int.pow_pos (by decide)
  rw [ishl_ok _ _ (by omega) (by rw [e]; omega) (by rw [e, Int.sub_mul]; omega), ishl_cxx20 _ (by omega)]

/-- C56 is false of `_bitblend` under the C++17 rule that the project is built with: blending a whole narrow word shifts the
negative `int` `-1` to the left, for all operands and every `start`. -/
theorem C56_refuted_cxx17 (h0 : 0 < w) (hw : w ≤ 16) (a b : BitVec w) (start : Nat) (hs : start < 32) :
    bitblend4P .cxx17 a b start w = .error .signedOverflow := by
  unfold bitblend4P
  simp only [bind, Except.bind, pure, Except.pure]
  rw [ishl_word _ hw _ (by omega)]
  dsimp only
  rw [imul_bool]
  dsimp only
  rw [promote_one h0]
  have := mask_isub h0 hw w
  rw [promote_one h0] at this
  rw [this]
  dsimp only
  rw [decide_eq_false (Nat.lt_irrefl w), show promoteBool false = 0#32 from rfl, BitVec.mul_zero]
  unfold ishl
  rw [if_neg (by omega)]
  dsimp only
  rw [if_neg (by rw [show (0#32 - 1#32).toInt = -1 by decide]; omega)]

example : 0 < 8 ∧ 8 ≤ 16 ∧ bitblend4P (w := 8) .cxx20 0x0F#8 0xF5#8 0 8 = .ok 0xF5#8 ∧ bitblend4P (w := 8) .cxx17 0x0F#8 0xF5#8 2 5 = .ok 0x77#8 ∧
    bitblend4P (w := 16) .cxx17 0#16 0#16 0 16 = .error .signedOverflow := ⟨by decide, by decide, rfl, rfl, rfl⟩

/-! ### `_bextr` -/

/-- C56: `_bextr`, in both dialects, for all operands and fields within the word (`start`, `len` up to the width). -/
theorem C56_bextr (d : Dialect) (h0 : 0 < w) (hw : w ≤ 16) (x : BitVec w) (start len : Nat) (hs : start ≤ w) (hl : len ≤ w) :
    bextrP d x start len = bextr (Own w) x start len := by
  unfold bextrP bextr
  simp only [bind, Except.bind, pure, Except.pure, Own_shl, Own_shr]
  rw [ishl_word _ hw _ (by omega)]
  dsimp only
  rw [imul_bool]
  dsimp only
  rw [promote_one h0]
  have := mask_isub h0 hw len
  rw [promote_one h0] at this
  rw [this]
  dsimp only
  rw [ishr_promote hw, if_neg (by omega)]
  dsimp only
  rw [imul_bool]
  simp only [narrow_and, narrow_promote hw, narrow_mul hw, narrow_bool, narrow_shl hw, narrow_sub hw, narrow_one h0 hw]

/-- C56: the promoted `_bextr` is the function the rest of the model uses, for every operand and count. -/
theorem C56_bextr_model (h0 : 0 < w) (hw : w ≤ 16) (x : BitVec w) (start len : Nat) :
    bextrP .cxx20 x start len = bextr (Narrow hw) x start len := by
  unfold bextrP bextr
  simp only [bind, Except.bind, pure, Except.pure, Narrow_shl, Narrow_shr]
  by_cases hl : len < 32
  · rw [promote_one h0, ishl_cxx20 _ hl, if_neg (show ¬ 32 ≤ len by omega)]
    dsimp only
    rw [imul_bool]
    dsimp only
    have := mask_isub h0 hw len
    rw [promote_one h0] at this
    rw [this]
    dsimp only
    rw [ishr_promote hw]
    by_cases hs : 32 ≤ start
    · rw [if_pos hs, if_pos hs]
    · rw [if_neg hs, if_neg hs]
      dsimp only
      rw [imul_bool]
      simp only [narrow_and, narrow_promote hw, narrow_mul hw, narrow_bool, narrow_shl hw, narrow_sub hw, narrow_one h0 hw]
  · rw [ishl_over _ (by omega), if_pos (by omega)]

example : bextrP (w := 8) .cxx17 0xB6#8 0 8 = .ok 0xB6#8 ∧ bextrP (w := 8) .cxx17 0xB6#8 8 8 = .ok 0#8 ∧
    bextrP (w := 8) .cxx17 0xB6#8 2 3 = .ok 5#8 := ⟨rfl, rfl, rfl⟩

/-! ### `_shrd`, `_shld` -/

/-- C56: `_shrd`, in both dialects, for all operands and counts up to twice the word width; `cnt = 0` shifts by the width. -/
theorem C56_shrd (d : Dialect) (hw : w ≤ 16) (x y : BitVec w) (cnt : Nat) (hc : cnt ≤ w + w) :
    shrdP d x y cnt = shrd (Own w) x y cnt := by
  unfold shrdP shrd
  simp only [bind, Except.bind, pure, Except.pure, Own_shl, Own_shr]
  split
  · rw [ishr_promote hw, if_neg (by omega)]
    dsimp only
    rw [ishl_word _ hw _ (by omega)]
    simp only [narrow_or, narrow_promote hw, narrow_shl hw]
  · rw [ishr_promote hw, if_neg (by omega)]
    dsimp only
    rw [imul_bool]
    simp only [narrow_promote hw, narrow_mul hw, narrow_bool]

/-- C56: the promoted `_shrd` is the function the rest of the model uses, for every operand and count. -/
theorem C56_shrd_model (hw : w ≤ 16) (x y : BitVec w) (cnt : Nat) : shrdP .cxx20 x y cnt = shrd (Narrow hw) x y cnt := by
  unfold shrdP shrd
  simp only [bind, Except.bind, pure, Except.pure, Narrow_shl, Narrow_shr, ishr_promote hw]
  split
  · rw [if_neg (show ¬ 32 ≤ cnt by omega), if_neg (show ¬ 32 ≤ cnt by omega), if_neg (show ¬ 32 ≤ w - cnt by omega), ishl_cxx20 _ (by omega)]
    simp only [narrow_or, narrow_promote hw, narrow_shl hw]
  · by_cases h : 32 ≤ cnt - w
    · rw [if_pos h, if_pos h]
    · rw [if_neg h, if_neg h]
      dsimp only
      rw [imul_bool]
      simp only [narrow_promote hw, narrow_mul hw, narrow_bool]

/-- C56: `_shld`, in both dialects, for all operands and counts up to twice the word width; `cnt = 0` shifts by the width. -/
theorem C56_shld (d : Dialect) (hw : w ≤ 16) (x y : BitVec w) (cnt : Nat) (hc : cnt ≤ w + w) :
    shldP d x y cnt = shld (Own w) x y cnt := by
  unfold shldP shld
  simp only [bind, Except.bind, pure, Except.pure, Own_shl, Own_shr]
  split
  · rw [ishl_word _ hw _ (by omega)]
    dsimp only
    rw [ishr_promote hw, if_neg (by omega)]
    simp only [narrow_or, narrow_promote hw, narrow_shl hw]
  · rw [ishl_word _ hw _ (by omega)]
    dsimp only
    rw [imul_bool]
    simp only [narrow_promote hw, narrow_mul hw, narrow_bool, narrow_shl hw]

/-- C56: the promoted `_shld` is the function the rest of the model uses, for every operand and count. -/
theorem C56_shld_model (hw : w ≤ 16) (x y : BitVec w) (cnt : Nat) : shldP .cxx20 x y cnt = shld (Narrow hw) x y cnt := by
  unfold shldP shld
  simp only [bind, Except.bind, pure, Except.pure, Narrow_shl, Narrow_shr, ishr_promote hw]
  split
  · rw [if_neg (show ¬ 32 ≤ cnt by omega), if_neg (show ¬ 32 ≤ w - cnt by omega), if_neg (show ¬ 32 ≤ w - cnt by omega), ishl_cxx20 _ (by omega)]
    simp only [narrow_or, narrow_promote hw, narrow_shl hw]
  · by_cases h : 32 ≤ cnt - w
    · rw [if_pos h, ishl_over _ h]
    · rw [if_neg h, ishl_cxx20 _ (by omega)]
      dsimp only
      rw [imul_bool]
      simp only [narrow_promote hw, narrow_mul hw, narrow_bool, narrow_shl hw]

example : shrdP (w := 8) .cxx17 0xA5#8 0xFF#8 0 = .ok 0xA5#8 ∧ shldP (w := 16) .cxx17 0xA5#16 0x8000#16 1 = .ok 0x14B#16 ∧
    shldP (w := 8) .cxx17 0xA5#8 0x81#8 16 = .ok 0#8 := ⟨rfl, rfl, rfl⟩

/-! ### `_bitexch` -/

/-- C56: the mask form of `_bitexch`: same run, same outcome. -/
theorem C56_bitexch_mask (hw : w ≤ 16) (a0 a1 : Int) (k : BitVec w) : bitexch3P a0 a1 k = bitexch3 a0 a1 k := by
  simp only [bitexch3P, bitexch3, narrow_xor, narrow_and, narrow_promote hw]

/-- C56: `_bitexch` of one field, in both dialects, for all memories and `start`, `len` up to the width (and beyond, for `len`). -/
theorem C56_bitexch_same_offset (d : Dialect) (h0 : 0 < w) (hw : w ≤ 16) (a0 a1 : Int) (start len : Nat) (hs : start ≤ w) :
    bitexch4P d a0 a1 start len = bitexch4 (Own w) a0 a1 start len ∧
    bitexch4P d a0 a1 start len = bitexch4 (Narrow hw) a0 a1 start len := by
  have key : (if len < w then do
      let one : BitVec w := 1#w
      let a ← ishl d (promote one) len
      let b ← isub a (promote one)
      let c ← ishl d b start
      pure (narrow w c)
    else pure (minusOneP w) : Except UB (BitVec w)) = .ok (if len < w then (1#w <<< len - 1#w) <<< start else BitVec.allOnes w) := by
    split
    · rename_i hl
      simp only [bind, Except.bind, pure, Except.pure]
      rw [ishl_word _ hw _ (by omega), promote_one h0]
      dsimp only
      have := one_isub h0 (len := len) (by omega)
      rw [promote_one h0] at this
      rw [this]
      dsimp only
      have e := sub_one_toInt (n := len) (by omega)
      have hp : (0 : Int) < 2 ^ len := Int.pow_pos (by decide)
      have hq : (2 : Int) ^ len * 2 ^ start ≤ 2 ^ 31 := by
        rw [← Int.pow_add]
        have : 2 ^ (len + start) ≤ 2 ^ 31 := Nat.pow_le_pow_right (by decide) (by omega)
        exact_mod_cast this
      have hr : (0 : Int) < 2 ^ start := Int.pow_pos (by decide)
      rw [ishl_ok _ _ (by omega) (by rw [e]; omega) (by rw [e, Int.sub_mul]; omega)]
      simp only [narrow_shl hw, narrow_sub hw, narrow_one h0 hw]
    · rw [minusOneP_eq hw]; rfl
  unfold bitexch4P bitexch4
  rw [key]
  simp only [C56_bitexch_mask hw, bind, Except.bind, pure, Except.pure, Own_shl, Narrow_shl]
  by_cases hl : len < w
  · simp only [if_pos hl, if_neg (show ¬ 32 ≤ len by omega), if_neg (show ¬ 32 ≤ start by omega)]
    exact ⟨trivial, trivial⟩
  · simp only [if_neg hl]
    exact ⟨trivial, trivial⟩

/-- C56: `_bitexch` of two fields, in both dialects, for all memories, all `len` and offsets up to the width: the same run as the
own-width evaluation and as the function used by the rest of the model. -/
theorem C56_bitexch (d : Dialect) (h0 : 0 < w) (hw : w ≤ 16) (a0 a1 : Int) (s0 s1 len : Nat) (hs0 : s0 ≤ w) (hs1 : s1 ≤ w) :
    bitexch5P d a0 a1 s0 s1 len = bitexch5 (Own w) a0 a1 s0 s1 len ∧
    bitexch5P d a0 a1 s0 s1 len = bitexch5 (Narrow hw) a0 a1 s0 s1 len := by
  unfold bitexch5P bitexch5
  constructor
  · rw [(exchMaskP_eq d h0 hw len).1]
    simp only [(exchStepLP_eq d hw _ _ _ _ s0 (show s0 - s1 ≤ w by omega) hs0).1,
      (exchStepLP_eq d hw _ _ _ _ s1 (show s1 - s0 ≤ w by omega) hs1).1,
      (exchStepRP_eq d hw _ _ _ _ s0 (show s1 - s0 ≤ w by omega) hs0).1,
      (exchStepRP_eq d hw _ _ _ _ s1 (show s0 - s1 ≤ w by omega) hs1).1]
  · rw [(exchMaskP_eq d h0 hw len).2]
    simp only [(exchStepLP_eq d hw _ _ _ _ s0 (show s0 - s1 ≤ w by omega) hs0).2,
      (exchStepLP_eq d hw _ _ _ _ s1 (show s1 - s0 ≤ w by omega) hs1).2,
      (exchStepRP_eq d hw _ _ _ _ s0 (show s1 - s0 ≤ w by omega) hs0).2,
      (exchStepRP_eq d hw _ _ _ _ s1 (show s0 - s1 ≤ w by omega) hs1).2]

/-! ### The `int` operations themselves -/

theorem toInt_of_fits {x : Int} {c : BitVec 32} (hc : c.toInt = x.bmod (2 ^ 32)) : FitsS32 x ↔ c.toInt = x := by
  unfold FitsS32
  rw [hc]
  constructor
  · rintro ⟨h1, h2⟩
    exact Int.bmod_eq_of_le (by omega) (by omega)
  · intro h
    have h1 := Int.le_bmod (x := x) (m := 2 ^ 32) (by decide)
    have h2 := Int.bmod_lt (x := x) (m := 2 ^ 32) (by decide)
    rw [h] at h1 h2
    omega

/-- C56: `a - b` on `int` yields `c` exactly when the mathematical difference is `c`; otherwise it overflows, which is undefined. -/
theorem C56_int_sub (a b c : BitVec 32) :
    (isub a b = .ok c ↔ c.toInt = a.toInt - b.toInt) ∧
    (isub a b = .error .signedOverflow ↔ ¬ ∃ d : BitVec 32, d.toInt = a.toInt - b.toInt) := by
  have h := toInt_of_fits (c := a - b) (BitVec.toInt_sub)
  unfold isub
  by_cases hf : FitsS32 (a.toInt - b.toInt)
  · rw [if_pos hf]
    have e := h.1 hf
    refine ⟨⟨fun h => (by cases h; exact e), fun hc => by rw [BitVec.toInt_inj.1 (hc.trans e.symm)]⟩, ⟨fun h => (by cases h), fun h => absurd ⟨_, e⟩ h⟩⟩
  · rw [if_neg hf]
    have hn : ¬ ∃ d : BitVec 32, d.toInt = a.toInt - b.toInt := by
      rintro ⟨d, hd⟩
      apply hf
      have h1 := BitVec.le_toInt d
      have h2 := BitVec.toInt_lt (x := d)
      unfold FitsS32
      omega
    exact ⟨⟨fun h => (by cases h), fun h => absurd ⟨_, h⟩ hn⟩, ⟨fun _ => hn, fun _ => rfl⟩⟩

/-- C56: the same for `a * b`. -/
theorem C56_int_mul (a b c : BitVec 32) :
    (imul a b = .ok c ↔ c.toInt = a.toInt * b.toInt) ∧
    (imul a b = .error .signedOverflow ↔ ¬ ∃ d : BitVec 32, d.toInt = a.toInt * b.toInt) := by
  have h := toInt_of_fits (c := a * b) (BitVec.toInt_mul a b)
  unfold imul
  by_cases hf : FitsS32 (a.toInt * b.toInt)
  · rw [if_pos hf]
    have e := h.1 hf
    refine ⟨⟨fun h => (by cases h; exact e), fun hc => by rw [BitVec.toInt_inj.1 (hc.trans e.symm)]⟩, ⟨fun h => (by cases h), fun h => absurd ⟨_, e⟩ h⟩⟩
  · rw [if_neg hf]
    have hn : ¬ ∃ d : BitVec 32, d.toInt = a.toInt * b.toInt := by
      rintro ⟨d, hd⟩
      apply hf
      have h1 := BitVec.le_toInt d
      have h2 := BitVec.toInt_lt (x := d)
      unfold FitsS32
      omega
    exact ⟨⟨fun h => (by cases h), fun h => absurd ⟨_, h⟩ hn⟩, ⟨fun _ => hn, fun _ => rfl⟩⟩

/-- C56: the C++17 `<<` on `int`: defined exactly when the count is below 32 and the operand is not negative and the mathematical product
fits `unsigned int`; the result is that product modulo `2^32`. -/
theorem C56_int_shl_cxx17 (a : BitVec 32) (n : Nat) :
    ((∃ c, ishl .cxx17 a n = .ok c) ↔ n < 32 ∧ 0 ≤ a.toInt ∧ a.toNat * 2 ^ n < 2 ^ 32) ∧
    (∀ c, ishl .cxx17 a n = .ok c → c.toNat = a.toNat * 2 ^ n) := by
  have hpos : 0 ≤ a.toInt → a.toInt = a.toNat := fun h => by
    have := BitVec.toInt_eq_toNat_cond a
    have := a.isLt
    split at * <;> omega
  have hcast : (((a.toNat * 2 ^ n : Nat)) : Int) = (a.toNat : Int) * 2 ^ n := by push_cast; rfl
  constructor
  · unfold ishl
    constructor
    · rintro ⟨c, hc⟩
      split at hc
      · cases hc
      · dsimp only at hc
        split at hc
        · rename_i h1 h2
          have h3 := h2.2
          rw [hpos h2.1, ← hcast] at h3
          exact ⟨by omega, h2.1, by omega⟩
        · cases hc
    · rintro ⟨h1, h2, h3⟩
      rw [if_neg (by omega)]
      dsimp only
      rw [if_pos ⟨h2, by rw [hpos h2, ← hcast]; omega⟩]
      exact ⟨_, rfl⟩
  · intro c hc
    unfold ishl at hc
    split at hc
    · cases hc
    · dsimp only at hc
      split at hc
      · rename_i h1 h2
        cases hc
        have h3 := h2.2
        rw [hpos h2.1, ← hcast] at h3
        rw [BitVec.toNat_shiftLeft, Nat.shiftLeft_eq, Nat.mod_eq_of_lt (by omega)]
      · cases hc

/-- C56: the shift semantics of the word types used in the rest of the model. Words of 8 and 16 bits are shifted as `int`. -/
theorem C56_shift_semantics :
    (∀ x n, S8.shl x n = (ishl .cxx20 (promote x) n).map (narrow 8) ∧ S8.shr x n = (ishr (promote x) n).map (narrow 8)) ∧
    (∀ x n, S16.shl x n = (ishl .cxx20 (promote x) n).map (narrow 16) ∧ S16.shr x n = (ishr (promote x) n).map (narrow 16)) ∧
    (∀ x n, S32.shl x n = ishl .cxx20 x n ∧ (S32.shr x n = .error .overshift ↔ 32 ≤ n)) ∧
    (∀ x n, (S64.shl x n = .error .overshift ↔ 64 ≤ n) ∧ (S64.shr x n = .error .overshift ↔ 64 ≤ n)) := by
  refine ⟨fun x n => ?_, fun x n => ?_, fun x n => ?_, fun x n => ?_⟩
  · unfold S8 ShiftSem.shl ShiftSem.shr ShiftSem.strict
    dsimp only
    by_cases h : n < 32
    · rw [if_pos h, if_pos h, ishl_cxx20 _ h, ishr_promote (by omega), if_neg (by omega)]
      exact ⟨by show _ = Except.ok (narrow 8 _); rw [narrow_shl (by omega), narrow_promote (by omega)], by
        show _ = Except.ok (narrow 8 _); rw [narrow_promote (by omega)]⟩
    · unfold ishl ishr
      rw [if_neg h, if_neg h, if_pos (by omega), if_pos (by omega)]
      exact ⟨rfl, rfl⟩
  · unfold S16 ShiftSem.shl ShiftSem.shr ShiftSem.strict
    dsimp only
    by_cases h : n < 32
    · rw [if_pos h, if_pos h, ishl_cxx20 _ h, ishr_promote (by omega), if_neg (by omega)]
      exact ⟨by show _ = Except.ok (narrow 16 _); rw [narrow_shl (by omega), narrow_promote (by omega)], by
        show _ = Except.ok (narrow 16 _); rw [narrow_promote (by omega)]⟩
    · unfold ishl ishr
      rw [if_neg h, if_neg h, if_pos (by omega), if_pos (by omega)]
      exact ⟨rfl, rfl⟩
  · unfold S32 ShiftSem.shl ShiftSem.shr ShiftSem.strict ishl
    dsimp only
    by_cases h : n < 32
    · rw [if_pos h, if_pos h, if_neg (by omega)]
      exact ⟨rfl, ⟨fun h => (by cases h), fun _ => by omega⟩⟩
    · rw [if_neg h, if_neg h, if_pos (by omega)]
      exact ⟨rfl, ⟨fun _ => (by omega), fun _ => rfl⟩⟩
  · unfold S64 ShiftSem.shl ShiftSem.shr ShiftSem.strict
    dsimp only
    by_cases h : n < 64
    · rw [if_pos h, if_pos h]
      exact ⟨⟨fun h => (by cases h), fun _ => by omega⟩, ⟨fun h => (by cases h), fun _ => by omega⟩⟩
    · rw [if_neg h, if_neg h]
      exact ⟨⟨fun _ => (by omega), fun _ => rfl⟩, ⟨fun _ => (by omega), fun _ => rfl⟩⟩

example : isub 0x7fffffff#32 0xffffffff#32 = .error .signedOverflow ∧ isub 5#32 7#32 = .ok 0xfffffffe#32 ∧
    imul 0x10000#32 0x8000#32 = .error .signedOverflow ∧ ishl .cxx17 1#32 31 = .ok 0x80000000#32 :=
  ⟨rfl, rfl, rfl, rfl⟩

end BitLib
