import Verif.Model.Promotion
/- Truncation commutes with the operators, and promoted values never overflow. -/
namespace BitLib
variable {w : Nat}

theorem narrow_promote (hw : w ≤ 16) (x : BitVec w) : narrow w (promote x) = x := by
  apply BitVec.eq_of_getLsbD_eq
  intro i hi
  simp only [narrow, promote, BitVec.getLsbD_setWidth]
  simp [hi, show i < 32 by omega]

theorem narrow_xor (a b : BitVec 32) : narrow w (a ^^^ b) = narrow w a ^^^ narrow w b := BitVec.setWidth_xor
theorem narrow_and (a b : BitVec 32) : narrow w (a &&& b) = narrow w a &&& narrow w b := BitVec.setWidth_and
theorem narrow_or (a b : BitVec 32) : narrow w (a ||| b) = narrow w a ||| narrow w b := BitVec.setWidth_or

theorem narrow_shl (hw : w ≤ 16) (a : BitVec 32) (n : Nat) : narrow w (a <<< n) = narrow w a <<< n := by
  apply BitVec.eq_of_getLsbD_eq
  intro i hi
  simp only [narrow, BitVec.getLsbD_setWidth, BitVec.getLsbD_shiftLeft]
  simp only [hi, show i < 32 by omega, show i - n < w by omega, decide_true, Bool.true_and]

theorem narrow_mul (hw : w ≤ 16) (a b : BitVec 32) : narrow w (a * b) = narrow w a * narrow w b :=
  BitVec.setWidth_mul a b (by omega)

theorem narrow_sub (hw : w ≤ 16) (a b : BitVec 32) : narrow w (a - b) = narrow w a - narrow w b := by
  apply BitVec.eq_of_toNat_eq
  obtain ⟨k, hk⟩ : ∃ k, 2 ^ 32 = 2 ^ w * k := Nat.pow_dvd_pow 2 (by omega)
  have hp : 0 < 2 ^ w := Nat.two_pow_pos w
  have ha := a.isLt
  have hb := b.isLt
  simp only [narrow, BitVec.toNat_setWidth, BitVec.toNat_sub]
  rw [Nat.mod_mod_of_dvd _ ⟨k, hk⟩]
  have h2 := Nat.div_add_mod b.toNat (2 ^ w)
  have hlt := Nat.mod_lt b.toNat hp
  generalize hq : b.toNat / 2 ^ w = q at *
  generalize hr : b.toNat % 2 ^ w = r at *
  have hqk : q < k := by
    refine Nat.lt_of_mul_lt_mul_left (a := 2 ^ w) ?_
    omega
  have e : 2 ^ 32 - b.toNat + a.toNat = (2 ^ w - r + a.toNat) + 2 ^ w * (k - q - 1) := by
    have h3 : 2 ^ w * k = 2 ^ w * q + 2 ^ w + 2 ^ w * (k - q - 1) := by
      rw [← Nat.mul_succ, ← Nat.mul_add]; congr 1; omega
    omega
  rw [e, Nat.add_mul_mod_self_left]
  rw [Nat.add_mod (2 ^ w - r) a.toNat, Nat.add_mod (2 ^ w - r) (a.toNat % 2 ^ w), Nat.mod_mod]

theorem narrow_bool (b : Bool) : narrow w (promoteBool b) = boolWord b := by
  cases b
  · simp [narrow, promoteBool, boolWord]
  · simp only [narrow, promoteBool, boolWord, if_true]
    apply BitVec.eq_of_toNat_eq
    simp only [BitVec.toNat_setWidth, BitVec.toNat_ofNat]

theorem promote_toNat (hw : w ≤ 16) (x : BitVec w) : (promote x).toNat = x.toNat := by
  have h1 := x.isLt
  have h2 : 2 ^ w ≤ 2 ^ 16 := Nat.pow_le_pow_right (by decide) hw
  simp only [promote, BitVec.toNat_setWidth]
  exact Nat.mod_eq_of_lt (by omega)

theorem promote_toInt (hw : w ≤ 16) (x : BitVec w) : (promote x).toInt = x.toNat := by
  have h1 := x.isLt
  have h2 : 2 ^ w ≤ 2 ^ 16 := Nat.pow_le_pow_right (by decide) hw
  have h3 := promote_toNat hw x
  rw [BitVec.toInt_eq_toNat_cond, if_pos (by omega), h3]

theorem promote_one (h0 : 0 < w) : promote (1#w) = 1#32 := by
  apply BitVec.eq_of_toNat_eq
  simp only [promote, BitVec.toNat_setWidth, BitVec.toNat_ofNat]
  rw [Nat.mod_eq_of_lt (show 1 < 2 ^ w from Nat.one_lt_two_pow (by omega))]

theorem imul_bool (a : BitVec 32) (b : Bool) : imul a (promoteBool b) = .ok (a * promoteBool b) := by
  have h1 := BitVec.le_toInt a
  have h2 := BitVec.toInt_lt (x := a)
  unfold imul
  refine if_pos ?_
  unfold FitsS32
  cases b
  · rw [show (promoteBool false).toInt = 0 by decide]; omega
  · rw [show (promoteBool true).toInt = 1 by decide]; omega

theorem isub_ok {a b : BitVec 32} (h : FitsS32 (a.toInt - b.toInt)) : isub a b = .ok (a - b) := if_pos h

theorem ishr_promote (hw : w ≤ 16) (x : BitVec w) (n : Nat) :
    ishr (promote x) n = if 32 ≤ n then .error .overshift else .ok (promote (x >>> n)) := by
  unfold ishr
  split
  · rfl
  · congr 1
    rw [BitVec.sshiftRight_eq_of_msb_false]
    · apply BitVec.eq_of_toNat_eq
      rw [promote_toNat hw, BitVec.toNat_ushiftRight, promote_toNat hw, BitVec.toNat_ushiftRight]
    · rw [BitVec.msb_eq_toInt, promote_toInt hw]
      exact decide_eq_false (by omega)

theorem ishl_over {d : Dialect} (a : BitVec 32) {n : Nat} (h : 32 ≤ n) : ishl d a n = .error .overshift := by
  unfold ishl; rw [if_pos h]

theorem ishl_cxx20 (a : BitVec 32) {n : Nat} (h : n < 32) : ishl .cxx20 a n = .ok (a <<< n) := by
  unfold ishl; rw [if_neg (by omega)]

/-- A non-negative operand whose shifted value fits `unsigned int` is shifted in both dialects. -/
theorem ishl_ok (d : Dialect) (a : BitVec 32) {n : Nat} (h : n < 32) (h0 : 0 ≤ a.toInt) (h1 : a.toInt * 2 ^ n < 2 ^ 32) :
    ishl d a n = .ok (a <<< n) := by
  unfold ishl; rw [if_neg (by omega)]
  cases d
  · rw [if_pos ⟨h0, h1⟩]
  · rfl

/-- A word shifted by at most 16 fits `unsigned int`. -/
theorem ishl_word (d : Dialect) (hw : w ≤ 16) (x : BitVec w) {n : Nat} (h : n ≤ 16) :
    ishl d (promote x) n = .ok (promote x <<< n) := by
  refine ishl_ok d _ (by omega) (by rw [promote_toInt hw]; omega) ?_
  rw [promote_toInt hw]
  have h1 := x.isLt
  have h2 : 2 ^ w ≤ 2 ^ 16 := Nat.pow_le_pow_right (by decide) hw
  have h3 : 2 ^ n ≤ 2 ^ 16 := Nat.pow_le_pow_right (by decide) h
  have h4 : x.toNat * 2 ^ n ≤ (2 ^ 16 - 1) * 2 ^ 16 := Nat.mul_le_mul (by omega) h3
  exact_mod_cast (show x.toNat * 2 ^ n < 2 ^ 32 by omega)

theorem one_shl_toInt {n : Nat} (h : n < 31) : (1#32 <<< n).toInt = 2 ^ n := by
  have h2 : 2 ^ n < 2 ^ 31 := Nat.pow_lt_pow_right (by decide) h
  have h3 : (1#32 <<< n).toNat = 2 ^ n := by
    rw [BitVec.toNat_shiftLeft, BitVec.toNat_ofNat, Nat.mod_eq_of_lt (show 1 < 2 ^ 32 by decide), Nat.shiftLeft_eq, Nat.one_mul]
    exact Nat.mod_eq_of_lt (by omega)
  rw [BitVec.toInt_eq_toNat_cond, if_pos (by omega), h3]
  exact_mod_cast rfl

/-- The `int` mask before the final shift: `2^len - 1`, or `-1` when `len >= digits`. -/
theorem sub_one_toInt {n : Nat} (h : n < 31) : (1#32 <<< n - 1#32).toInt = 2 ^ n - 1 := by
  have h2 : 2 ^ n < 2 ^ 31 := Nat.pow_lt_pow_right (by decide) h
  have h0 : 0 < 2 ^ n := Nat.two_pow_pos n
  have e := one_shl_toInt h
  rw [BitVec.toInt_sub, e, show (1#32).toInt = 1 by decide]
  have : ((2 ^ n : Nat) : Int) = 2 ^ n := by norm_cast
  rw [← this]
  rw [Int.bmod_eq_of_le] <;> omega

theorem minusOneP_eq (hw : w ≤ 16) : minusOneP w = BitVec.allOnes w := by
  apply BitVec.eq_of_getLsbD_eq
  intro i hi
  have : BitVec.ofInt 32 (-1) = BitVec.allOnes 32 := by decide
  simp only [minusOneP, this, narrow, BitVec.getLsbD_setWidth, BitVec.getLsbD_allOnes]
  simp [hi, show i < 32 by omega]

/-- Arithmetic at the word's own width: every shift is defined. -/
def Own (w : Nat) : ShiftSem w where
  pw := w
  le_pw := Nat.le_refl w
  overShl := fun x n => .ok (x <<< n)
  overShr := fun x n => .ok (x >>> n)

/-- Shift rules used by the rest of the model for words narrower than `int`. -/
def Narrow (hw : w ≤ 16) : ShiftSem w := .strict 32 (by omega)

theorem Own_shl (x : BitVec w) (n : Nat) : (Own w).shl x n = .ok (x <<< n) := by
  unfold ShiftSem.shl; split <;> rfl

theorem Own_shr (x : BitVec w) (n : Nat) : (Own w).shr x n = .ok (x >>> n) := by
  unfold ShiftSem.shr; split <;> rfl

theorem Narrow_shl (hw : w ≤ 16) (x : BitVec w) (n : Nat) :
    (Narrow hw).shl x n = if 32 ≤ n then .error .overshift else .ok (x <<< n) := by
  unfold ShiftSem.shl
  by_cases h : n < 32
  · rw [if_pos (show n < (Narrow hw).pw from h), if_neg (by omega)]
  · rw [if_neg (show ¬ n < (Narrow hw).pw from h), if_pos (by omega)]; rfl

theorem Narrow_shr (hw : w ≤ 16) (x : BitVec w) (n : Nat) :
    (Narrow hw).shr x n = if 32 ≤ n then .error .overshift else .ok (x >>> n) := by
  unfold ShiftSem.shr
  by_cases h : n < 32
  · rw [if_pos (show n < (Narrow hw).pw from h), if_neg (by omega)]
  · rw [if_neg (show ¬ n < (Narrow hw).pw from h), if_pos (by omega)]; rfl

/-- The `int` value of `(one << len) * (len < digits) - one` never overflows. -/
theorem mask_isub (h0 : 0 < w) (hw : w ≤ 16) (len : Nat) :
    isub ((1#32 <<< len) * promoteBool (decide (len < w))) (promote (1#w)) =
      .ok ((1#32 <<< len) * promoteBool (decide (len < w)) - 1#32) := by
  rw [promote_one h0]
  refine isub_ok ?_
  by_cases h : len < w
  · have e := one_shl_toInt (n := len) (by omega)
    have h2 : 2 ^ len < 2 ^ 31 := Nat.pow_lt_pow_right (by decide) (by omega)
    have h3 : 0 < 2 ^ len := Nat.two_pow_pos len
    have : ((2 ^ len : Nat) : Int) = 2 ^ len := by norm_cast
    rw [decide_eq_true h, show promoteBool true = 1#32 from rfl, BitVec.mul_one, e, show (1#32).toInt = 1 by decide, ← this]
    unfold FitsS32; omega
  · rw [decide_eq_false h, show promoteBool false = 0#32 from rfl, BitVec.mul_zero]
    decide

theorem one_isub (h0 : 0 < w) {len : Nat} (h : len < 31) :
    isub (1#32 <<< len) (promote (1#w)) = .ok (1#32 <<< len - 1#32) := by
  rw [promote_one h0]
  refine isub_ok ?_
  have e := one_shl_toInt h
  have h2 : 2 ^ len < 2 ^ 31 := Nat.pow_lt_pow_right (by decide) h
  have h3 : 0 < 2 ^ len := Nat.two_pow_pos len
  have : ((2 ^ len : Nat) : Int) = 2 ^ len := by norm_cast
  rw [e, show (1#32).toInt = 1 by decide, ← this]
  unfold FitsS32; omega

theorem narrow_one (h0 : 0 < w) (hw : w ≤ 16) : narrow w 1#32 = 1#w := by
  rw [← promote_one h0, narrow_promote hw]

theorem lift_ok {α : Type} (x : α) : lift (w := w) (.ok x) = pure x := rfl

theorem exchMaskP_eq (d : Dialect) (h0 : 0 < w) (hw : w ≤ 16) (len : Nat) :
    exchMaskP d len = exchMask (Own w) len ∧ exchMaskP d len = exchMask (Narrow hw) len := by
  unfold exchMaskP exchMask
  simp only [bind, Except.bind, pure, Except.pure, Own_shl, Narrow_shl]
  split
  · rw [ishl_word _ hw _ (by omega), promote_one h0]
    dsimp only
    have := one_isub h0 (len := len) (by omega)
    rw [promote_one h0] at this
    rw [this]
    simp only [narrow_shl hw, narrow_sub hw, narrow_one h0 hw, if_neg (show ¬ 32 ≤ len by omega)]
    exact ⟨trivial, trivial⟩
  · rw [minusOneP_eq hw]; exact ⟨rfl, rfl⟩

theorem exchStepLP_eq (d : Dialect) (hw : w ≤ 16) (a b : Int) (n : Nat) (k : BitVec w) (start : Nat) (hn : n ≤ w) (hs : start ≤ w) :
    exchStepLP d a b n k start = exchStepL (Own w) a b n k start ∧
    exchStepLP d a b n k start = exchStepL (Narrow hw) a b n k start := by
  unfold exchStepLP exchStepL
  simp only [ishl_word d hw _ (show n ≤ 16 by omega), ishl_word d hw _ (show start ≤ 16 by omega), Own_shl, Narrow_shl,
    if_neg (show ¬ 32 ≤ n by omega), if_neg (show ¬ 32 ≤ start by omega), lift_ok, pure_bind,
    narrow_xor, narrow_and, narrow_promote hw, narrow_shl hw]
  exact ⟨trivial, trivial⟩

theorem exchStepRP_eq (d : Dialect) (hw : w ≤ 16) (a b : Int) (n : Nat) (k : BitVec w) (start : Nat) (hn : n ≤ w) (hs : start ≤ w) :
    exchStepRP d a b n k start = exchStepR (Own w) a b n k start ∧
    exchStepRP d a b n k start = exchStepR (Narrow hw) a b n k start := by
  unfold exchStepRP exchStepR
  simp only [ishr_promote hw, ishl_word d hw _ (show start ≤ 16 by omega), Own_shl, Own_shr, Narrow_shl, Narrow_shr,
    if_neg (show ¬ 32 ≤ n by omega), if_neg (show ¬ 32 ≤ start by omega), lift_ok, pure_bind,
    narrow_xor, narrow_and, narrow_promote hw, narrow_shl hw]
  exact ⟨trivial, trivial⟩

end BitLib
