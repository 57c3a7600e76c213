import Verif.Model.Popcnt
import Verif.Lemmas.Query
import Verif.Lemmas.Count
/- Byte decomposition of 64-bit lanes and the population counts of libpopcnt.h on one lane. -/
namespace BitLib

theorem byteAt_toNat (x : BitVec 64) (i : Nat) : (byteAt x i).toNat = x.toNat / 256 ^ i % 256 := rfl

theorem byteAt_getLsbD (x : BitVec 64) (i j : Nat) (hj : j < 8) : (byteAt x i).getLsbD j = x.getLsbD (8 * i + j) := by
  unfold BitVec.getLsbD
  rw [byteAt_toNat]
  rw [show (256 : Nat) ^ i = 2 ^ (8 * i) by rw [Nat.pow_mul], show (256 : Nat) = 2 ^ 8 by rfl, Nat.testBit_mod_two_pow, Nat.testBit_div_two_pow]
  simp [hj, Nat.add_comm]

theorem toNat_bytes (x : BitVec 64) : x.toNat = (byteAt x 0).toNat + (byteAt x 1).toNat * 256 + (byteAt x 2).toNat * 256 ^ 2 +
    (byteAt x 3).toNat * 256 ^ 3 + (byteAt x 4).toNat * 256 ^ 4 + (byteAt x 5).toNat * 256 ^ 5 + (byteAt x 6).toNat * 256 ^ 6 +
    (byteAt x 7).toNat * 256 ^ 7 := by
  have h := x.isLt
  simp only [byteAt_toNat]
  generalize x.toNat = n at h
  simp only [Nat.reducePow] at *
  omega

theorem ofBytes_toNat (f : Nat → BitVec 8) : (ofBytes f).toNat = (f 0).toNat + (f 1).toNat * 256 + (f 2).toNat * 256 ^ 2 + (f 3).toNat * 256 ^ 3 +
    (f 4).toNat * 256 ^ 4 + (f 5).toNat * 256 ^ 5 + (f 6).toNat * 256 ^ 6 + (f 7).toNat * 256 ^ 7 := by
  have h0 := (f 0).isLt
  have h1 := (f 1).isLt
  have h2 := (f 2).isLt
  have h3 := (f 3).isLt
  have h4 := (f 4).isLt
  have h5 := (f 5).isLt
  have h6 := (f 6).isLt
  have h7 := (f 7).isLt
  unfold ofBytes
  rw [BitVec.toNat_ofNat]
  simp only [Nat.reducePow] at *
  omega

/-- Little-endian value of the first `n` bytes. -/
def packed (f : Nat → BitVec 8) : Nat → Nat
  | 0 => 0
  | n+1 => packed f n + (f n).toNat * 256 ^ n

theorem packed_lt (f : Nat → BitVec 8) (n : Nat) : packed f n < 256 ^ n := by
  induction n with
  | zero => exact Nat.one_pos
  | succ n ih =>
    have h := (f n).isLt
    have : (f n).toNat * 256 ^ n ≤ 255 * 256 ^ n := Nat.mul_le_mul_right _ (by omega)
    rw [packed, Nat.pow_succ]
    omega

theorem packed_digit (f : Nat → BitVec 8) (n i : Nat) (h : i < n) : packed f n / 256 ^ i % 256 = (f i).toNat := by
  induction n with
  | zero => omega
  | succ n ih =>
    rw [packed]
    by_cases hi : i = n
    · subst hi
      rw [Nat.add_mul_div_right _ _ (Nat.pow_pos (by decide)), Nat.div_eq_of_lt (packed_lt f i), Nat.zero_add]
      exact Nat.mod_eq_of_lt (f i).isLt
    · obtain ⟨k, rfl⟩ : ∃ k, n = i + 1 + k := ⟨n - i - 1, by omega⟩
      rw [show (f (i + 1 + k)).toNat * 256 ^ (i + 1 + k) = ((f (i + 1 + k)).toNat * 256 ^ k) * 256 * 256 ^ i by
        rw [Nat.pow_add, Nat.pow_succ]; ac_rfl]
      rw [Nat.add_mul_div_right _ _ (Nat.pow_pos (by decide)), Nat.add_mul_mod_self_right]
      exact ih (by omega)

theorem ofBytes_packed (f : Nat → BitVec 8) : (ofBytes f).toNat = packed f 8 := by
  rw [ofBytes_toNat]
  simp only [packed, Nat.pow_zero, Nat.pow_one, Nat.mul_one, Nat.zero_add]

theorem byteAt_ofBytes (f : Nat → BitVec 8) (i : Nat) (hi : i < 8) : byteAt (ofBytes f) i = f i := by
  apply BitVec.eq_of_toNat_eq
  rw [byteAt_toNat, ofBytes_packed, packed_digit f 8 i hi]

/-- Two values with the same bytes are equal. -/
theorem eq_of_bytes {x y : BitVec 64} (h : ∀ i, i < 8 → byteAt x i = byteAt y i) : x = y := by
  apply BitVec.eq_of_toNat_eq
  rw [toNat_bytes x, toNat_bytes y, h 0 (by omega), h 1 (by omega), h 2 (by omega), h 3 (by omega), h 4 (by omega), h 5 (by omega),
    h 6 (by omega), h 7 (by omega)]

theorem popcntBits_split (x : BitVec 64) (i k : Nat) (hk : k ≤ 8) :
    popcntBits x (8 * i + k) = popcntBits x (8 * i) + popcntBits (byteAt x i) k := by
  induction k with
  | zero => rfl
  | succ k ih =>
    show popcntBits x (8 * i + k) + _ = _
    rw [ih (by omega), popcntBits, byteAt_getLsbD x i k (by omega), Nat.add_assoc]
    rfl

theorem popcntBits_bytes (x : BitVec 64) (n : Nat) : popcntBits x (8 * n) = sumTo (fun i => popcntBits (byteAt x i) 8) n := by
  induction n with
  | zero => rfl
  | succ n ih => rw [sumTo, ← ih, Nat.mul_succ, popcntBits_split x n 8 (Nat.le_refl _)]

/-- Number of set bits of a lane. -/
def pop64 (x : BitVec 64) : Nat := popcntBits x 64

theorem pop64_bytes (x : BitVec 64) : pop64 x = sumTo (fun i => popcntBits (byteAt x i) 8) 8 := popcntBits_bytes x 8

theorem popcntBits_le {w : Nat} (x : BitVec w) (n : Nat) : popcntBits x n ≤ n := by
  induction n with
  | zero => exact Nat.le_refl _
  | succ n ih => rw [popcntBits]; split <;> omega

theorem sumTo_congr {f g : Nat → Nat} {n : Nat} (h : ∀ i, i < n → f i = g i) : sumTo f n = sumTo g n := by
  induction n with
  | zero => rfl
  | succ n ih => rw [sumTo, sumTo, ih (fun i hi => h i (by omega)), h n (by omega)]

/-! ### Byte-wise view of the mask steps -/

theorem byteAt_and (x y : BitVec 64) (i : Nat) : byteAt (x &&& y) i = byteAt x i &&& byteAt y i := by
  apply BitVec.eq_of_getLsbD_eq
  intro j hj
  rw [BitVec.getLsbD_and, byteAt_getLsbD _ _ _ hj, byteAt_getLsbD _ _ _ hj, byteAt_getLsbD _ _ _ hj, BitVec.getLsbD_and]

theorem byteAt_m1 (i : Nat) (hi : i < 8) : byteAt 0x5555555555555555#64 i = 0x55#8 := by
  revert i; decide
theorem byteAt_m2 (i : Nat) (hi : i < 8) : byteAt 0x3333333333333333#64 i = 0x33#8 := by
  revert i; decide
theorem byteAt_m4 (i : Nat) (hi : i < 8) : byteAt 0x0F0F0F0F0F0F0F0F#64 i = 0x0F#8 := by
  revert i; decide

/-- A shift followed by a mask that clears the bits shifted in works byte by byte. -/
theorem byteAt_shr_and (x m : BitVec 64) (b : BitVec 8) (n i : Nat) (hb : byteAt m i = b)
    (hm : ∀ j, j < 8 → 8 ≤ j + n → b.getLsbD j = false) :
    byteAt ((x >>> n) &&& m) i = (byteAt x i >>> n) &&& b := by
  apply BitVec.eq_of_getLsbD_eq
  intro j hj
  rw [BitVec.getLsbD_and, byteAt_getLsbD _ _ _ hj, BitVec.getLsbD_and, BitVec.getLsbD_ushiftRight, BitVec.getLsbD_ushiftRight,
    ← byteAt_getLsbD m i j hj, hb]
  by_cases h : 8 ≤ j + n
  · rw [hm j hj h]; simp
  · rw [byteAt_getLsbD x i _ (by omega), show 8 * i + (n + j) = n + (8 * i + j) by omega]

theorem toNat_packed (x : BitVec 64) : x.toNat = packed (byteAt x) 8 := by
  rw [toNat_bytes]
  simp only [packed, Nat.pow_zero, Nat.pow_one, Nat.mul_one, Nat.zero_add]

theorem packed_sub (f g : Nat → BitVec 8) (n : Nat) (h : ∀ i, i < n → (g i).toNat ≤ (f i).toNat) :
    packed (fun i => f i - g i) n + packed g n = packed f n := by
  induction n with
  | zero => rfl
  | succ n ih =>
    have h1 := ih (fun i hi => h i (by omega))
    have h2 := h n (by omega)
    have h3 : (f n - g n).toNat = (f n).toNat - (g n).toNat := BitVec.toNat_sub_of_le (BitVec.le_def.2 h2)
    have h4 : ((f n).toNat - (g n).toNat) * 256 ^ n + (g n).toNat * 256 ^ n = (f n).toNat * 256 ^ n := by
      rw [← Nat.add_mul]; congr 1; omega
    rw [packed, packed, packed, h3]
    omega

theorem packed_add (f g : Nat → BitVec 8) (n : Nat) (h : ∀ i, i < n → (f i).toNat + (g i).toNat < 256) :
    packed (fun i => f i + g i) n = packed f n + packed g n := by
  induction n with
  | zero => rfl
  | succ n ih =>
    have h1 := ih (fun i hi => h i (by omega))
    have h3 : (f n + g n).toNat = (f n).toNat + (g n).toNat := by
      rw [BitVec.toNat_add, Nat.mod_eq_of_lt (h n (by omega))]
    rw [packed, packed, packed, h3, h1, Nat.add_mul]
    omega

/-- No byte borrows: subtraction works byte by byte. -/
theorem byteAt_sub (x y : BitVec 64) (h : ∀ i, i < 8 → (byteAt y i).toNat ≤ (byteAt x i).toNat) (i : Nat) (hi : i < 8) :
    byteAt (x - y) i = byteAt x i - byteAt y i := by
  have e : x - y = ofBytes fun i => byteAt x i - byteAt y i := by
    apply BitVec.eq_of_toNat_eq
    have h1 := packed_sub (byteAt x) (byteAt y) 8 h
    rw [← toNat_packed, ← toNat_packed] at h1
    rw [ofBytes_packed, BitVec.toNat_sub_of_le (BitVec.le_def.2 (by omega))]
    omega
  rw [e, byteAt_ofBytes _ i hi]

/-- No byte carries: addition works byte by byte. -/
theorem byteAt_add (x y : BitVec 64) (h : ∀ i, i < 8 → (byteAt x i).toNat + (byteAt y i).toNat < 256) (i : Nat) (hi : i < 8) :
    byteAt (x + y) i = byteAt x i + byteAt y i := by
  have e : x + y = ofBytes fun i => byteAt x i + byteAt y i := by
    apply BitVec.eq_of_toNat_eq
    have h1 := packed_add (byteAt x) (byteAt y) 8 h
    rw [← toNat_packed, ← toNat_packed] at h1
    have h2 := packed_lt (fun i => byteAt x i + byteAt y i) 8
    rw [show (256 : Nat) ^ 8 = 2 ^ 64 by rfl] at h2
    rw [ofBytes_packed, h1, BitVec.toNat_add, Nat.mod_eq_of_lt (by omega)]
  rw [e, byteAt_ofBytes _ i hi]

/-! ### The population counts of one lane -/

/-- The first step on one byte: no borrow. -/
theorem step1_le : ∀ b : BitVec 8, ((b >>> 1) &&& 0x55#8).toNat ≤ b.toNat := by decide +kernel

/-- One byte after the first two steps. -/
def swar2 (b : BitVec 8) : BitVec 8 :=
  let t := b - ((b >>> 1) &&& 0x55#8)
  (t &&& 0x33#8) + ((t >>> 2) &&& 0x33#8)

theorem step2_lt : ∀ t : BitVec 8, (t &&& 0x33#8).toNat + ((t >>> 2) &&& 0x33#8).toNat < 256 := by decide +kernel

theorem swar2_le : ∀ b : BitVec 8, (swar2 b).toNat % 16 ≤ 4 ∧ (swar2 b).toNat / 16 ≤ 4 := by decide +kernel

theorem swar_pop : ∀ b : BitVec 8, (swar2 b).toNat % 16 + (swar2 b).toNat / 16 = popcntBits b 8 := by decide +kernel

theorem and15 (b : BitVec 8) : (b &&& 0x0F#8).toNat = b.toNat % 16 := by
  rw [BitVec.toNat_and]
  exact Nat.and_two_pow_sub_one_eq_mod b.toNat 4

/-- Top byte of a 64-bit value split into three parts. -/
theorem top_byte (L S A N : Nat) (e : N = L + S * 72057594037927936 + 18446744073709551616 * A) (hl : L < 72057594037927936) (hs : S < 256) :
    N % 18446744073709551616 / 72057594037927936 = S := by omega

/-- The multiplication by `0x0101...` adds up the bytes. -/
theorem mul_h01_nat (b0 b1 b2 b3 b4 b5 b6 b7 : Nat) (l0 : b0 ≤ 8) (l1 : b1 ≤ 8) (l2 : b2 ≤ 8) (l3 : b3 ≤ 8) (l4 : b4 ≤ 8) (l5 : b5 ≤ 8) (l6 : b6 ≤ 8)
    (l7 : b7 ≤ 8) :
    (b0 + b1 * 256 + b2 * 65536 + b3 * 16777216 + b4 * 4294967296 + b5 * 1099511627776 + b6 * 281474976710656 + b7 * 72057594037927936) *
      72340172838076673 % 18446744073709551616 / 72057594037927936 = b0 + b1 + b2 + b3 + b4 + b5 + b6 + b7 := by
  refine top_byte (b0 + (b0 + b1) * 256 + (b0 + b1 + b2) * 65536 + (b0 + b1 + b2 + b3) * 16777216 + (b0 + b1 + b2 + b3 + b4) * 4294967296 +
        (b0 + b1 + b2 + b3 + b4 + b5) * 1099511627776 + (b0 + b1 + b2 + b3 + b4 + b5 + b6) * 281474976710656) _
      ((b1 + b2 + b3 + b4 + b5 + b6 + b7) + (b2 + b3 + b4 + b5 + b6 + b7) * 256 + (b3 + b4 + b5 + b6 + b7) * 65536 +
        (b4 + b5 + b6 + b7) * 16777216 + (b5 + b6 + b7) * 4294967296 + (b6 + b7) * 1099511627776 + b7 * 281474976710656) _ ?_ ?_ ?_
  · omega
  · omega
  · omega

theorem mul_h01 (y : BitVec 64) (h : ∀ i, i < 8 → (byteAt y i).toNat ≤ 8) :
    (y * 0x0101010101010101#64) >>> 56 = BitVec.ofNat 64 (sumTo (fun i => (byteAt y i).toNat) 8) := by
  apply BitVec.eq_of_toNat_eq
  have e := mul_h01_nat _ _ _ _ _ _ _ _ (h 0 (by decide)) (h 1 (by decide)) (h 2 (by decide)) (h 3 (by decide)) (h 4 (by decide)) (h 5 (by decide))
    (h 6 (by decide)) (h 7 (by decide))
  have hy := toNat_bytes y
  simp only [Nat.reducePow] at hy
  rw [← hy] at e
  rw [BitVec.toNat_ushiftRight, BitVec.toNat_mul, BitVec.toNat_ofNat, BitVec.toNat_ofNat, Nat.shiftRight_eq_div_pow]
  simp only [Nat.reducePow, Nat.reduceMod]
  rw [e]
  have s8 : sumTo (fun i => (byteAt y i).toNat) 8 = (byteAt y 0).toNat + (byteAt y 1).toNat + (byteAt y 2).toNat + (byteAt y 3).toNat +
      (byteAt y 4).toNat + (byteAt y 5).toNat + (byteAt y 6).toNat + (byteAt y 7).toNat := by
    simp only [sumTo, Nat.zero_add]
  rw [s8]
  have l0 := h 0 (by decide)
  have l1 := h 1 (by decide)
  have l2 := h 2 (by decide)
  have l3 := h 3 (by decide)
  have l4 := h 4 (by decide)
  have l5 := h 5 (by decide)
  have l6 := h 6 (by decide)
  have l7 := h 7 (by decide)
  refine (Nat.mod_eq_of_lt ?_).symm
  clear e hy s8
  omega

/-- libpopcnt.h:152-164: the integer algorithm counts the set bits of every 64-bit value. -/
theorem popcount64_eq (x : BitVec 64) : popcount64 x = BitVec.ofNat 64 (pop64 x) := by
  unfold popcount64
  dsimp only
  have h1 : ∀ i, i < 8 → byteAt (x - ((x >>> 1) &&& 0x5555555555555555#64)) i = byteAt x i - ((byteAt x i >>> 1) &&& 0x55#8) := by
    intro i hi
    have e : ∀ i, i < 8 → byteAt ((x >>> 1) &&& 0x5555555555555555#64) i = (byteAt x i >>> 1) &&& 0x55#8 :=
      fun i hi => byteAt_shr_and x _ _ 1 i (byteAt_m1 i hi) (by decide)
    rw [byteAt_sub _ _ (fun i hi => by rw [e i hi]; exact step1_le _) i hi, e i hi]
  generalize x - ((x >>> 1) &&& 0x5555555555555555#64) = t at h1
  have h2 : ∀ i, i < 8 → byteAt ((t &&& 0x3333333333333333#64) + ((t >>> 2) &&& 0x3333333333333333#64)) i = swar2 (byteAt x i) := by
    intro i hi
    have e1 : ∀ i, i < 8 → byteAt (t &&& 0x3333333333333333#64) i = byteAt t i &&& 0x33#8 :=
      fun i hi => by rw [byteAt_and, byteAt_m2 i hi]
    have e2 : ∀ i, i < 8 → byteAt ((t >>> 2) &&& 0x3333333333333333#64) i = (byteAt t i >>> 2) &&& 0x33#8 :=
      fun i hi => byteAt_shr_and t _ _ 2 i (byteAt_m2 i hi) (by decide)
    rw [byteAt_add _ _ (fun i hi => by rw [e1 i hi, e2 i hi]; exact step2_lt _) i hi, e1 i hi, e2 i hi, h1 i hi]
    rfl
  generalize (t &&& 0x3333333333333333#64) + ((t >>> 2) &&& 0x3333333333333333#64) = y at h2
  -- byte i of y >>> 4
  have h3 : ∀ i, i < 8 → (byteAt (y >>> 4) i).toNat = (byteAt y i).toNat / 16 + 16 * ((byteAt y (i + 1)).toNat % 16) := by
    intro i _
    have e1 : y.toNat / 2 ^ 4 / 256 ^ i = y.toNat / 256 ^ i / 16 := by
      rw [Nat.div_div_eq_div_mul, Nat.div_div_eq_div_mul, Nat.mul_comm]
      rfl
    have e2 : y.toNat / 256 ^ (i + 1) = y.toNat / 256 ^ i / 256 := by
      rw [Nat.div_div_eq_div_mul, Nat.pow_succ]
    rw [byteAt_toNat, byteAt_toNat, byteAt_toNat, BitVec.toNat_ushiftRight, Nat.shiftRight_eq_div_pow, e1, e2]
    generalize y.toNat / 256 ^ i = q
    omega
  have h4 : ∀ i, (byteAt y i).toNat % 16 ≤ 4 ∧ (byteAt y i).toNat / 16 ≤ 4 := by
    intro i
    by_cases hi : i < 8
    · rw [h2 i hi]; exact swar2_le _
    · have : y.toNat / 256 ^ i = 0 := by
        refine Nat.div_eq_of_lt (Nat.lt_of_lt_of_le y.isLt ?_)
        rw [show (2 : Nat) ^ 64 = 256 ^ 8 by rfl]
        exact Nat.pow_le_pow_right (by decide) (by omega)
      rw [byteAt_toNat, this]
      decide
  have h5 : ∀ i, i < 8 → (byteAt ((y + (y >>> 4)) &&& 0x0F0F0F0F0F0F0F0F#64) i).toNat = popcntBits (byteAt x i) 8 := by
    intro i hi
    have hlt : ∀ i, i < 8 → (byteAt y i).toNat + (byteAt (y >>> 4) i).toNat < 256 := by
      intro i hi
      rw [h3 i hi]
      have := h4 i
      have := h4 (i + 1)
      omega
    rw [byteAt_and, byteAt_m4 i hi, and15, byteAt_add _ _ hlt i hi, BitVec.toNat_add, Nat.mod_eq_of_lt (hlt i hi), h3 i hi,
      ← swar_pop, ← h2 i hi]
    have := h4 i
    omega
  rw [mul_h01 _ (fun i hi => by rw [h5 i hi]; exact popcntBits_le _ _), pop64_bytes]
  congr 1
  exact sumTo_congr h5

/-! ### Vector lanes -/

theorem halfAt_getLsbD (x : BitVec 64) (i j : Nat) (hj : j < 16) : (halfAt x i).getLsbD j = x.getLsbD (16 * i + j) := by
  unfold BitVec.getLsbD halfAt
  rw [BitVec.toNat_ofNat, show (65536 : Nat) ^ i = 2 ^ (16 * i) by rw [Nat.pow_mul], Nat.testBit_mod_two_pow, Nat.testBit_div_two_pow]
  simp [hj, Nat.add_comm]

/-- Bytes of a value given by 16-bit elements. -/
theorem srli16_bytes (x : BitVec 64) (n : Nat) (k : Nat) (hk : k < 4) :
    (byteAt (srli16 x n) (2 * k)).toNat = (halfAt x k >>> n).toNat % 256 ∧
    (byteAt (srli16 x n) (2 * k + 1)).toNat = (halfAt x k >>> n).toNat / 256 := by
  have hb : ∀ k, (halfAt x k >>> n).toNat < 65536 := fun k => (halfAt x k >>> n).isLt
  have e : srli16 x n = ofBytes fun i => BitVec.ofNat 8 ((halfAt x (i / 2) >>> n).toNat / 256 ^ (i % 2)) := by
    apply BitVec.eq_of_toNat_eq
    have h0 := hb 0
    have h1 := hb 1
    have h2 := hb 2
    have h3 := hb 3
    rw [ofBytes_toNat]
    unfold srli16
    simp only [BitVec.toNat_ofNat, Nat.reduceDiv, Nat.reduceMod, Nat.pow_zero, Nat.pow_one, Nat.div_one, Nat.zero_div, Nat.zero_mod]
    simp only [Nat.reducePow]
    generalize (halfAt x 0 >>> n).toNat = a0 at *
    generalize (halfAt x 1 >>> n).toNat = a1 at *
    generalize (halfAt x 2 >>> n).toNat = a2 at *
    generalize (halfAt x 3 >>> n).toNat = a3 at *
    omega
  have h := hb k
  constructor
  · rw [e, byteAt_ofBytes _ _ (by omega), BitVec.toNat_ofNat, show 2 * k / 2 = k by omega, show 2 * k % 2 = 0 by omega]
    simp
  · rw [e, byteAt_ofBytes _ _ (by omega), BitVec.toNat_ofNat, show (2 * k + 1) / 2 = k by omega, show (2 * k + 1) % 2 = 1 by omega]
    simp only [Nat.pow_one]
    omega

/-- Bits of the 16-bit shift. -/
theorem srli16_getLsbD (x : BitVec 64) (n k j : Nat) (hk : k < 8) (hj : j < 8) (hn : j + n < 8) :
    (byteAt (srli16 x n) k).getLsbD j = (byteAt x k).getLsbD (n + j) := by
  rw [byteAt_getLsbD x k (n + j) (by omega)]
  have h := srli16_bytes x n (k / 2) (by omega)
  unfold BitVec.getLsbD at *
  by_cases he : k % 2 = 0
  · rw [show k = 2 * (k / 2) by omega, h.1, show (256 : Nat) = 2 ^ 8 by rfl, Nat.testBit_mod_two_pow]
    have := halfAt_getLsbD x (k / 2) (n + j) (by omega)
    unfold BitVec.getLsbD at this
    rw [BitVec.toNat_ushiftRight, Nat.testBit_shiftRight, this]
    simp only [hj, decide_true, Bool.true_and]
    congr 1
    omega
  · rw [show k = 2 * (k / 2) + 1 by omega, h.2, show (256 : Nat) = 2 ^ 8 by rfl, Nat.testBit_div_two_pow]
    have := halfAt_getLsbD x (k / 2) (n + (j + 8)) (by omega)
    unfold BitVec.getLsbD at this
    rw [BitVec.toNat_ushiftRight, Nat.testBit_shiftRight, this]
    congr 1
    omega

/-- A 16-bit shift followed by a mask that clears the bits from the neighbouring byte works byte by byte. -/
theorem byteAt_srli16_and (x m : BitVec 64) (b : BitVec 8) (n i : Nat) (hi : i < 8) (hb : byteAt m i = b)
    (hm : ∀ j, j < 8 → 8 ≤ j + n → b.getLsbD j = false) :
    byteAt (srli16 x n &&& m) i = (byteAt x i >>> n) &&& b := by
  apply BitVec.eq_of_getLsbD_eq
  intro j hj
  rw [byteAt_and, hb, BitVec.getLsbD_and, BitVec.getLsbD_and, BitVec.getLsbD_ushiftRight]
  by_cases h : 8 ≤ j + n
  · rw [hm j hj h]; simp
  · rw [srli16_getLsbD x n i j hi hj (by omega)]

theorem byteAt_mapBytes (f : BitVec 8 → BitVec 8) (x : BitVec 64) (i : Nat) (hi : i < 8) : byteAt (mapBytes f x) i = f (byteAt x i) :=
  byteAt_ofBytes _ i hi

theorem byteAt_zipBytes (f : BitVec 8 → BitVec 8 → BitVec 8) (x y : BitVec 64) (i : Nat) (hi : i < 8) :
    byteAt (zipBytes f x y) i = f (byteAt x i) (byteAt y i) := byteAt_ofBytes _ i hi

/-- The table lookups of `popcnt256` on one byte. -/
theorem lookup_pop : ∀ b : BitVec 8,
    let lo := b &&& 0x0F#8
    let hi := (b >>> 4) &&& 0x0F#8
    let p1 := if lo.getLsbD 7 then 0#8 else BitVec.ofNat 8 ([4, 5, 5, 6, 5, 6, 6, 7, 5, 6, 6, 7, 6, 7, 7, 8].getD (lo.toNat % 16) 0)
    let p2 := if hi.getLsbD 7 then 0#8 else BitVec.ofNat 8 ([4, 3, 3, 2, 3, 2, 2, 1, 3, 2, 2, 1, 2, 1, 1, 0].getD (hi.toNat % 16) 0)
    (p1.toNat - p2.toNat) + (p2.toNat - p1.toNat) = popcntBits b 8 := by decide +kernel

/-- libpopcnt.h:362-385: `popcnt256` counts the set bits of every lane. -/
theorem popcnt256_eq (v : BitVec 64) : popcnt256 v = BitVec.ofNat 64 (pop64 v) := by
  unfold popcnt256 sad8
  dsimp only
  rw [pop64_bytes]
  congr 1
  refine sumTo_congr fun i hi => ?_
  unfold shuffle8
  rw [byteAt_mapBytes _ _ i hi, byteAt_mapBytes _ _ i hi, byteAt_and, byteAt_m4 i hi,
    byteAt_srli16_and v _ _ 4 i hi (byteAt_m4 i hi) (by decide)]
  exact lookup_pop (byteAt v i)

theorem byteAt_zero (i : Nat) : byteAt 0#64 i = 0#8 := by
  apply BitVec.eq_of_toNat_eq
  rw [byteAt_toNat]
  simp

/-- The last step of `popcnt512` on one byte: only the low nibble of the shifted value matters. -/
theorem nibble_add (b c : BitVec 8) (h : c.toNat % 16 = b.toNat / 16) (hb : b.toNat % 16 ≤ 4 ∧ b.toNat / 16 ≤ 4) :
    ((b + c) &&& 0x0F#8).toNat = b.toNat % 16 + b.toNat / 16 := by
  rw [and15, BitVec.toNat_add]
  omega

/-- libpopcnt.h:458-472: `popcnt512` counts the set bits of every lane. -/
theorem popcnt512_eq (v : BitVec 64) : popcnt512 v = BitVec.ofNat 64 (pop64 v) := by
  unfold popcnt512 sad8
  dsimp only
  rw [pop64_bytes]
  congr 1
  refine sumTo_congr fun i hi => ?_
  have h1 : byteAt (zipBytes (· - ·) v (srli16 v 1 &&& 0x5555555555555555#64)) i = byteAt v i - ((byteAt v i >>> 1) &&& 0x55#8) := by
    rw [byteAt_zipBytes _ _ _ i hi, byteAt_srli16_and v _ _ 1 i hi (byteAt_m1 i hi) (by decide)]
  generalize zipBytes (· - ·) v (srli16 v 1 &&& 0x5555555555555555#64) = t at h1
  have h2 : byteAt (zipBytes (· + ·) (t &&& 0x3333333333333333#64) (srli16 t 2 &&& 0x3333333333333333#64)) i = swar2 (byteAt v i) := by
    rw [byteAt_zipBytes _ _ _ i hi, byteAt_and, byteAt_m2 i hi, byteAt_srli16_and t _ _ 2 i hi (byteAt_m2 i hi) (by decide), h1]
    rfl
  generalize zipBytes (· + ·) (t &&& 0x3333333333333333#64) (srli16 t 2 &&& 0x3333333333333333#64) = y at h2
  have h3 : (byteAt (srli16 y 4) i).toNat % 16 = (byteAt y i).toNat / 16 := by
    have e := congrArg BitVec.toNat (byteAt_srli16_and y _ _ 4 i hi (byteAt_m4 i hi) (by decide))
    rw [byteAt_and, byteAt_m4 i hi, and15, and15, BitVec.toNat_ushiftRight, Nat.shiftRight_eq_div_pow] at e
    have := (byteAt y i).isLt
    omega
  rw [byteAt_zero, byteAt_and, byteAt_m4 i hi, byteAt_zipBytes _ _ _ i hi, nibble_add _ _ h3 (by rw [h2]; exact swar2_le _), h2, swar_pop]
  simp

/-- A full adder keeps the weighted number of bits. -/
theorem csa_count (a b c h l : BitVec 64) (hh : ∀ i, h.getLsbD i = (a.getLsbD i && b.getLsbD i || (a.getLsbD i ^^ b.getLsbD i) && c.getLsbD i))
    (hl : ∀ i, l.getLsbD i = (a.getLsbD i ^^ b.getLsbD i ^^ c.getLsbD i)) : pop64 a + pop64 b + pop64 c = 2 * pop64 h + pop64 l := by
  suffices hn : ∀ n, popcntBits a n + popcntBits b n + popcntBits c n = 2 * popcntBits h n + popcntBits l n from hn 64
  intro n
  induction n with
  | zero => rfl
  | succ n ih =>
    simp only [popcntBits]
    rw [hh n, hl n]
    cases a.getLsbD n <;> cases b.getLsbD n <;> cases c.getLsbD n <;> simp <;> omega

theorem csa256_count (a b c : BitVec 64) : pop64 a + pop64 b + pop64 c = 2 * pop64 (csa256 a b c).1 + pop64 (csa256 a b c).2 :=
  csa_count a b c _ _ (fun i => by simp [csa256]) (fun i => by simp [csa256])

theorem minterm_getLsbD (k : Nat) (a b c : BitVec 64) (i : Nat) (hi : i < 64) : (minterm k a b c).getLsbD i =
    ((a.getLsbD i == k.testBit 2) && (b.getLsbD i == k.testBit 1) && (c.getLsbD i == k.testBit 0)) := by
  unfold minterm
  rw [BitVec.getLsbD_and, BitVec.getLsbD_and]
  cases k.testBit 2 <;> cases k.testBit 1 <;> cases k.testBit 0 <;> simp [hi]

theorem csa512_count (a b c : BitVec 64) : pop64 a + pop64 b + pop64 c = 2 * pop64 (csa512 a b c).1 + pop64 (csa512 a b c).2 := by
  have key : ∀ i, (csa512 a b c).1.getLsbD i = (a.getLsbD i && b.getLsbD i || (a.getLsbD i ^^ b.getLsbD i) && c.getLsbD i) ∧
      (csa512 a b c).2.getLsbD i = (a.getLsbD i ^^ b.getLsbD i ^^ c.getLsbD i) := by
    intro i
    by_cases hi : i < 64
    · unfold csa512 ternlog
      simp only [Nat.testBit, Nat.reduceShiftRight, Nat.reduceAnd, Nat.reduceBNe, BitVec.getLsbD_or]
      simp only [Bool.false_eq_true, if_false, if_true, minterm_getLsbD _ _ _ _ _ hi, BitVec.getLsbD_zero, Nat.testBit, Nat.reduceShiftRight,
        Nat.reduceAnd, Nat.reduceBNe]
      cases a.getLsbD i <;> cases b.getLsbD i <;> cases c.getLsbD i <;> simp
    · rw [BitVec.getLsbD_of_ge _ _ (by omega), BitVec.getLsbD_of_ge _ _ (by omega), BitVec.getLsbD_of_ge _ _ (by omega),
        BitVec.getLsbD_of_ge _ _ (by omega), BitVec.getLsbD_of_ge _ _ (by omega)]
      exact ⟨rfl, rfl⟩
  exact csa_count a b c _ _ (fun i => (key i).1) (fun i => (key i).2)

end BitLib
