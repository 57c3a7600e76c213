import Verif.Model.Details
import Verif.Lemmas.Iter
import Mathlib.Tactic.SplitIfs
import Mathlib.Tactic.DefEqTransformations
/- Bit level specifications of the word primitives and of `get_word` / `write_word`. -/
namespace BitLib
variable {w : Nat}

theorem ShiftSem.shl_ok (S : ShiftSem w) {x : BitVec w} {n : Nat} (h : n < w) :
    S.shl x n = .ok (x <<< n) := by
  unfold shl
  rw [if_pos (Nat.lt_of_lt_of_le h S.le_pw)]

theorem ShiftSem.shr_ok (S : ShiftSem w) {x : BitVec w} {n : Nat} (h : n < w) :
    S.shr x n = .ok (x >>> n) := by
  unfold shr
  rw [if_pos (Nat.lt_of_lt_of_le h S.le_pw)]

theorem ShiftSem.shl_ok' (S : ShiftSem w) {x : BitVec w} {n : Nat} (h : n < S.pw ∨ S.Lenient) :
    ∃ y, S.shl x n = .ok y ∧ (n < S.pw → y = x <<< n) := by
  unfold shl
  by_cases hn : n < S.pw
  · rw [if_pos hn]; exact ⟨_, rfl, fun _ => rfl⟩
  · rw [if_neg hn]
    obtain ⟨y, hy⟩ := ((h.resolve_left hn) x n).1
    exact ⟨y, hy, fun h' => absurd h' hn⟩

theorem ShiftSem.shr_ok' (S : ShiftSem w) {x : BitVec w} {n : Nat} (h : n < S.pw ∨ S.Lenient) :
    ∃ y, S.shr x n = .ok y ∧ (n < S.pw → y = x >>> n) := by
  unfold shr
  by_cases hn : n < S.pw
  · rw [if_pos hn]; exact ⟨_, rfl, fun _ => rfl⟩
  · rw [if_neg hn]
    obtain ⟨y, hy⟩ := ((h.resolve_left hn) x n).2
    exact ⟨y, hy, fun h' => absurd h' hn⟩

theorem lt_two_pow_self (w : Nat) : w < 2 ^ w := Nat.lt_two_pow_self

/-- Bits of `(1 << n) - 1`. -/
theorem getLsbD_lowMask (n i : Nat) (hi : i < w) :
    ((1#w <<< n) - 1#w).getLsbD i = decide (i < n) := by
  have hw : 0 < w := by omega
  have h1 : (1#w).toNat = 1 := by
    simp only [BitVec.toNat_ofNat]
    exact Nat.mod_eq_of_lt (Nat.one_lt_two_pow (by omega))
  by_cases hn : n < w
  · have h2 : (1#w <<< n).toNat = 2 ^ n := by
      rw [BitVec.toNat_shiftLeft, h1, Nat.shiftLeft_eq, Nat.one_mul]
      exact Nat.mod_eq_of_lt (Nat.pow_lt_pow_right (by omega) hn)
    have h3 : ((1#w <<< n) - 1#w).toNat = 2 ^ n - 1 := by
      rw [BitVec.toNat_sub, h1, h2]
      have hp : 0 < 2 ^ n := Nat.two_pow_pos n
      have hlt : 2 ^ n < 2 ^ w := Nat.pow_lt_pow_right (by omega) hn
      rw [show 2 ^ w - 1 + 2 ^ n = (2 ^ n - 1) + 2 ^ w by omega, Nat.add_mod_right]
      exact Nat.mod_eq_of_lt (by omega)
    rw [← BitVec.testBit_toNat, h3, Nat.testBit_two_pow_sub_one]
  · have h2 : (1#w <<< n) = 0#w := by
      apply BitVec.eq_of_getLsbD_eq
      intro j hj
      simp [show j < n by omega]
    rw [h2, BitVec.zero_sub, ← BitVec.testBit_toNat]
    have h3 : (-1#w).toNat = 2 ^ w - 1 := by
      rw [BitVec.toNat_neg, h1]
      exact Nat.mod_eq_of_lt (by have := Nat.two_pow_pos w; omega)
    rw [h3, Nat.testBit_two_pow_sub_one]
    simp; omega

theorem getLsbD_blend_mask (a b k : BitVec w) (i : Nat) :
    (a ^^^ ((a ^^^ b) &&& k)).getLsbD i = if k.getLsbD i then b.getLsbD i else a.getLsbD i := by
  simp only [BitVec.getLsbD_xor, BitVec.getLsbD_and]
  cases a.getLsbD i <;> cases b.getLsbD i <;> cases k.getLsbD i <;> rfl

theorem bitblend3_getLsbD (a b k : BitVec w) (i : Nat) :
    (bitblend3 a b k).getLsbD i = if k.getLsbD i then b.getLsbD i else a.getLsbD i :=
  getLsbD_blend_mask a b k i

theorem boolWord_true_mul (x : BitVec w) : x * boolWord true = x := by
  unfold boolWord; simp

theorem boolWord_false_mul (x : BitVec w) : x * boolWord false = 0#w := by
  unfold boolWord; simp

/-- The mask computation of `_bitblend`/`_bextr`, whatever an oversized shift returns. -/
theorem mask_ok (S : ShiftSem w) (len : Nat) (hl : len < S.pw ∨ S.Lenient) :
    ∃ a, S.shl 1#w len = .ok a ∧ ∀ i, i < w →
      (a * boolWord (decide (len < w)) - 1#w).getLsbD i = decide (i < len) := by
  obtain ⟨a, ha, hv⟩ := S.shl_ok' (x := 1#w) hl
  refine ⟨a, ha, ?_⟩
  intro i hi
  by_cases h : len < w
  · rw [decide_eq_true h, boolWord_true_mul, hv (Nat.lt_of_lt_of_le h S.le_pw)]
    exact getLsbD_lowMask len i hi
  · rw [decide_eq_false h, boolWord_false_mul]
    have h0 : (0#w) = 1#w <<< w := by
      apply BitVec.eq_of_getLsbD_eq
      intro j hj
      simp [hj]
    rw [h0, getLsbD_lowMask w i hi]
    simp; omega

theorem bitblend4_ok (S : ShiftSem w) (a b : BitVec w) {start len : Nat} (hs : start < w)
    (hl : len < S.pw ∨ S.Lenient) :
    ∃ r, bitblend4 S a b start len = .ok r ∧ ∀ i, i < w →
      r.getLsbD i = if start ≤ i ∧ i < start + len then b.getLsbD i else a.getLsbD i := by
  obtain ⟨k, hk, hkb⟩ := mask_ok S len hl
  unfold bitblend4
  rw [hk]
  simp only [bind, Except.bind, S.shl_ok hs, pure, Except.pure]
  refine ⟨_, rfl, ?_⟩
  intro i hi
  rw [getLsbD_blend_mask, decide_eq_true hs, boolWord_true_mul, BitVec.getLsbD_shiftLeft]
  have := hkb (i - start) (by omega)
  by_cases h1 : start ≤ i
  · rw [this]
    by_cases h2 : i < start + len
    · simp [h1, h2, hi, show ¬ i < start by omega, show i - start < len by omega]
    · simp [h1, h2, show ¬ (i - start < len) by omega]
  · simp [h1, show i < start by omega]

theorem wp_bitblend4 (S : ShiftSem w) {a b : BitVec w} {start len : Nat} {m : Mem w}
    {Q : BitVec w → Mem w → Prop} (hs : start < w) (hl : len < S.pw ∨ S.Lenient)
    (hQ : ∀ r : BitVec w, (∀ i, i < w →
      r.getLsbD i = if start ≤ i ∧ i < start + len then b.getLsbD i else a.getLsbD i) → Q r m) :
    wp (lift (bitblend4 S a b start len)) m Q := by
  obtain ⟨r, hr, hb⟩ := bitblend4_ok S a b hs hl
  rw [hr, wp_lift_ok]
  exact hQ r hb

theorem wp_shl (S : ShiftSem w) {x : BitVec w} {n : Nat} {m : Mem w} {Q : BitVec w → Mem w → Prop}
    (h : n < w) : wp (lift (S.shl x n)) m Q ↔ Q (x <<< n) m := by
  rw [S.shl_ok h, wp_lift_ok]

theorem wp_shr (S : ShiftSem w) {x : BitVec w} {n : Nat} {m : Mem w} {Q : BitVec w → Mem w → Prop}
    (h : n < w) : wp (lift (S.shr x n)) m Q ↔ Q (x >>> n) m := by
  rw [S.shr_ok h, wp_lift_ok]

theorem lt_pw (S : ShiftSem w) {n : Nat} (h : n < w) : n < S.pw ∨ S.Lenient :=
  Or.inl (Nat.lt_of_lt_of_le h S.le_pw)

theorem wp_lowMask (S : ShiftSem w) {n : Nat} {m : Mem w} {Q : BitVec w → Mem w → Prop} (h : n < w)
    (hQ : ∀ k : BitVec w, (∀ i, i < w → k.getLsbD i = decide (i < n)) → Q k m) :
    wp (lift (lowMask S n)) m Q := by
  unfold lowMask
  simp only [S.shl_ok h, bind, Except.bind, pure, Except.pure]
  rw [wp_lift_ok]
  exact hQ _ (fun i hi => getLsbD_lowMask n i hi)

/-! ### `get_word` and `write_word` -/

/-- Reading from `len` mapped bits. -/
theorem wp_getWord (S : ShiftSem w) {it : BitIter w} {len : Nat} {m : Mem w}
    {Q : BitVec w → Mem w → Prop} (hv : it.Valid) (hlen : len ≤ w) (h0 : 0 < len)
    (hm : Mapped m it.addr (it.addr + len))
    (hQ : ∀ x : BitVec w, (∀ i : Nat, i < len → bitAt m (it.addr + i) = some (x.getLsbD i)) → Q x m) :
    wp (getWord S it len) m Q := by
  unfold BitIter.Valid at hv
  have hw : 0 < w := by omega
  unfold getWord
  unfold BitIter.addr at *
  rw [wp_bind, wp_assert]
  refine ⟨hlen, ?_⟩
  rw [wp_bind]
  refine wp_load_bits hw (it.base * w + it.pos) (by omega) (by omega) (hm _ (by omega) (by omega)) ?_
  intro x hx
  rw [wp_bind, wp_shr S hv]
  split
  · rename_i hle
    rw [wp_pure]
    apply hQ
    intro i hi
    have := hx (it.pos + i) (by omega)
    rw [BitVec.getLsbD_ushiftRight, ← this]
    congr 1
    push_cast
    omega
  · rename_i hle
    rw [wp_bind]
    refine wp_load_bits hw (it.base * w + it.pos + (w - it.pos)) ?_ ?_
      (hm _ (by omega) (by omega)) ?_
    · rw [Int.add_mul]; omega
    · rw [Int.add_mul]; omega
    intro y hy
    rw [wp_bind, wp_shl S (by omega)]
    refine wp_bitblend4 S (by omega) (lt_pw S (by omega)) ?_
    intro r hr
    apply hQ
    intro i hi
    rw [hr i (by omega)]
    split
    · have := hy (i - (w - it.pos)) (by omega)
      rw [BitVec.getLsbD_shiftLeft]
      rw [Int.add_mul] at this
      simp only [show i < w by omega, show ¬ i < w - it.pos by omega, decide_true, decide_false,
        Bool.not_false, Bool.true_and]
      rw [← this]
      congr 1
      omega
    · have := hx (it.pos + i) (by omega)
      rw [BitVec.getLsbD_ushiftRight, ← this]
      congr 1
      push_cast
      omega

/-- `*it = _bitblend(*it, src, start, len)` replaces exactly `len` bits. -/
theorem wp_blendAt (S : ShiftSem w) {a : Int} {src : BitVec w} {start len : Nat} {m : Mem w}
    {Q : Unit → Mem w → Prop} (hs : start + len ≤ w) (h0 : 0 < len) (hl : len < w ∨ S.FullShiftOk)
    (hm : (bitAt m (a * (w : Int) + start)).isSome)
    (hQ : ∀ m', Wrote m m' (a * (w : Int) + start) (a * (w : Int) + start + len)
      (fun i => some (src.getLsbD (i - a * (w : Int)).toNat)) → Q () m') :
    wp (blendAt S a src start len) m Q := by
  have hw : 0 < w := by omega
  unfold blendAt
  rw [wp_bind]
  refine wp_load_bits hw _ (by omega) (by omega) hm ?_
  intro x hx
  rw [wp_bind]
  have hl' : len < S.pw ∨ S.Lenient := by
    rcases hl with h | h | h
    · exact lt_pw S h
    · exact Or.inl (by omega)
    · exact Or.inr h
  refine wp_bitblend4 S (by omega) hl' ?_
  intro r hr
  refine wp_store_bits hw _ (by omega) (by omega) hm ?_
  intro m' hm'
  apply hQ
  intro i
  rw [hm' i]
  beta_reduce
  by_cases hi : a * (w : Int) ≤ i ∧ i < a * (w : Int) + w
  · rw [if_pos hi, hr _ (by omega)]
    split
    · rw [if_pos (by omega)]
    · rw [if_neg (by omega)]
      have := hx (i - a * (w : Int)).toNat (by omega)
      rw [← this]
      congr 1
      omega
  · rw [if_neg hi, if_neg (by omega)]

/-- The mask form of the previous statement. -/
theorem wp_blendLowAt (S : ShiftSem w) {a : Int} {src : BitVec w} {n : Nat} {m : Mem w}
    {Q : Unit → Mem w → Prop} (hs : n < w) (h0 : 0 < n)
    (hm : (bitAt m (a * (w : Int))).isSome)
    (hQ : ∀ m', Wrote m m' (a * (w : Int)) (a * (w : Int) + n)
      (fun i => some (src.getLsbD (i - a * (w : Int)).toNat)) → Q () m') :
    wp (blendLowAt S a src n) m Q := by
  have hw : 0 < w := by omega
  unfold blendLowAt
  rw [wp_bind]
  refine wp_load_bits hw _ (by omega) (by omega) hm ?_
  intro x hx
  rw [wp_bind]
  refine wp_lowMask S hs ?_
  intro k hk
  refine wp_store_bits hw _ (by omega) (by omega) hm ?_
  intro m' hm'
  apply hQ
  intro i
  rw [hm' i]
  beta_reduce
  by_cases hi : a * (w : Int) ≤ i ∧ i < a * (w : Int) + w
  · rw [if_pos hi, bitblend3_getLsbD, hk _ (by omega)]
    by_cases h2 : (i - a * (w : Int)).toNat < n
    · rw [if_pos (by simpa using h2), if_pos (by omega)]
    · rw [if_neg (by simpa using h2), if_neg (by omega)]
      have := hx (i - a * (w : Int)).toNat (by omega)
      rw [← this]
      congr 1
      omega
  · rw [if_neg hi, if_neg (by omega)]

/-- Writing to `len` mapped bits. -/
theorem wp_writeWord (S : ShiftSem w) {src : BitVec w} {it : BitIter w} {len : Nat} {m : Mem w}
    {Q : Unit → Mem w → Prop} (hv : it.Valid) (hlen : len ≤ w) (h0 : 0 < len)
    (hm : Mapped m it.addr (it.addr + len))
    (hQ : ∀ m', Wrote m m' it.addr (it.addr + len)
      (fun i => some (src.getLsbD (i - it.addr).toNat)) → Q () m') :
    wp (writeWord S src it len) m Q := by
  unfold BitIter.Valid at hv
  have hw : 0 < w := by omega
  unfold writeWord
  unfold BitIter.addr at *
  split
  · rename_i h
    refine wp_store_bits hw (it.base * w) (by omega) (by omega) (hm _ (by omega) (by omega)) ?_
    intro m' hm'
    apply hQ
    intro i
    rw [hm' i, h.1, h.2]
    simp
  · rename_i h
    rw [wp_bind, wp_shl S hv, wp_bind]
    refine wp_blendAt S (by omega) (by omega) (by left; omega) (hm _ (by omega) (by omega)) ?_
    intro m1 hm1
    split
    · rename_i hgt
      rw [wp_bind, wp_shr S (by omega)]
      refine wp_blendAt S (by omega) (by omega) (by left; omega) ?_ ?_
      · rw [Int.add_mul, hm1, if_neg (by omega)]
        exact hm _ (by omega) (by omega)
      intro m2 hm2
      apply hQ
      intro i
      rw [hm2 i, hm1 i]
      rw [Int.add_mul]
      beta_reduce
      split_ifs <;> first
        | rfl
        | (exfalso; omega)
        | (rw [BitVec.getLsbD_ushiftRight]; congr 2; omega)
        | (rw [BitVec.getLsbD_shiftLeft]
           simp only [show (i - it.base * (w : Int)).toNat < w by omega,
            show ¬ (i - it.base * (w : Int)).toNat < it.pos by omega, decide_true, decide_false,
            Bool.not_false, Bool.true_and]
           congr 2
           omega)
    · rename_i hgt
      rw [wp_pure]
      apply hQ
      intro i
      rw [hm1 i]
      beta_reduce
      split_ifs <;> first
        | rfl
        | (exfalso; omega)
        | (rw [BitVec.getLsbD_shiftLeft]
           simp only [show (i - it.base * (w : Int)).toNat < w by omega,
            show ¬ (i - it.base * (w : Int)).toNat < it.pos by omega, decide_true, decide_false,
            Bool.not_false, Bool.true_and]
           congr 2
           omega)

end BitLib
