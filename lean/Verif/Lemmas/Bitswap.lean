import Verif.Model.Word
import Mathlib.Tactic.SplitIfs
/- `_bitswap` reverses the order of the bits, for every width. -/
namespace BitLib
variable {w : Nat}

theorem xor_two_pow (j i : Nat) : i ^^^ 2 ^ j = if i.testBit j then i - 2 ^ j else i + 2 ^ j := by
  induction j generalizing i with
  | zero =>
    have h1 := Nat.xor_div_two (a := i) (b := 1)
    have h2 := Nat.xor_mod_two_eq_one (a := i) (b := 1)
    have h0 : (1 : Nat) / 2 = 0 := rfl
    rw [h0, Nat.xor_zero] at h1
    rw [Nat.pow_zero, Nat.testBit_zero]
    by_cases h : i % 2 = 1
    · rw [if_pos (by simpa using h)]; omega
    · rw [if_neg (by simpa using h)]; omega
  | succ j ih =>
    have h1 := Nat.xor_div_two (a := i) (b := 2 ^ (j + 1))
    have h2 := Nat.xor_mod_two_eq_one (a := i) (b := 2 ^ (j + 1))
    have e : 2 ^ (j + 1) = 2 * 2 ^ j := by rw [Nat.pow_succ]; omega
    have e2 : 2 ^ (j + 1) / 2 = 2 ^ j := by omega
    rw [e2, ih] at h1
    rw [Nat.testBit_succ]
    have hle : (i / 2).testBit j = true → 2 ^ j ≤ i / 2 := Nat.ge_two_pow_of_testBit
    split_ifs at h1 ⊢ with h
    · have := hle h; omega
    · omega

theorem testBit_sub_two_pow {c i : Nat} (h : 2 ^ c ≤ i) :
    (i - 2 ^ c).testBit (c + 1) = (i.testBit (c + 1) ^^ !(i.testBit c)) := by
  simp only [Nat.testBit_eq_decide_div_mod_eq, Nat.pow_succ, ← Nat.div_div_eq_div_mul]
  have e : (i - 2 ^ c) / 2 ^ c = i / 2 ^ c - 1 := by simpa using Nat.sub_mul_div i (2 ^ c) 1
  rw [e]
  have hq : 1 ≤ i / 2 ^ c := (Nat.one_le_div_iff (Nat.two_pow_pos c)).2 h
  generalize i / 2 ^ c = q at *
  by_cases h1 : q % 2 = 1 <;> by_cases h2 : q / 2 % 2 = 1 <;>
    simp only [h1, h2, decide_true, decide_false] <;> simp <;> omega

/-- The mask used at block size `2 ^ j`. -/
theorem bitswapMaskAux_spec (j : Nat) : ∀ (fuel d : Nat) (msk : BitVec w), d ≤ fuel →
    (∀ i, i < w → msk.getLsbD i = !(i.testBit (j + d))) →
    ∀ i, i < w → (bitswapMaskAux (2 ^ j) fuel (2 ^ (j + d)) msk).getLsbD i = !(i.testBit j) := by
  intro fuel
  induction fuel with
  | zero =>
    intro d msk hd hm i hi
    have : d = 0 := by omega
    subst this
    exact hm i hi
  | succ fuel ih =>
    intro d msk hd hm i hi
    unfold bitswapMaskAux
    rcases d with _ | d
    · rw [Nat.add_zero] at *
      rw [if_pos rfl]; exact hm i hi
    · rw [if_neg (by
        intro h
        have := Nat.pow_right_inj (a := 2) (by omega) |>.1 h
        omega)]
      have e2 : 2 ^ (j + (d + 1)) / 2 = 2 ^ (j + d) := by
        rw [show j + (d + 1) = (j + d) + 1 by omega, Nat.pow_succ]; omega
      rw [e2]
      refine ih d _ (by omega) ?_ i hi
      intro i hi
      generalize hc : j + d = c at *
      have hc' : j + (d + 1) = c + 1 := by omega
      rw [hc'] at hm
      rw [BitVec.getLsbD_xor, BitVec.getLsbD_shiftLeft, hm i hi]
      by_cases h1 : i < 2 ^ c
      · rw [Nat.testBit_lt_two_pow h1, Nat.testBit_lt_two_pow (Nat.lt_of_lt_of_le h1 (Nat.pow_le_pow_right (by omega) (by omega)))]
        simp [h1]
      · rw [hm (i - 2 ^ c) (Nat.lt_of_le_of_lt (Nat.sub_le _ _) hi), testBit_sub_two_pow (by omega)]
        simp only [hi, h1, decide_true, decide_false, Bool.not_false, Bool.true_and]
        cases i.testBit (c + 1) <;> cases i.testBit c <;> rfl

theorem bitswapMask_spec {k j : Nat} (hw : w = 2 ^ k) (hj : j ≤ k) (i : Nat) (hi : i < w) :
    (bitswapMask (2 ^ j) : BitVec w).getLsbD i = !(i.testBit j) := by
  unfold bitswapMask
  have hkw : k < w := by rw [hw]; exact Nat.lt_two_pow_self
  have := bitswapMaskAux_spec (w := w) j w (k - j) (BitVec.allOnes w) (by omega)
  rw [show j + (k - j) = k by omega, ← hw] at this
  refine this ?_ i hi
  intro i hi
  rw [BitVec.getLsbD_allOnes, Nat.testBit_lt_two_pow (by omega)]
  simp [hi]

theorem bitswapRec_spec {k : Nat} (hw : w = 2 ^ k) : ∀ (fuel j : Nat) (src : BitVec w), j < fuel → j < k →
    ∀ i, i < w → (bitswapRec fuel (2 ^ (j + 1)) src).getLsbD i = src.getLsbD (i ^^^ (2 ^ (j + 1) - 1)) := by
  intro fuel
  induction fuel with
  | zero => intro j src h; omega
  | succ fuel ih =>
    intro j src hf hj i hi
    unfold bitswapRec
    have e : 2 ^ (j + 1) / 2 = 2 ^ j := by rw [Nat.pow_succ]; omega
    simp only [e]
    have step : ∀ i, i < w → (src >>> 2 ^ j &&& bitswapMask (2 ^ j) ||| src <<< 2 ^ j &&& ~~~bitswapMask (2 ^ j)).getLsbD i
        = src.getLsbD (i ^^^ 2 ^ j) := by
      intro i hi
      rw [BitVec.getLsbD_or, BitVec.getLsbD_and, BitVec.getLsbD_and, BitVec.getLsbD_not, bitswapMask_spec hw (by omega) i hi,
        BitVec.getLsbD_ushiftRight, BitVec.getLsbD_shiftLeft, xor_two_pow]
      by_cases hb : i.testBit j
      · have := Nat.ge_two_pow_of_testBit hb
        simp [hb, hi, show ¬ i < 2 ^ j by omega]
      · simp [hb, Nat.add_comm]
    split_ifs with h1
    · obtain ⟨j', rfl⟩ : ∃ j', j = j' + 1 := ⟨j - 1, by
        rcases j with _ | j
        · simp at h1
        · rfl⟩
      rw [ih j' _ (by omega) (by omega) i hi, step]
      · congr 1
        apply Nat.eq_of_testBit_eq
        intro t
        simp only [Nat.testBit_xor, Nat.testBit_two_pow_sub_one, Nat.testBit_two_pow]
        by_cases h2 : t < j' + 1
        · simp [h2, show ¬ j' + 1 = t by omega, show t < j' + 1 + 1 by omega]
        · by_cases h3 : j' + 1 = t
          · simp [← h3]
          · simp [h2, h3, show ¬ t < j' + 1 + 1 by omega]
      · rw [hw]
        refine Nat.xor_lt_two_pow (by omega) ?_
        have : 2 ^ (j' + 1) ≤ 2 ^ k := Nat.pow_le_pow_right (by omega) (by omega)
        have := Nat.two_pow_pos (j' + 1)
        omega
    · have hj0 : j = 0 := by
        rcases j with _ | j
        · rfl
        · rw [Nat.pow_succ] at h1
          have := Nat.two_pow_pos j
          omega
      subst hj0
      rw [step i hi]

theorem bitswapLoop_spec (src : BitVec w) : ∀ (fuel t : Nat) (dst : BitVec w), t < w → w ≤ fuel + t + 1 →
    (∀ b, b ≤ t → dst.getLsbD b = src.getLsbD (t - b)) →
    ∀ b, b < w → (bitswapLoop fuel (src >>> (t + 1)) dst (w - 1 - t)).getLsbD b = src.getLsbD (w - 1 - b) := by
  intro fuel
  have fin : ∀ (t : Nat) (dst : BitVec w), t < w → src >>> (t + 1) = 0#w →
      (∀ b, b ≤ t → dst.getLsbD b = src.getLsbD (t - b)) →
      ∀ b, b < w → (dst <<< (w - 1 - t)).getLsbD b = src.getLsbD (w - 1 - b) := by
    intro t dst ht hz hd b hb
    rw [BitVec.getLsbD_shiftLeft]
    by_cases h : b < w - 1 - t
    · have : (src >>> (t + 1)).getLsbD (w - 1 - b - (t + 1)) = false := by rw [hz]; simp
      rw [BitVec.getLsbD_ushiftRight, show t + 1 + (w - 1 - b - (t + 1)) = w - 1 - b by omega] at this
      simp [h, this]
    · rw [hd _ (by omega)]
      simp only [hb, h, decide_true, decide_false, Bool.not_false, Bool.true_and]
      congr 1; omega
  induction fuel with
  | zero =>
    intro t dst ht hf hd b hb
    unfold bitswapLoop
    exact fin t dst ht (by
      apply BitVec.eq_of_getLsbD_eq
      intro i hi
      rw [BitVec.getLsbD_ushiftRight, BitVec.getLsbD_of_ge _ _ (by omega)]
      simp) hd b hb
  | succ fuel ih =>
    intro t dst ht hf hd b hb
    unfold bitswapLoop
    split_ifs with hz
    · exact fin t dst ht hz hd b hb
    · by_cases ht' : t + 1 < w
      · rw [show w - 1 - t - 1 = w - 1 - (t + 1) by omega, ← BitVec.shiftRight_add]
        refine ih (t + 1) _ ht' (by omega) ?_ b hb
        intro b hb
        rw [BitVec.getLsbD_or, BitVec.getLsbD_shiftLeft, BitVec.getLsbD_and, BitVec.getLsbD_ushiftRight]
        by_cases hb0 : b = 0
        · subst hb0
          simp [show 0 < w by omega]
        · rw [hd (b - 1) (by omega)]
          have : (1#w).getLsbD b = false := by simp [hb0]
          rw [this]
          simp only [show b < w by omega, show ¬ b < 1 by omega, decide_true, decide_false, Bool.not_false, Bool.true_and,
            Bool.and_false, Bool.or_false]
          congr 1; omega
      · exfalso
        apply hz
        apply BitVec.eq_of_getLsbD_eq
        intro i hi
        rw [BitVec.getLsbD_ushiftRight, BitVec.getLsbD_of_ge _ _ (by omega)]
        simp

/-- The byte trick on natural numbers, with its three constants. -/
def bytesw (a b c x : Nat) : Nat :=
  ((((x * a % 2^64) &&& b) * c % 2^64) >>> 32) % 256

/-- All bytes below `n` are reversed. -/
def byteTable (a b c n : Nat) : Bool :=
  Nat.rec true (fun x ih => (Nat.testBit (bytesw a b c x) 0 == x.testBit 7) && (Nat.testBit (bytesw a b c x) 1 == x.testBit 6)
    && (Nat.testBit (bytesw a b c x) 2 == x.testBit 5) && (Nat.testBit (bytesw a b c x) 3 == x.testBit 4)
    && (Nat.testBit (bytesw a b c x) 4 == x.testBit 3) && (Nat.testBit (bytesw a b c x) 5 == x.testBit 2)
    && (Nat.testBit (bytesw a b c x) 6 == x.testBit 1) && (Nat.testBit (bytesw a b c x) 7 == x.testBit 0) && ih) n

theorem byteTable_ok : byteTable 0x80200802 0x0884422110 0x0101010101 256 = true := by decide +kernel

theorem byteTable_spec (a b c : Nat) : ∀ n x i : Nat, byteTable a b c n = true → x < n → i < 8 →
    (bytesw a b c x).testBit i = x.testBit (7 - i) := by
  intro n
  induction n with
  | zero => intro x i _ h; omega
  | succ n ih =>
    intro x i h hx hi
    have h' : ((Nat.testBit (bytesw a b c n) 0 == n.testBit 7) && (Nat.testBit (bytesw a b c n) 1 == n.testBit 6)
      && (Nat.testBit (bytesw a b c n) 2 == n.testBit 5) && (Nat.testBit (bytesw a b c n) 3 == n.testBit 4)
      && (Nat.testBit (bytesw a b c n) 4 == n.testBit 3) && (Nat.testBit (bytesw a b c n) 5 == n.testBit 2)
      && (Nat.testBit (bytesw a b c n) 6 == n.testBit 1) && (Nat.testBit (bytesw a b c n) 7 == n.testBit 0) && byteTable a b c n) = true := h
    simp only [Bool.and_eq_true, beq_iff_eq] at h'
    by_cases he : x = n
    · subst he
      obtain ⟨⟨⟨⟨⟨⟨⟨⟨h0, h1⟩, h2⟩, h3⟩, h4⟩, h5⟩, h6⟩, h7⟩, _⟩ := h'
      match i, hi with
      | 0, _ => exact h0
      | 1, _ => exact h1
      | 2, _ => exact h2
      | 3, _ => exact h3
      | 4, _ => exact h4
      | 5, _ => exact h5
      | 6, _ => exact h6
      | 7, _ => exact h7
    · exact ih x i h'.2 (by omega) hi

theorem bytesw_toNat (s : BitVec 8) (a b c : BitVec 64) :
    (((((s.setWidth 64 * a) &&& b) * c) >>> 32).setWidth 8).toNat = bytesw a.toNat b.toNat c.toNat s.toNat := by
  unfold bytesw
  rw [BitVec.toNat_setWidth, BitVec.toNat_ushiftRight, BitVec.toNat_mul, BitVec.toNat_and, BitVec.toNat_mul, BitVec.toNat_setWidth,
    Nat.mod_eq_of_lt (a := s.toNat)]
  exact Nat.lt_of_lt_of_le s.isLt (Nat.pow_le_pow_right (by omega) (by omega))

theorem bitswapByte_spec (x : BitVec 8) (i : Nat) (hi : i < 8) :
    (bitswapByte x).getLsbD i = x.getLsbD (7 - i) := by
  have h := byteTable_spec _ _ _ 256 x.toNat i byteTable_ok x.isLt hi
  rw [← BitVec.testBit_toNat, ← BitVec.testBit_toNat, ← h]
  unfold bitswapByte
  dsimp only
  rw [bytesw_toNat]
  have e1 : (0x80200802#64).toNat = 0x80200802 := by rw [BitVec.toNat_ofNat]
  have e2 : (0x0884422110#64).toNat = 0x0884422110 := by rw [BitVec.toNat_ofNat]
  have e3 : (0x0101010101#64).toNat = 0x0101010101 := by rw [BitVec.toNat_ofNat]
  rw [e1, e2, e3]

theorem bitswap_spec (x : BitVec w) (i : Nat) (hi : i < w) : (bitswap x).getLsbD i = x.getLsbD (w - 1 - i) := by
  unfold bitswap
  split_ifs with h8 hp
  · subst h8
    rw [BitVec.cast_eq, BitVec.cast_eq, bitswapByte_spec x i hi]
  · generalize hk : Nat.log2 w = k at hp
    rcases k with _ | k
    · have : w = 1 := by simpa using hp.symm
      subst this
      have : i = 0 := by omega
      subst this
      have hx : x = 0#1 ∨ x = 1#1 := by
        obtain ⟨⟨x, hx⟩⟩ := x
        have : x = 0 ∨ x = 1 := by omega
        rcases this with rfl | rfl
        · exact Or.inl rfl
        · exact Or.inr rfl
      rcases hx with rfl | rfl <;> decide
    · have hkw : k + 1 < w := by rw [← hp]; exact Nat.lt_two_pow_self
      have := bitswapRec_spec (w := w) (k := k + 1) hp.symm w k x (by omega) (by omega) i hi
      rw [hp] at this
      rw [this]
      congr 1
      have h2 : i ^^^ (w - 1) = w - 1 - i := by
        rw [← hp, Nat.xor_comm]
        apply Nat.eq_of_testBit_eq
        intro t
        rw [Nat.testBit_xor, Nat.testBit_two_pow_sub_one, show 2 ^ (k + 1) - 1 - i = 2 ^ (k + 1) - (i + 1) by omega,
          Nat.testBit_two_pow_sub_succ (by omega)]
        by_cases ht : t < k + 1
        · simp [ht]
        · rw [Nat.testBit_lt_two_pow (x := i) (i := t) (by
            have : 2 ^ (k + 1) ≤ 2 ^ t := Nat.pow_le_pow_right (by omega) (by omega)
            omega)]
          simp [ht]
      exact h2
  · have := bitswapLoop_spec x w 0 x (by omega) (by omega) (by intro b hb; congr 1; omega) i hi
    exact this

end BitLib
