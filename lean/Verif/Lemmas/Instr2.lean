import Verif.Lemmas.Instr
import Mathlib.Tactic.Ring
import Mathlib.Tactic.SplitIfs
import Mathlib.Tactic.Linarith
/- Helper lemmas: deposit, extract, byte reversal, carries and multiplication. -/
namespace BitLib
variable {w : Nat}

theorem getLsbD_shl_top (x : BitVec w) (i : Nat) (hi : i < w) :
    (x <<< (w - 1)).getLsbD i = if i = w - 1 then x.getLsbD 0 else false := by
  rw [BitVec.getLsbD_shiftLeft]
  by_cases h : i = w - 1
  · subst h; simp [hi]
  · rw [if_neg h]
    have : i < w - 1 := by omega
    simp [this]

/-- Bit `i` of the deposit of `x` into `m`. -/
def depBit (x m : BitVec w) (i : Nat) : Bool := m.getLsbD i && x.getLsbD (onesBelow m i)

theorem pdepLoop_spec (x m : BitVec w) : ∀ (fuel t : Nat) (dst : BitVec w), t ≤ w → w < fuel + t →
    (∀ j, j < w → dst.getLsbD j = if w - t ≤ j then depBit x m (j - (w - t)) else false) →
    ∃ dst' t', pdepLoop fuel (x >>> onesBelow m t) (m >>> t) dst (BitVec.ofNat w t) = .ok (dst', BitVec.ofNat w t') ∧
      t' ≤ w ∧ (∀ i, t' ≤ i → m.getLsbD i = false) ∧
      ∀ j, j < w → dst'.getLsbD j = if w - t' ≤ j then depBit x m (j - (w - t')) else false := by
  intro fuel
  induction fuel with
  | zero => intro t dst h1 h2; omega
  | succ fuel ih =>
    intro t dst h1 h2 hd
    unfold pdepLoop
    by_cases hz : m >>> t = 0#w
    · rw [if_pos hz]
      exact ⟨dst, t, rfl, h1, (shr_eq_zero_iff m t).1 hz, hd⟩
    · rw [if_neg hz]
      have htw : t < w := by
        by_contra hn
        exact hz (shr_width m (by omega))
      dsimp only
      simp only [and_one_ne_zero]
      rw [BitVec.getLsbD_ushiftRight, Nat.add_zero, ← BitVec.shiftRight_add, ← BitVec.ofNat_add]
      by_cases hb : m.getLsbD t = true
      · rw [if_pos hb, ← BitVec.shiftRight_add, show onesBelow m t + 1 = onesBelow m (t + 1) by
          rw [onesBelow_succ, hb, if_pos rfl]]
        apply ih (t + 1) _ (by omega) (by omega)
        intro j hj
        rw [BitVec.getLsbD_or, BitVec.getLsbD_ushiftRight, getLsbD_shl_top _ _ hj, BitVec.getLsbD_ushiftRight, Nat.add_zero]
        by_cases hj1 : j = w - 1
        · rw [if_pos hj1, if_pos (by omega), BitVec.getLsbD_of_ge dst _ (by omega), Bool.false_or]
          rw [show j - (w - (t + 1)) = t by omega]
          unfold depBit
          rw [hb, Bool.true_and]
        · rw [if_neg hj1, Bool.or_false, hd _ (by omega)]
          split_ifs <;> first | rfl | (exfalso; omega) | (congr 1; omega)
      · rw [if_neg hb]
        have hb' : m.getLsbD t = false := by simpa using hb
        rw [show onesBelow m t = onesBelow m (t + 1) by rw [onesBelow_succ, hb']; simp]
        apply ih (t + 1) _ (by omega) (by omega)
        intro j hj
        rw [BitVec.getLsbD_ushiftRight]
        by_cases hj1 : j = w - 1
        · rw [if_pos (by omega), BitVec.getLsbD_of_ge dst _ (by omega)]
          rw [show j - (w - (t + 1)) = t by omega]
          unfold depBit
          rw [hb', Bool.false_and]
        · rw [hd _ (by omega)]
          split_ifs <;> first | rfl | (exfalso; omega) | (congr 1; omega)

theorem pdep_spec (x m : BitVec w) : ∃ r, pdep x m = .ok r ∧ ∀ i, i < w → r.getLsbD i = depBit x m i := by
  obtain ⟨dst, t, h, htw, hz, hd⟩ := pdepLoop_spec x m (w + 1) 0 0#w (Nat.zero_le _) (by omega) (by
    intro j hj; rw [if_neg (by omega)]; simp)
  unfold pdep
  rw [onesBelow_zero] at h
  simp only [BitVec.ushiftRight_zero] at h
  rw [show (0#w : BitVec w) = BitVec.ofNat w 0 from rfl, show (BitVec.ofNat w 0) = 0#w from rfl, h]
  simp only [bind, Except.bind, pure, Except.pure]
  refine ⟨_, rfl, ?_⟩
  intro i hi
  rw [toNat_ofNat_le htw, BitVec.getLsbD_ushiftRight]
  have hdep : ∀ i, t ≤ i → depBit x m i = false := by
    intro i h; unfold depBit; rw [hz i h, Bool.false_and]
  by_cases ht : t = 0
  · subst ht
    rw [if_neg (by omega), Nat.mul_zero, Nat.zero_add, hd i hi, if_neg (by omega), hdep i (by omega)]
  · rw [if_pos (by omega), Nat.mul_one]
    by_cases h2 : w - t + i < w
    · rw [hd _ h2, if_pos (by omega)]; congr 1; omega
    · rw [BitVec.getLsbD_of_ge dst _ (by omega), hdep i (by omega)]

theorem pextLoop_spec (x m : BitVec w) : ∀ (fuel t : Nat) (dst : BitVec w), t ≤ w → w < fuel + t →
    (∀ i, i < t → m.getLsbD i = true → dst.getLsbD (w - onesBelow m t + onesBelow m i) = x.getLsbD i) →
    (∀ j, j < w - onesBelow m t → dst.getLsbD j = false) →
    ∃ dst', pextLoop fuel (x >>> t) (m >>> t) dst (BitVec.ofNat w (onesBelow m t)) =
        .ok (dst', BitVec.ofNat w (onesBelow m w)) ∧
      (∀ i, i < w → m.getLsbD i = true → dst'.getLsbD (w - onesBelow m w + onesBelow m i) = x.getLsbD i) ∧
      (∀ j, j < w - onesBelow m w → dst'.getLsbD j = false) := by
  intro fuel
  induction fuel with
  | zero => intro t dst h1 h2; omega
  | succ fuel ih =>
    intro t dst h1 h2 hd hl
    unfold pextLoop
    by_cases hz : m >>> t = 0#w
    · rw [if_pos hz]
      have hz' := (shr_eq_zero_iff m t).1 hz
      have e : onesBelow m w = onesBelow m t := by
        have : ∀ k, t ≤ k → onesBelow m k = onesBelow m t := by
          intro k hk
          induction k, hk using Nat.le_induction with
          | base => rfl
          | succ k hk ih2 => rw [onesBelow_succ, ih2, hz' k hk]; simp
        exact this w h1
      rw [e]
      refine ⟨dst, rfl, ?_, hl⟩
      intro i hi hb
      apply hd i _ hb
      by_contra hn
      rw [hz' i (by omega)] at hb
      exact Bool.noConfusion hb
    · rw [if_neg hz]
      have htw : t < w := by
        by_contra hn
        exact hz (shr_width m (by omega))
      simp only [and_one_ne_zero]
      rw [BitVec.getLsbD_ushiftRight, Nat.add_zero, ← BitVec.shiftRight_add, ← BitVec.shiftRight_add]
      have hle := onesBelow_le m t
      by_cases hb : m.getLsbD t = true
      · have e : onesBelow m (t + 1) = onesBelow m t + 1 := by rw [onesBelow_succ, hb, if_pos rfl]
        rw [if_pos hb, ← BitVec.ofNat_add, ← e]
        apply ih (t + 1) _ (by omega) (by omega)
        · intro i hi hbi
          have hlt : onesBelow m i ≤ onesBelow m t := onesBelow_mono m (by omega)
          rw [BitVec.getLsbD_or, BitVec.getLsbD_ushiftRight, getLsbD_shl_top _ _ (by omega), BitVec.getLsbD_ushiftRight, Nat.add_zero]
          by_cases hit : i = t
          · subst hit
            rw [if_pos (by omega), BitVec.getLsbD_of_ge dst _ (by omega), Bool.false_or, Nat.add_zero]
          · have hlt' := onesBelow_lt m (show i < t by omega) hbi
            rw [if_neg (by omega), Bool.or_false, ← hd i (by omega) hbi]
            congr 1; omega
        · intro j hj
          rw [BitVec.getLsbD_or, BitVec.getLsbD_ushiftRight, getLsbD_shl_top _ _ (by omega), if_neg (by omega), hl _ (by omega)]
          rfl
      · have hb' : m.getLsbD t = false := by simpa using hb
        have e : onesBelow m (t + 1) = onesBelow m t := by rw [onesBelow_succ, hb']; simp
        rw [if_neg hb, ← e]
        apply ih (t + 1) _ (by omega) (by omega)
        · intro i hi hbi
          rw [e]
          apply hd i _ hbi
          by_contra hn
          rw [show i = t by omega, hb'] at hbi
          exact Bool.noConfusion hbi
        · rw [e]; exact hl

theorem pext_spec (x m : BitVec w) : ∃ r, pext x m = .ok r ∧
    (∀ i, i < w → m.getLsbD i = true → r.getLsbD (onesBelow m i) = x.getLsbD i) ∧
    ∀ j, onesBelow m w ≤ j → r.getLsbD j = false := by
  obtain ⟨dst, h, hd, hl⟩ := pextLoop_spec x m (w + 1) 0 0#w (Nat.zero_le _) (by omega) (by intro i hi; omega)
    (by intro j _; simp)
  unfold pext
  simp only [BitVec.ushiftRight_zero, onesBelow_zero] at h
  rw [h]
  simp only [bind, Except.bind, pure, Except.pure]
  refine ⟨_, rfl, ?_, ?_⟩
  · intro i hi hb
    have := onesBelow_lt m hi hb
    rw [toNat_ofNat_le (onesBelow_le m w), BitVec.getLsbD_ushiftRight, if_pos (by omega), Nat.mul_one, hd i hi hb]
  · intro j hj
    rw [toNat_ofNat_le (onesBelow_le m w), BitVec.getLsbD_ushiftRight]
    by_cases h0 : onesBelow m w = 0
    · rw [h0, if_neg (by omega), Nat.mul_zero, Nat.zero_add]
      by_cases hjw : j < w
      · exact hl j (by omega)
      · exact BitVec.getLsbD_of_ge dst _ (by omega)
    · rw [if_pos (by omega), Nat.mul_one]
      exact BitVec.getLsbD_of_ge dst _ (by have := onesBelow_le m w; omega)

/-! ### byte reversal -/

theorem getLsbD_getByte (x : BitVec w) (i k : Nat) (hk : k < 8) : (getByte x i).getLsbD k = x.getLsbD (8 * i + k) := by
  unfold getByte
  rw [BitVec.getLsbD_setWidth, BitVec.getLsbD_ushiftRight]
  simp [hk]

theorem getLsbD_ff (k : Nat) : (0xff#8).getLsbD k = decide (k < 8) := by
  by_cases h : k < 8
  · have : k = 0 ∨ k = 1 ∨ k = 2 ∨ k = 3 ∨ k = 4 ∨ k = 5 ∨ k = 6 ∨ k = 7 := by omega
    rcases this with h | h | h | h | h | h | h | h <;> subst h <;> decide
  · rw [BitVec.getLsbD_of_ge _ _ (by omega)]; simp; omega

theorem getLsbD_setByte (x : BitVec w) (i : Nat) (b : BitVec 8) (k : Nat) (hk : k < w) :
    (setByte x i b).getLsbD k = if 8 * i ≤ k ∧ k < 8 * i + 8 then b.getLsbD (k - 8 * i) else x.getLsbD k := by
  unfold setByte
  rw [BitVec.getLsbD_or, BitVec.getLsbD_and, BitVec.getLsbD_not, BitVec.getLsbD_shiftLeft, BitVec.getLsbD_shiftLeft,
    BitVec.getLsbD_setWidth, BitVec.getLsbD_setWidth, getLsbD_ff]
  by_cases h1 : 8 * i ≤ k
  · have hlt : ¬ k < 8 * i := by omega
    by_cases h2 : k < 8 * i + 8
    · have : k - 8 * i < 8 := by omega
      simp [hk, hlt, h1, h2, this, show k - 8 * i < w by omega]
    · have h3 : ¬ (k - 8 * i < 8) := by omega
      rw [BitVec.getLsbD_of_ge b _ (by omega)]
      simp [hk, hlt, h2, h3]
  · have hlt : k < 8 * i := by omega
    simp [hk, hlt, h1]

/-- After `i` rounds the bytes `0..i` and their mirror images have been exchanged. -/
theorem byteswapLoop_spec {n : Nat} (x : BitVec w) (hw : w = 8 * n) : ∀ (k i : Nat) (src : BitVec w), i + k = n / 2 →
    (∀ b, b < w → src.getLsbD b =
      if b / 8 < i ∨ n - 1 - i < b / 8 then x.getLsbD (8 * (n - 1 - b / 8) + b % 8) else x.getLsbD b) →
    ∀ b, b < w → (byteswapLoop (n - 1) k i src).getLsbD b = x.getLsbD (8 * (n - 1 - b / 8) + b % 8) := by
  intro k
  induction k with
  | zero =>
    intro i src hi hs b hb
    unfold byteswapLoop
    rw [hs b hb]
    split_ifs with h
    · rfl
    · congr 1; omega
  | succ k ih =>
    intro i src hi hs
    unfold byteswapLoop
    dsimp only
    apply ih (i + 1) _ (by omega)
    intro b hb
    rw [getLsbD_setByte _ _ _ _ hb]
    by_cases h1 : 8 * (n - 1 - i) ≤ b ∧ b < 8 * (n - 1 - i) + 8
    · rw [if_pos h1, getLsbD_getByte _ _ _ (by omega), hs _ (by omega), if_neg (by omega), if_pos (by omega)]
      congr 1; omega
    · rw [if_neg h1, getLsbD_setByte _ _ _ _ hb]
      by_cases h2 : 8 * i ≤ b ∧ b < 8 * i + 8
      · rw [if_pos h2, getLsbD_getByte _ _ _ (by omega), hs _ (by omega), if_neg (by omega), if_pos (by omega)]
        congr 1; omega
      · rw [if_neg h2, hs b hb]
        split_ifs <;> first | rfl | (exfalso; omega)

theorem byteswap_spec {n : Nat} (x : BitVec w) (hw : w = 8 * n) (b : Nat) (hb : b < w) :
    (byteswap x).getLsbD b = x.getLsbD (8 * (n - 1 - b / 8) + b % 8) := by
  unfold byteswap
  have hn : w / 8 = n := by omega
  rw [hn]
  apply byteswapLoop_spec x hw _ 0 x (by omega) _ b hb
  intro c hc
  rw [if_neg (by omega)]

theorem byteswap128_spec (x : BitVec 128) (b : Nat) (hb : b < 128) :
    (byteswap128 x).getLsbD b = x.getLsbD (8 * (15 - b / 8) + b % 8) := by
  unfold byteswap128
  dsimp only
  rw [BitVec.getLsbD_or, BitVec.getLsbD_shiftLeft, BitVec.getLsbD_setWidth, BitVec.getLsbD_setWidth]
  by_cases h : b < 64
  · rw [byteswap_spec (n := 8) _ rfl b h, BitVec.getLsbD_setWidth, BitVec.getLsbD_ushiftRight]
    simp only [h, decide_true, Bool.not_true, Bool.and_false, Bool.false_and, Bool.false_or, hb, Bool.true_and]
    rw [show decide (8 * (8 - 1 - b / 8) + b % 8 < 64) = true by simp; omega, Bool.true_and]
    congr 1; omega
  · rw [byteswap_spec (n := 8) _ rfl (b - 64) (by omega), BitVec.getLsbD_of_ge (byteswap _) b (by omega), BitVec.getLsbD_setWidth]
    simp only [h, decide_false, Bool.not_false, Bool.and_true, Bool.and_false, Bool.or_false, hb, decide_true, Bool.true_and]
    rw [show decide (b - 64 < 128) = true by simp; omega,
      show decide (8 * (8 - 1 - (b - 64) / 8) + (b - 64) % 8 < 64) = true by simp; omega, Bool.true_and, Bool.true_and]
    congr 1; omega

/-! ### carries -/

theorem toNat_boolWord (hw : 0 < w) (b : Bool) : (boolWord b : BitVec w).toNat = b.toNat := by
  unfold boolWord
  cases b
  · simp
  · simp only [if_true, BitVec.toNat_ofNat, Bool.toNat_true]
    exact Nat.mod_eq_of_lt (Nat.one_lt_two_pow (by omega))

theorem carry_iff {x y P : Nat} (hx : x < P) (hy : y < P) :
    (x + y) % P + (decide ((x + y) % P < x) || decide ((x + y) % P < y)).toNat * P = x + y := by
  by_cases h : x + y < P
  · rw [Nat.mod_eq_of_lt h, show decide (x + y < x) = false by simp, show decide (x + y < y) = false by simp]; simp
  · rw [show (x + y) % P = x + y - P by rw [Nat.mod_eq_sub_mod (by omega)]; exact Nat.mod_eq_of_lt (by omega),
      show decide (x + y - P < x) = true by simp; omega]
    simp; omega

theorem carry1_iff {x y P : Nat} (hx : x < P) (hy : y < P) :
    (x + y + 1) % P + (decide ((x + y + 1) % P ≤ x) || decide ((x + y + 1) % P ≤ y)).toNat * P = x + y + 1 := by
  by_cases h : x + y + 1 < P
  · rw [Nat.mod_eq_of_lt h, show decide (x + y + 1 ≤ x) = false by simp; omega, show decide (x + y + 1 ≤ y) = false by simp; omega]; simp
  · rw [show (x + y + 1) % P = x + y + 1 - P by rw [Nat.mod_eq_sub_mod (by omega)]; exact Nat.mod_eq_of_lt (by omega),
      show decide (x + y + 1 - P ≤ x) = true by simp; omega]
    simp; omega

theorem addcarry_spec (hw : 0 < w) (c : Bool) (a b : BitVec w) :
    (addcarry c a b).1.toNat + (addcarry c a b).2.toNat * 2 ^ w = a.toNat + b.toNat + c.toNat := by
  unfold addcarry
  dsimp only
  cases c
  · have hd : (a + b + boolWord false).toNat = (a.toNat + b.toNat) % 2 ^ w := by
      rw [BitVec.toNat_add, BitVec.toNat_add, toNat_boolWord hw]; simp
    simp only [BitVec.lt_def, hd, Bool.false_eq_true, if_false]
    exact carry_iff a.isLt b.isLt
  · have hd : (a + b + boolWord true).toNat = (a.toNat + b.toNat + 1) % 2 ^ w := by
      rw [BitVec.toNat_add, BitVec.toNat_add, toNat_boolWord hw]; simp
    simp only [BitVec.le_def, hd, if_true]
    exact carry1_iff a.isLt b.isLt

theorem subborrow_spec (hw : 0 < w) (c : Bool) (a b : BitVec w) :
    (subborrow c a b).1.toNat + (b.toNat + c.toNat) = a.toNat + (subborrow c a b).2.toNat * 2 ^ w := by
  unfold subborrow
  dsimp only
  have ha := a.isLt
  have hb := b.isLt
  have hP := Nat.two_pow_pos w
  have hd : (a - (b + boolWord c)).toNat = (2 ^ w - (b.toNat + c.toNat) % 2 ^ w + a.toNat) % 2 ^ w := by
    rw [BitVec.toNat_sub, BitVec.toNat_add, toNat_boolWord hw]
  simp only [ge_iff_le, gt_iff_lt, BitVec.le_def, BitVec.lt_def, hd]
  generalize hX : a.toNat = X at *
  generalize hY : b.toNat = Y at *
  generalize 2 ^ w = P at *
  cases c
  · simp only [Bool.toNat_false, Nat.add_zero, Bool.false_eq_true, if_false, Nat.mod_eq_of_lt hb]
    by_cases h : X < Y
    · rw [Nat.mod_eq_of_lt (by omega), show decide (X < Y) = true by simp; omega]; simp; omega
    · rw [show (P - Y + X) % P = X - Y by rw [Nat.mod_eq_sub_mod (by omega), Nat.mod_eq_of_lt (by omega)]; omega,
        show decide (X < Y) = false by simp; omega]
      simp; omega
  · simp only [Bool.toNat_true, if_true]
    by_cases h1 : Y + 1 < P
    · rw [Nat.mod_eq_of_lt h1]
      by_cases h : X ≤ Y
      · rw [Nat.mod_eq_of_lt (by omega), show decide (X ≤ Y) = true by simp; omega]; simp; omega
      · rw [show (P - (Y + 1) + X) % P = X - (Y + 1) by rw [Nat.mod_eq_sub_mod (by omega), Nat.mod_eq_of_lt (by omega)]; omega,
          show decide (X ≤ Y) = false by simp; omega]
        simp; omega
    · have : Y + 1 = P := by omega
      rw [this, Nat.mod_self, Nat.sub_zero, Nat.add_mod_left, Nat.mod_eq_of_lt ha, show decide (X ≤ Y) = true by simp; omega]
      simp

theorem addcarryWide_spec {ww : Nat} (hw : 0 < w) (h : w < ww) (c : Bool) (a b : BitVec w) :
    (addcarryWide ww c a b).1.toNat + (addcarryWide ww c a b).2.toNat * 2 ^ w = a.toNat + b.toNat + c.toNat := by
  unfold addcarryWide
  dsimp only
  have ha := a.isLt
  have hb := b.isLt
  have hPP : 2 ^ w * 2 ≤ 2 ^ ww := by
    rw [← Nat.pow_succ]; exact Nat.pow_le_pow_right (by omega) h
  have hc : c.toNat ≤ 1 := by cases c <;> simp
  have ht : (a.setWidth ww + b.setWidth ww + boolWord c).toNat = a.toNat + b.toNat + c.toNat := by
    rw [BitVec.toNat_add, BitVec.toNat_add, toNat_boolWord (by omega), BitVec.toNat_setWidth_of_le (by omega),
      BitVec.toNat_setWidth_of_le (by omega), Nat.mod_eq_of_lt (a := a.toNat + b.toNat) (by omega), Nat.mod_eq_of_lt (by omega)]
  have hz : (a.setWidth ww + b.setWidth ww + boolWord c) >>> w = 0#ww ↔ a.toNat + b.toNat + c.toNat < 2 ^ w := by
    rw [← BitVec.toNat_inj, BitVec.toNat_ushiftRight, ht, Nat.shiftRight_eq_div_pow]
    simp
  rw [BitVec.toNat_setWidth, ht]
  by_cases hlt : a.toNat + b.toNat + c.toNat < 2 ^ w
  · rw [show decide ((a.setWidth ww + b.setWidth ww + boolWord c) >>> w ≠ 0#ww) = false by simp; exact hz.2 hlt, Nat.mod_eq_of_lt hlt]; simp
  · rw [show decide ((a.setWidth ww + b.setWidth ww + boolWord c) >>> w ≠ 0#ww) = true by simp; exact fun h => hlt (hz.1 h),
      Nat.mod_eq_sub_mod (by omega), Nat.mod_eq_of_lt (by omega)]; simp; omega

theorem subborrowWide_spec {ww : Nat} (hw : 0 < w) (h : w < ww) (c : Bool) (a b : BitVec w) :
    (subborrowWide ww c a b).1.toNat + (b.toNat + c.toNat) = a.toNat + (subborrowWide ww c a b).2.toNat * 2 ^ w := by
  unfold subborrowWide
  dsimp only
  have ha := a.isLt
  have hb := b.isLt
  obtain ⟨e, he⟩ : ∃ e, 2 ^ ww = 2 ^ w * e ∧ 2 ≤ e := by
    refine ⟨2 ^ (ww - w), by rw [← Nat.pow_add]; congr 1; omega, ?_⟩
    calc 2 = 2 ^ 1 := rfl
      _ ≤ _ := Nat.pow_le_pow_right (by omega) (by omega)
  have hPP : 2 ^ w * 2 ≤ 2 ^ ww := by rw [he.1]; exact Nat.mul_le_mul_left _ he.2
  have hc : c.toNat ≤ 1 := by cases c <;> simp
  have ht : (b.setWidth ww + boolWord c).toNat = b.toNat + c.toNat := by
    rw [BitVec.toNat_add, toNat_boolWord (by omega), BitVec.toNat_setWidth_of_le (by omega), Nat.mod_eq_of_lt (by omega)]
  have ha' : (a.setWidth ww).toNat = a.toNat := BitVec.toNat_setWidth_of_le (by omega)
  simp only [gt_iff_lt, BitVec.lt_def, ht, ha']
  rw [BitVec.toNat_setWidth, BitVec.toNat_sub, ht, ha',
    Nat.mod_mod_of_dvd _ (by rw [he.1]; exact Nat.dvd_mul_right _ _)]
  by_cases hlt : a.toNat < b.toNat + c.toNat
  · rw [show decide (a.toNat < b.toNat + c.toNat) = true by simp [hlt]]
    obtain ⟨f, hf⟩ : ∃ f, e = f + 1 := ⟨e - 1, by omega⟩
    rw [he.1, hf, Nat.mul_add, Nat.mul_one,
      show 2 ^ w * f + 2 ^ w - (b.toNat + c.toNat) + a.toNat = (2 ^ w - (b.toNat + c.toNat) + a.toNat) + 2 ^ w * f by omega,
      Nat.add_mul_mod_self_left, Nat.mod_eq_of_lt (by omega)]
    simp; omega
  · rw [show decide (a.toNat < b.toNat + c.toNat) = false by simp; omega]
    rw [he.1, show 2 ^ w * e - (b.toNat + c.toNat) + a.toNat = (a.toNat - (b.toNat + c.toNat)) + 2 ^ w * e by
      have := he.1 ▸ hPP; omega, Nat.add_mul_mod_self_left, Nat.mod_eq_of_lt (by omega)]
    simp; omega

/-! ### multiplication -/

theorem mulx_spec {h : Nat} (hh : 0 < h) (hw : w = h + h) (a b : BitVec w) :
    (mulx a b).2.toNat * 2 ^ w + (mulx a b).1.toNat = a.toNat * b.toNat := by
  have hoff : w / 2 = h := by omega
  have hBB : 2 ^ w = 2 ^ h * 2 ^ h := by rw [hw, Nat.pow_add]
  have hBpos := Nat.two_pow_pos h
  have hlow : ∀ x : BitVec w, (x &&& BitVec.allOnes w >>> (w - h)).toNat = x.toNat % 2 ^ h := by
    intro x
    have hm : (BitVec.allOnes w >>> (w - h)).toNat = 2 ^ h - 1 := by
      rw [BitVec.toNat_ushiftRight, BitVec.toNat_allOnes, Nat.shiftRight_eq_div_pow, show w - h = h by omega, hBB]
      rw [show 2 ^ h * 2 ^ h - 1 = (2 ^ h - 1) + (2 ^ h - 1) * 2 ^ h by
        rw [Nat.sub_mul, Nat.one_mul]
        have : 2 ^ h ≤ 2 ^ h * 2 ^ h := Nat.le_mul_of_pos_right _ hBpos
        omega, Nat.add_mul_div_right _ _ hBpos, Nat.div_eq_of_lt (by omega), Nat.zero_add]
    rw [BitVec.toNat_and, hm, Nat.and_two_pow_sub_one_eq_mod]
  have hhigh : ∀ x : BitVec w, (x >>> h).toNat = x.toNat / 2 ^ h := by
    intro x; rw [BitVec.toNat_ushiftRight, Nat.shiftRight_eq_div_pow]
  have hdiv : ∀ x : BitVec w, x.toNat / 2 ^ h < 2 ^ h := by
    intro x; rw [Nat.div_lt_iff_lt_mul hBpos, ← hBB]; exact x.isLt
  have hmod : ∀ x : BitVec w, x.toNat % 2 ^ h < 2 ^ h := fun x => Nat.mod_lt _ hBpos
  have hsplit : ∀ x : BitVec w, x.toNat = x.toNat / 2 ^ h * 2 ^ h + x.toNat % 2 ^ h := by
    intro x; have := Nat.div_add_mod x.toNat (2 ^ h); rw [Nat.mul_comm] at this; exact this.symm
  have hprod : ∀ x y : Nat, x < 2 ^ h → y < 2 ^ h → x * y < 2 ^ w := by
    intro x y hx hy; rw [hBB]; exact Nat.mul_lt_mul'' hx hy
  have hmul : ∀ x y : BitVec w, x.toNat < 2 ^ h → y.toNat < 2 ^ h → (x * y).toNat = x.toNat * y.toNat := by
    intro x y hx hy; rw [BitVec.toNat_mul, Nat.mod_eq_of_lt (hprod _ _ hx hy)]
  have hw0 : 0 < w := by omega
  unfold mulx
  rw [hoff]
  dsimp only
  generalize hl0 : a &&& BitVec.allOnes w >>> (w - h) = l0
  generalize hm0 : a >>> h = m0
  generalize hl1 : b &&& BitVec.allOnes w >>> (w - h) = l1
  generalize hm1 : b >>> h = m1
  have el0 : l0.toNat = a.toNat % 2 ^ h := by rw [← hl0, hlow]
  have em0 : m0.toNat = a.toNat / 2 ^ h := by rw [← hm0, hhigh]
  have el1 : l1.toNat = b.toNat % 2 ^ h := by rw [← hl1, hlow]
  have em1 : m1.toNat = b.toNat / 2 ^ h := by rw [← hm1, hhigh]
  have bl0 : l0.toNat < 2 ^ h := by rw [el0]; exact hmod a
  have bm0 : m0.toNat < 2 ^ h := by rw [em0]; exact hdiv a
  have bl1 : l1.toNat < 2 ^ h := by rw [el1]; exact hmod b
  have bm1 : m1.toNat < 2 ^ h := by rw [em1]; exact hdiv b
  have ea : a.toNat = m0.toNat * 2 ^ h + l0.toNat := by rw [em0, el0]; exact hsplit a
  have eb : b.toNat = m1.toNat * 2 ^ h + l1.toNat := by rw [em1, el1]; exact hsplit b
  -- middle sum
  have emi := carry_iff (P := 2 ^ w) (hprod _ _ bm0 bl1) (hprod _ _ bl0 bm1)
  have tmi : (m0 * l1 + l0 * m1).toNat = (m0.toNat * l1.toNat + l0.toNat * m1.toNat) % 2 ^ w := by
    rw [BitVec.toNat_add, hmul _ _ bm0 bl1, hmul _ _ bl0 bm1]
  generalize hmi : m0 * l1 + l0 * m1 = mi at *
  have c1 : (decide (mi < m0 * l1) || decide (mi < l0 * m1)) =
      (decide (mi.toNat < m0.toNat * l1.toNat) || decide (mi.toNat < l0.toNat * m1.toNat)) := by
    simp only [BitVec.lt_def, hmul _ _ bm0 bl1, hmul _ _ bl0 bm1]
  rw [c1]
  rw [← tmi] at emi
  generalize (decide (mi.toNat < m0.toNat * l1.toNat) || decide (mi.toNat < l0.toNat * m1.toNat)) = mc at *
  -- low word
  have bmi := mi.isLt
  have tsh : (mi <<< h).toNat = mi.toNat % 2 ^ h * 2 ^ h := by
    rw [BitVec.toNat_shiftLeft, Nat.shiftLeft_eq, hBB, Nat.mul_mod_mul_right]
  have bsh := (mi <<< h).isLt
  have elo := carry_iff (P := 2 ^ w) (hprod _ _ bl0 bl1) bsh
  have tlo : (l0 * l1 + mi <<< h).toNat = (l0.toNat * l1.toNat + (mi <<< h).toNat) % 2 ^ w := by
    rw [BitVec.toNat_add, hmul _ _ bl0 bl1]
  generalize hlo : l0 * l1 + mi <<< h = lo at *
  have c2 : (decide (lo < l0 * l1) || decide (lo < mi <<< h)) =
      (decide (lo.toNat < l0.toNat * l1.toNat) || decide (lo.toNat < (mi <<< h).toNat)) := by
    simp only [BitVec.lt_def, hmul _ _ bl0 bl1]
  rw [c2]
  rw [← tlo] at elo
  generalize (decide (lo.toNat < l0.toNat * l1.toNat) || decide (lo.toNat < (mi <<< h).toNat)) = lc at *
  rw [tsh] at elo
  have hmi2 := hsplit mi
  -- high word
  have key : (mi.toNat / 2 ^ h + m0.toNat * m1.toNat + mc.toNat * 2 ^ h + lc.toNat) * 2 ^ w + lo.toNat = a.toNat * b.toNat := by
    have e1 : (mi.toNat / 2 ^ h * 2 ^ h + mi.toNat % 2 ^ h + mc.toNat * 2 ^ w) * 2 ^ h
        = (m0.toNat * l1.toNat + l0.toNat * m1.toNat) * 2 ^ h := by rw [← hmi2, emi]
    rw [ea, eb]
    rw [hBB] at elo e1 ⊢
    generalize 2 ^ h = B at *
    generalize mi.toNat / B = q at *
    generalize mi.toNat % B = r at *
    linarith [elo, e1]
  have hhi : mi.toNat / 2 ^ h + m0.toNat * m1.toNat + mc.toNat * 2 ^ h + lc.toNat < 2 ^ w := by
    by_contra hn
    have h1 : 2 ^ w * 2 ^ w ≤ (mi.toNat / 2 ^ h + m0.toNat * m1.toNat + mc.toNat * 2 ^ h + lc.toNat) * 2 ^ w :=
      Nat.mul_le_mul_right _ (by omega)
    have h2 : a.toNat * b.toNat < 2 ^ w * 2 ^ w := Nat.mul_lt_mul'' a.isLt b.isLt
    omega
  have hBW : 2 ^ h < 2 ^ w := Nat.pow_lt_pow_right (by omega) (by omega)
  have tmc : (boolWord mc <<< h : BitVec w).toNat = mc.toNat * 2 ^ h := by
    rw [BitVec.toNat_shiftLeft, toNat_boolWord hw0, Nat.shiftLeft_eq, Nat.mod_eq_of_lt]
    cases mc
    · simp
    · simpa using hBW
  rw [BitVec.toNat_add, BitVec.toNat_add, BitVec.toNat_add, hhigh, hmul _ _ bm0 bm1, tmc, toNat_boolWord hw0]
  simp only [Nat.mod_add_mod]
  rw [Nat.mod_eq_of_lt hhi]
  exact key

theorem mulxWide_spec {ww : Nat} (h : w + w ≤ ww) (a b : BitVec w) :
    (mulxWide ww a b).2.toNat * 2 ^ w + (mulxWide ww a b).1.toNat = a.toNat * b.toNat := by
  unfold mulxWide
  dsimp only
  have hlt : a.toNat * b.toNat < 2 ^ w * 2 ^ w := Nat.mul_lt_mul'' a.isLt b.isLt
  have hle : 2 ^ w * 2 ^ w ≤ 2 ^ ww := by rw [← Nat.pow_add]; exact Nat.pow_le_pow_right (by omega) h
  have ht : (a.setWidth ww * b.setWidth ww).toNat = a.toNat * b.toNat := by
    rw [BitVec.toNat_mul, BitVec.toNat_setWidth_of_le (by omega), BitVec.toNat_setWidth_of_le (by omega), Nat.mod_eq_of_lt (by omega)]
  rw [BitVec.toNat_setWidth, BitVec.toNat_setWidth, BitVec.toNat_ushiftRight, ht, Nat.shiftRight_eq_div_pow,
    Nat.mod_eq_of_lt (a := a.toNat * b.toNat / 2 ^ w)]
  · have := Nat.div_add_mod (a.toNat * b.toNat) (2 ^ w); rw [Nat.mul_comm] at this; exact this
  · rw [Nat.div_lt_iff_lt_mul (Nat.two_pow_pos w)]; exact hlt

/-- Every rank below the number of set bits is the rank of a set bit. -/
theorem exists_rank (m : BitVec w) {r : Nat} : ∀ {k : Nat}, r < onesBelow m k →
    ∃ j, j < k ∧ m.getLsbD j = true ∧ onesBelow m j = r := by
  intro k
  induction k with
  | zero => intro h; rw [onesBelow_zero] at h; omega
  | succ k ih =>
    intro h
    by_cases h2 : r < onesBelow m k
    · obtain ⟨j, h3, h4⟩ := ih h2
      exact ⟨j, by omega, h4⟩
    · rw [onesBelow_succ] at h
      by_cases hb : m.getLsbD k = true
      · rw [hb, if_pos rfl] at h
        exact ⟨k, by omega, hb, by omega⟩
      · rw [if_neg hb] at h; omega

end BitLib
