import Verif.Model.Types
import Verif.Props.Words
/- C67: selection of word types, selection of a branch in the multi-word instructions, `_bitcmp`. -/
namespace BitLib
variable {w : Nat}

/-! ### The narrowest and the widest type of a list -/

/-- C67: `_narrowest_type_t<T...>` is one of the types and none of them has fewer bits. -/
theorem C67_narrowest (l : List Nat) (h : l ≠ []) :
    ∃ n, narrowestType l = some n ∧ n ∈ l ∧ ∀ t ∈ l, n ≤ t := by
  match l, h with
  | [t], _ => exact ⟨t, rfl, List.mem_singleton.2 rfl, fun u hu => by rw [List.mem_singleton.1 hu]⟩
  | t :: u :: rest, _ =>
    obtain ⟨n, h1, h2, h3⟩ := C67_narrowest (u :: rest) (List.cons_ne_nil _ _)
    refine ⟨narrowest2 t n, by rw [narrowestType, h1]; rfl, ?_, ?_⟩
    · unfold narrowest2
      split
      · exact List.mem_cons_self
      · split
        · exact List.mem_cons_of_mem _ h2
        · exact List.mem_cons_self
    · intro x hx
      have hle : narrowest2 t n ≤ t ∧ narrowest2 t n ≤ n := by
        unfold narrowest2
        split
        · omega
        · split <;> omega
      rcases List.mem_cons.1 hx with rfl | hx
      · exact hle.1
      · exact Nat.le_trans hle.2 (h3 x hx)

/-- C67: `_widest_type_t<T...>` is one of the types and none of them has more bits. -/
theorem C67_widest (l : List Nat) (h : l ≠ []) :
    ∃ n, widestType l = some n ∧ n ∈ l ∧ ∀ t ∈ l, t ≤ n := by
  match l, h with
  | [t], _ => exact ⟨t, rfl, List.mem_singleton.2 rfl, fun u hu => by rw [List.mem_singleton.1 hu]⟩
  | t :: u :: rest, _ =>
    obtain ⟨n, h1, h2, h3⟩ := C67_widest (u :: rest) (List.cons_ne_nil _ _)
    refine ⟨widest2 t n, by rw [widestType, h1]; rfl, ?_, ?_⟩
    · unfold widest2
      split
      · exact List.mem_cons_self
      · split
        · exact List.mem_cons_of_mem _ h2
        · exact List.mem_cons_self
    · intro x hx
      have hle : t ≤ widest2 t n ∧ n ≤ widest2 t n := by
        unfold widest2
        split
        · omega
        · split <;> omega
      rcases List.mem_cons.1 hx with rfl | hx
      · exact hle.1
      · exact Nat.le_trans (h3 x hx) hle.2

example : narrowestType [32, 8, 64, 16] = some 8 ∧ widestType [32, 8, 64, 16] = some 64 := by decide

/-! ### The next narrower and the next wider type -/

/-- The sizes of the standard unsigned types. -/
def StdBits (b : Nat) : Prop := b = 8 ∨ b = 16 ∨ b = 32 ∨ b = 64

/-- C67: `_narrower_type_t<T>` is the widest standard type with fewer bits than `T`, if there is one. -/
theorem C67_narrower (w : Nat) (hw : 8 < w) :
    StdBits (narrowerType w) ∧ narrowerType w < w ∧ ∀ b, StdBits b → b < w → b ≤ narrowerType w := by
  have h : narrowerType w = if w > 64 then 64 else if w > 32 then 32 else if w > 16 then 16 else 8 := by
    show narrowerFrom w [64, 64, 32, 16, 8] = _
    simp only [narrowerFrom]
    split <;> rfl
  rw [h]
  unfold StdBits
  refine ⟨?_, ?_, ?_⟩
  · split
    · omega
    · split
      · omega
      · split <;> omega
  · split
    · omega
    · split
      · omega
      · split <;> omega
  · intro b hb hlt
    split
    · omega
    · split
      · omega
      · split <;> omega

/-- C67: for a type of at most 8 bits it is `unsigned char`. -/
theorem C67_narrower_none (w : Nat) (hw : w ≤ 8) : narrowerType w = 8 := by
  show narrowerFrom w [64, 64, 32, 16, 8] = _
  simp only [narrowerFrom]
  rw [if_neg (by omega), if_neg (by omega), if_neg (by omega), if_neg (by omega)]

/-- `_wider_type_t<T>` continues with `_narrower_type`, so it is never wider than `T`. -/
theorem C67_wider_exact (w : Nat) (hw : 8 ≤ w) : widerType w = narrowerType w ∧ widerType w ≤ w := by
  have h1 : widerType w = narrowerFrom w [64, 32, 16, 8] := by
    show (if w < 8 then 8 else _) = _
    rw [if_neg (by omega)]; rfl
  have h2 : narrowerType w = narrowerFrom w [64, 32, 16, 8] := by
    show narrowerFrom w [64, 64, 32, 16, 8] = _
    simp only [narrowerFrom]
    split <;> rfl
  refine ⟨by rw [h1, h2], ?_⟩
  rw [h1]
  simp only [narrowerFrom]
  split
  · omega
  · split
    · omega
    · split <;> omega

/-- C67 is false for `_wider_type_t`: 8, 16 and 32 bits have a wider standard type, and it is not selected. -/
theorem C67_wider_refuted (w : Nat) (h : w = 8 ∨ w = 16 ∨ w = 32) :
    (∃ b, StdBits b ∧ w < b) ∧ ¬ w < widerType w :=
  ⟨⟨64, Or.inr (Or.inr (Or.inr rfl)), by omega⟩, by have := (C67_wider_exact w (by omega)).2; omega⟩

/-! ### The branch taken by `_addcarry`, `_subborrow`, `_mulx` -/

/-- C67: the branches that compute in a wider type are never taken. -/
theorem C67_wide_unreachable (w : Nat) (hw : 8 ≤ w) : carryBranch w ≠ .wide ∧ mulxBranch w ≠ .wide := by
  have h := (C67_wider_exact w hw).2
  constructor
  · unfold carryBranch
    rw [if_neg (show ¬ w < widerType w by omega)]
    split
    · decide
    · split <;> decide
  · unfold mulxBranch
    rw [if_neg (show ¬ w + w = widerType w by omega)]
    split <;> decide

/-- C67: with intrinsics, `_addcarry` gives the exact sum and carry for every word type. -/
theorem C67_addcarry (hw : 8 ≤ w) (c : Bool) (a b : BitVec w) :
    (addcarrySel c a b).1.toNat + (addcarrySel c a b).2.toNat * 2 ^ w = a.toNat + b.toNat + c.toNat := by
  unfold addcarrySel
  have hb := (C67_wide_unreachable w hw).1
  cases hc : carryBranch w with
  | wide => exact absurd hc hb
  | portable => exact addcarry_spec (by omega) c a b
  | builtin =>
    have h1 := a.isLt
    have h2 := b.isLt
    have h3 : c.toNat ≤ 1 := by cases c <;> decide
    simp only [builtinAddcarry, BitVec.toNat_ofNat]
    by_cases h : 2 ^ w ≤ a.toNat + b.toNat + c.toNat
    · rw [decide_eq_true h, Nat.mod_eq_sub_mod h, Nat.mod_eq_of_lt (by omega)]
      simp only [Bool.toNat_true]
      omega
    · rw [decide_eq_false h, Nat.mod_eq_of_lt (by omega)]
      simp

/-- C67: with intrinsics, `_subborrow` gives the exact difference and borrow for every word type. -/
theorem C67_subborrow (hw : 8 ≤ w) (c : Bool) (a b : BitVec w) :
    (subborrowSel c a b).1.toNat + (b.toNat + c.toNat) = a.toNat + (subborrowSel c a b).2.toNat * 2 ^ w := by
  unfold subborrowSel
  have hb := (C67_wide_unreachable w hw).1
  cases hc : carryBranch w with
  | wide => exact absurd hc hb
  | portable => exact subborrow_spec (by omega) c a b
  | builtin =>
    have h1 := a.isLt
    have h2 := b.isLt
    have h3 : c.toNat ≤ 1 := by cases c <;> decide
    simp only [builtinSubborrow, BitVec.toNat_ofNat]
    by_cases h : a.toNat < b.toNat + c.toNat
    · rw [decide_eq_true h, show a.toNat + 2 * 2 ^ w - (b.toNat + c.toNat) = (a.toNat + 2 ^ w - (b.toNat + c.toNat)) + 2 ^ w by omega,
        Nat.add_mod_right, Nat.mod_eq_of_lt (by omega)]
      simp only [Bool.toNat_true]
      omega
    · rw [decide_eq_false h,
        show a.toNat + 2 * 2 ^ w - (b.toNat + c.toNat) = (a.toNat - (b.toNat + c.toNat)) + 2 ^ w + 2 ^ w by omega,
        Nat.add_mod_right, Nat.add_mod_right, Nat.mod_eq_of_lt (by omega)]
      simp only [Bool.toNat_false]
      omega

/-- C67: with intrinsics, `_mulx` gives the exact double-width product for every word type of even width. -/
theorem C67_mulx {k : Nat} (hw : 8 ≤ w) (hk : w = k + k) (a b : BitVec w) :
    (mulxSel a b).2.toNat * 2 ^ w + (mulxSel a b).1.toNat = a.toNat * b.toNat := by
  unfold mulxSel
  have hb := (C67_wide_unreachable w hw).2
  cases hc : mulxBranch w with
  | wide => exact absurd hc hb
  | portable => exact mulx_spec (h := k) (by omega) hk a b
  | builtin =>
    have h64 : w = 64 := by
      unfold mulxBranch at hc
      by_cases h : w = 64
      · exact h
      · rw [if_neg h] at hc
        split at hc <;> cases hc
    exact mulxWide_spec (by omega) a b

example : carryBranch 8 = .portable ∧ carryBranch 16 = .portable ∧ carryBranch 32 = .builtin ∧ mulxBranch 32 = .portable ∧
    mulxBranch 64 = .builtin := by decide
example : addcarrySel true 0xff#8 0x01#8 = (0x01#8, true) ∧ subborrowSel true 0x00#32 0x00#32 = (0xffffffff#32, true) ∧
    mulxSel 0xffff#16 0xffff#16 = (0x0001#16, 0xfffe#16) := by decide +kernel

/-! ### `_bitcmp` -/

/-- C67: `_bitcmp` returns 1 if the two fields of `len` bits are equal and 0 if they differ. -/
theorem C67_bitcmp_partial (S : ShiftSem w) (x y : BitVec w) (s t len : Nat) (hs : s < w) (ht : t < w)
    (hl : len < w ∨ S.FullShiftOk) (hsl : s + len ≤ w) (htl : t + len ≤ w) :
    ((∀ i, i < len → x.getLsbD (s + i) = y.getLsbD (t + i)) → bitcmp S x y s t len = .ok 1#w) ∧
    ((∃ i, i < len ∧ x.getLsbD (s + i) ≠ y.getLsbD (t + i)) → bitcmp S x y s t len = .ok 0#w) := by
  obtain ⟨a, ha, ha'⟩ := C40_bextr_partial S x s len hs hl hsl
  obtain ⟨b, hb, hb'⟩ := C40_bextr_partial S y t len ht hl htl
  have e : bitcmp S x y s t len = .ok (boolWord (decide (a = b))) := by
    unfold bitcmp
    rw [ha, hb]; rfl
  rw [e]
  constructor
  · intro h
    have : a = b := by
      apply BitVec.eq_of_getLsbD_eq
      intro i hi
      rw [ha' i hi, hb' i hi]
      by_cases hil : i < len
      · rw [if_pos hil, if_pos hil, h i hil]
      · rw [if_neg hil, if_neg hil]
    rw [decide_eq_true this]
    simp [boolWord]
  · rintro ⟨i, hi, hne⟩
    have : a ≠ b := by
      intro h
      have := congrArg (fun z => z.getLsbD i) h
      beta_reduce at this
      rw [ha' i (by omega), hb' i (by omega), if_pos hi, if_pos hi] at this
      exact hne this
    rw [decide_eq_false this]
    simp [boolWord]

/-- The comment of `_bitcmp` ("returns 0 if equal") is false: comparing any field with itself returns 1. -/
theorem C67_bitcmp_refuted (S : ShiftSem w) (x : BitVec w) (s len : Nat) (hs : s < w) (hl : len < w) (hsl : s + len ≤ w) :
    bitcmp S x x s s len = .ok 1#w ∧ (1#w : BitVec w) ≠ 0#w := by
  refine ⟨(C67_bitcmp_partial S x x s s len hs hs (Or.inl hl) hsl hsl).1 fun _ _ => rfl, ?_⟩
  intro h
  have := congrArg (fun z => z.getLsbD 0) h
  simp at this
  omega

/-- Comparing two whole 32- or 64-bit words shifts by the word width. -/
theorem C67_bitcmp_whole_refuted (x y : BitVec w) : bitcmp (Unpromoted w) x y 0 0 w = .error .overshift := by
  unfold bitcmp
  rw [(C40_refuted x y).1]; rfl

example : bitcmp S8 0b10110010#8 0b01011001#8 1 0 7 = .ok 1#8 ∧ bitcmp S8 0b10110010#8 0b01011101#8 1 0 7 = .ok 0#8 := by decide +kernel
example : bitcmp S16 0xabcd#16 0xcdab#16 0 8 8 = .ok 1#16 := by decide +kernel

/-! ### `_byteswap` -/

theorem getLsbD_bswapFold (x : BitVec w) {n : Nat} (hw : w = 8 * n) : ∀ (k : Nat), k ≤ n → ∀ b, b < w →
    ((List.range k).foldl (fun acc i => acc ||| ((getByte x i).setWidth w <<< (8 * (n - 1 - i)))) 0#w).getLsbD b =
      (decide (n - 1 - b / 8 < k) && x.getLsbD (8 * (n - 1 - b / 8) + b % 8)) := by
  intro k
  induction k with
  | zero => intro _ b _; simp
  | succ k ih =>
    intro hk b hb
    rw [List.range_succ, List.foldl_append, List.foldl_cons, List.foldl_nil, BitVec.getLsbD_or, ih (by omega) b hb, BitVec.getLsbD_shiftLeft,
      BitVec.getLsbD_setWidth]
    by_cases h1 : n - 1 - b / 8 = k
    · have h2 : b - 8 * (n - 1 - k) < 8 := by omega
      rw [getLsbD_getByte _ _ _ h2]
      have h3 : 8 * k + (b - 8 * (n - 1 - k)) = 8 * (n - 1 - b / 8) + b % 8 := by omega
      rw [h3]
      have h4 : ¬ b < 8 * (n - 1 - k) := by omega
      have h5 : b - 8 * (n - 1 - k) < w := by omega
      simp [h1, h4, h5, hb]
    · have h6 : (decide (b < w) && !decide (b < 8 * (n - 1 - k)) && (decide (b - 8 * (n - 1 - k) < w) &&
          (getByte x k).getLsbD (b - 8 * (n - 1 - k)))) = false := by
        by_cases h2 : b < 8 * (n - 1 - k)
        · simp [h2]
        · rw [BitVec.getLsbD_of_ge (getByte x k) _ (by omega)]; simp
      rw [h6, Bool.or_false]
      congr 1
      simp only [decide_eq_decide]
      omega

/-- C44: `_byteswap` with intrinsics reverses the order of the bytes, for every type. -/
theorem C44_selected (n : Nat) (x : BitVec (8 * n)) (i : Nat) (hi : i < n) : byteOf (byteswapSel x) i = byteOf x (n - 1 - i) := by
  have key : byteswapSel x = byteswap x := by
    apply BitVec.eq_of_getLsbD_eq
    intro b hb
    rw [byteswap_spec x rfl b hb]
    have hbs : (builtinBswap x).getLsbD b = x.getLsbD (8 * (n - 1 - b / 8) + b % 8) := by
      unfold builtinBswap
      rw [show 8 * n / 8 = n by omega, getLsbD_bswapFold x rfl n (Nat.le_refl _) b hb]
      have : n - 1 - b / 8 < n := by omega
      simp [this]
    unfold byteswapSel
    by_cases h : 8 * n = 128
    · rw [dif_pos h, BitVec.getLsbD_cast, byteswap128_spec _ _ (by omega), BitVec.getLsbD_cast]
      congr 1; omega
    · rw [dif_neg h]
      split_ifs with h1 h2 h3 h4
      · exact hbs
      · exact hbs
      · exact hbs
      · exact byteswap_spec x rfl b hb
      · congr 1; omega
  rw [key]
  exact C44_byteswap n x i hi

example : byteswapSel 0x12345678#32 = 0x78563412#32 ∧ byteswapSel 0x12#8 = 0x12#8 ∧
    byteswapSel 0x0102030405060708090a0b0c0d0e0f10#128 = 0x100f0e0d0c0b0a090807060504030201#128 := by decide +kernel

end BitLib
