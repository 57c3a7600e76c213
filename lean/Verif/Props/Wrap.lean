import Verif.Lemmas.Wrap
/- C55: iterator arithmetic in 64-bit machine integers. The word widths of the library divide `2^63`. -/
namespace BitLib
variable {w : Nat}

/-- C55: exact outcome of iterator difference when the true distance fits a signed 64-bit integer: the distance, except
that the signed product `main * digits` overflows when it is `2^63`. -/
theorem C55_difference_exact (hdvd : (w : Int) ∣ 2 ^ 63) (l r : BitIter w) (hl : l.Valid) (hr : r.Valid)
    (hfit : FitsS64 (l.addr - r.addr)) :
    l.diff64 r = if (l.base - r.base) * (w : Int) = 2 ^ 63 then .error .signedOverflow else .ok (l.addr - r.addr) := by
  have hl' : l.pos < w := hl
  have hr' : r.pos < w := hr
  have hla : l.addr = l.base * w + l.pos := rfl
  have hra : r.addr = r.base * w + r.pos := rfl
  have hsub := Int.sub_mul l.base r.base w
  generalize hD : l.base - r.base = D at *
  have hw1 : (1 : Int) ≤ w := by omega
  obtain ⟨k, hk⟩ := hdvd
  obtain ⟨f1, f2⟩ := hfit
  -- the product is a multiple of w within w of the distance
  have hlow : -2 ^ 63 ≤ D * (w : Int) := by
    rcases Int.lt_or_le D (-k) with h | h
    · have := Int.mul_le_mul_of_nonneg_right (show D + 1 ≤ -k by omega) (show (0 : Int) ≤ w by omega)
      rw [Int.add_mul, Int.one_mul, Int.neg_mul, Int.mul_comm k] at this
      omega
    · have := Int.mul_le_mul_of_nonneg_right h (show (0 : Int) ≤ w by omega)
      rw [Int.neg_mul, Int.mul_comm k] at this
      omega
  have hhigh : D * (w : Int) ≤ 2 ^ 63 := by
    rcases Int.lt_or_le k D with h | h
    · have := Int.mul_le_mul_of_nonneg_right (show k + 1 ≤ D by omega) (show (0 : Int) ≤ w by omega)
      rw [Int.add_mul, Int.one_mul, Int.mul_comm k] at this
      omega
    · have := Int.mul_le_mul_of_nonneg_right h (show (0 : Int) ≤ w by omega)
      rw [Int.mul_comm k] at this
      omega
  unfold BitIter.diff64
  rw [hD]
  simp only [bind, Except.bind, pure, Except.pure]
  have habs : -2 ^ 63 ≤ D ∧ (D < 2 ^ 63 ∨ D * (w : Int) = 2 ^ 63) := by
    rcases Int.le_total 0 D with h | h
    · have := Int.mul_le_mul_of_nonneg_left hw1 h
      rw [Int.mul_one] at this
      omega
    · have := Int.mul_le_mul_of_nonpos_left (a := D) h hw1
      rw [Int.mul_one] at this
      omega
  by_cases hc : D * (w : Int) = 2 ^ 63
  · rw [if_pos hc]
    by_cases hDf : FitsS64 D
    · rw [signed_ok hDf]
      dsimp only
      rw [signed_bad (by rw [hc]; unfold FitsS64; omega)]
    · rw [signed_bad hDf]
  · rw [if_neg hc, signed_ok ⟨habs.1, by omega⟩]
    dsimp only
    rw [signed_ok ⟨hlow, by omega⟩]
    dsimp only
    rw [toS_eq (x := l.addr - r.addr) (by
      rw [ofNat_toU, ofNat_toU, toU_sub, toU_add]; congr 1; omega) ⟨f1, f2⟩]

/-- C55 for differences (missing: the product `2^63`, see `C55_refuted_difference`): the machine result is the true distance,
and equals the difference of the unbounded model. -/
theorem C55_difference_partial (hdvd : (w : Int) ∣ 2 ^ 63) (l r : BitIter w) (hl : l.Valid) (hr : r.Valid)
    (hfit : FitsS64 (l.addr - r.addr)) (hprod : (l.base - r.base) * (w : Int) ≠ 2 ^ 63) :
    l.diff64 r = .ok (l.addr - r.addr) ∧ l.diff64 r = .ok (l.diff r) := by
  rw [C55_difference_exact hdvd l r hl hr hfit, if_neg hprod, BitIter.diff_eq]
  exact ⟨rfl, rfl⟩

/-- A misaligned pair whose position difference wraps around in `size_t`. -/
example : (⟨5, 1⟩ : BitIter 8).Valid ∧ (⟨2, 7⟩ : BitIter 8).Valid ∧ FitsS64 ((⟨5, 1⟩ : BitIter 8).addr - (⟨2, 7⟩ : BitIter 8).addr) ∧
    ((5 : Int) - 2) * (8 : Nat) ≠ 2 ^ 63 ∧ ((8 : Nat) : Int) ∣ 2 ^ 63 ∧
    BitVec.ofNat 64 1 - BitVec.ofNat 64 7 = BitVec.ofNat 64 (2 ^ 64 - 6) ∧ (⟨5, 1⟩ : BitIter 8).diff64 ⟨2, 7⟩ = .ok 18 :=
  ⟨by decide, by decide, by decide, by decide, ⟨2 ^ 60, by decide⟩, by decide, rfl⟩

/-- C55 as stated is false of the difference: two iterators `2^63 - 1` bits apart, whose distance fits a signed 64-bit
integer, make the signed product `main * digits` overflow. -/
theorem C55_refuted_difference :
    ¬ ∀ (l r : BitIter 8), l.Valid → r.Valid → FitsS64 (l.addr - r.addr) → l.diff64 r = .ok (l.addr - r.addr) := by
  intro h
  have := h ⟨2 ^ 60, 0⟩ ⟨0, 1⟩ (by decide) (by decide) (by decide)
  rw [C55_difference_exact ⟨2 ^ 60, by decide⟩ _ _ (by decide) (by decide) (by decide), if_pos (by decide)] at this
  cases this

/-- C55 for `distance` (missing: as for differences, because the assertion evaluates `last - first`). -/
theorem C55_distance_partial (hdvd : (w : Int) ∣ 2 ^ 63) (first last : BitIter w) (hf : first.Valid) (hl : last.Valid)
    (hle : first.addr ≤ last.addr) (hfit : FitsS64 (last.addr - first.addr))
    (hprod : (last.base - first.base) * (w : Int) ≠ 2 ^ 63) :
    distance64 first last = .ok (last.addr - first.addr) := by
  have h1 := (C55_difference_partial hdvd last first hl hf hfit hprod).1
  have hmain : FitsS64 (last.base - first.base) := by
    refine Classical.byContradiction fun hc => ?_
    unfold BitIter.diff64 at h1
    rw [signed_bad hc] at h1
    cases h1
  unfold distance64
  rw [h1]
  simp only [bind, Except.bind, pure, Except.pure]
  rw [if_pos (by omega), signed_ok hmain]
  dsimp only
  rw [toS_eq (x := last.addr - first.addr) (by
    rw [ofNat_toU, ofNat_toU, ofNat_toU, toU_sub, toU_mul, toU_add]; congr 1
    have hla : last.addr = last.base * w + last.pos := rfl
    have hfa : first.addr = first.base * w + first.pos := rfl
    rw [Int.sub_mul]; omega) hfit]

/-- C55: the `size_t` expression of `distance` by itself is exact whenever the distance fits, with no exception. -/
theorem C55_distance_expression (first last : BitIter w) (hfit : FitsS64 (last.addr - first.addr)) :
    toS (toU (last.base - first.base) * BitVec.ofNat 64 w + (BitVec.ofNat 64 last.pos - BitVec.ofNat 64 first.pos))
      = last.addr - first.addr := by
  refine toS_eq ?_ hfit
  rw [ofNat_toU, ofNat_toU, ofNat_toU, toU_sub, toU_mul, toU_add]; congr 1
  have hla : last.addr = last.base * w + last.pos := rfl
  have hfa : first.addr = first.base * w + first.pos := rfl
  rw [Int.sub_mul]; omega

/-- C55: exact outcome of `it + n` for every signed 64-bit `n`: the mathematical result when `_position + n` fits;
otherwise the sum wraps and the result is `2^64` bits too low. Never undefined. -/
theorem C55_add_exact (hdvd : (w : Int) ∣ 2 ^ 63) (it : BitIter w) (hv : it.Valid) (n : Int) (hn : FitsS64 n) :
    it.add64 n = .ok (if (it.pos : Int) + n < 2 ^ 63 then it.add n else it.add (n - 2 ^ 64)) := by
  have hv' : it.pos < w := hv
  have hw : 0 < w := by omega
  have hwle : (w : Int) ≤ 2 ^ 63 := Int.le_of_dvd (by decide) hdvd
  obtain ⟨n1, n2⟩ := hn
  unfold BitIter.add64
  by_cases h : (it.pos : Int) + n < 2 ^ 63
  · rw [if_pos h, toS_eq (x := it.pos + n) (by rw [ofNat_toU, toU_add]) ⟨by omega, h⟩,
      step64_ok hw hdvd it _ ⟨by omega, h⟩, BitIter.add_eq hw]
  · have e : it.pos + n = it.pos + (n - 2 ^ 64) + 2 ^ 64 := by omega
    rw [if_neg h, toS_eq (x := it.pos + (n - 2 ^ 64)) (by
        rw [ofNat_toU, toU_add, e]
        unfold toU
        rw [BitVec.ofInt_add (it.pos + (n - 2 ^ 64)) (2 ^ 64), show BitVec.ofInt 64 (2 ^ 64) = 0#64 by decide, BitVec.add_zero])
        ⟨by omega, by omega⟩,
      step64_ok hw hdvd it _ ⟨by omega, by omega⟩, BitIter.add_eq hw]

/-- C55 for `it + n` (missing: `_position + n` beyond the signed range, see `C55_refuted_add`). -/
theorem C55_add_partial (hdvd : (w : Int) ∣ 2 ^ 63) (it : BitIter w) (hv : it.Valid) (n : Int) (hn : FitsS64 n)
    (hsum : (it.pos : Int) + n < 2 ^ 63) : it.add64 n = .ok (it.add n) := by
  rw [C55_add_exact hdvd it hv n hn, if_pos hsum]

/-- C55 as stated is false of `it + n`: from position 1, an advance by `2^63 - 1` bits ends `2^64` bits too low. -/
theorem C55_refuted_add :
    ¬ ∀ (it : BitIter 8) (n : Int), it.Valid → FitsS64 n → ∃ r : BitIter 8, it.add64 n = .ok r ∧ r.addr = it.addr + n := by
  intro h
  obtain ⟨r, h1, h2⟩ := h ⟨0, 1⟩ (2 ^ 63 - 1) (by decide) (by decide)
  rw [C55_add_exact ⟨2 ^ 60, by decide⟩ _ (by decide) _ (by decide), if_neg (by decide)] at h1
  injection h1 with h1
  rw [← h1, BitIter.add_addr (by decide)] at h2
  omega

/-- C55: exact outcome of `it - n` for every signed 64-bit `n`. -/
theorem C55_sub_exact (hdvd : (w : Int) ∣ 2 ^ 63) (it : BitIter w) (hv : it.Valid) (n : Int) (hn : FitsS64 n) :
    it.sub64 n = .ok (if (it.pos : Int) - n < 2 ^ 63 then it.sub n else it.sub (n + 2 ^ 64)) := by
  have hv' : it.pos < w := hv
  have hw : 0 < w := by omega
  have hwle : (w : Int) ≤ 2 ^ 63 := Int.le_of_dvd (by decide) hdvd
  obtain ⟨n1, n2⟩ := hn
  unfold BitIter.sub64
  by_cases h : (it.pos : Int) - n < 2 ^ 63
  · rw [if_pos h, toS_eq (x := it.pos - n) (by rw [ofNat_toU, toU_sub]) ⟨by omega, h⟩,
      step64_ok hw hdvd it _ ⟨by omega, h⟩, BitIter.sub_eq_add, BitIter.add_eq hw, Int.sub_eq_add_neg]
  · have e : it.pos - n = it.pos - (n + 2 ^ 64) + 2 ^ 64 := by omega
    rw [if_neg h, toS_eq (x := it.pos - (n + 2 ^ 64)) (by
        rw [ofNat_toU, toU_sub, e]
        unfold toU
        rw [BitVec.ofInt_add (it.pos - (n + 2 ^ 64)) (2 ^ 64), show BitVec.ofInt 64 (2 ^ 64) = 0#64 by decide, BitVec.add_zero])
        ⟨by omega, by omega⟩,
      step64_ok hw hdvd it _ ⟨by omega, by omega⟩, BitIter.sub_eq_add, BitIter.add_eq hw, ← Int.sub_eq_add_neg]

/-- C55 for `it - n` (missing: `_position - n` beyond the signed range). -/
theorem C55_sub_partial (hdvd : (w : Int) ∣ 2 ^ 63) (it : BitIter w) (hv : it.Valid) (n : Int) (hn : FitsS64 n)
    (hsum : (it.pos : Int) - n < 2 ^ 63) : it.sub64 n = .ok (it.sub n) := by
  rw [C55_sub_exact hdvd it hv n hn, if_pos hsum]

/-- A backward step over a word boundary: `_position + n` is negative, the `size_t` sum wraps. -/
example : (⟨3, 2⟩ : BitIter 8).Valid ∧ FitsS64 (-9) ∧ ((2 : Nat) : Int) + (-9) < 2 ^ 63 ∧
    (⟨3, 2⟩ : BitIter 8).add64 (-9) = .ok ⟨2, 1⟩ := ⟨by decide, by decide, by decide, rfl⟩

end BitLib
