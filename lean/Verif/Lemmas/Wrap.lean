import Verif.Model.Wrap
import Verif.Lemmas.Iter
/- 64-bit iterator arithmetic. -/
namespace BitLib
variable {w : Nat}

theorem signed_ok {x : Int} (h : FitsS64 x) : signed x = .ok x := if_pos h

theorem signed_bad {x : Int} (h : ¬ FitsS64 x) : signed x = .error .signedOverflow := if_neg h

/-- A machine integer that is congruent to `x` is `x`, when `x` fits. -/
theorem toS_eq {b : BitVec 64} {x : Int} (h : b = toU x) (hx : FitsS64 x) : toS b = x := by
  subst h
  unfold toS toU
  rw [BitVec.toInt_ofInt]
  obtain ⟨h1, h2⟩ := hx
  rw [Int.bmod_eq_of_le (by omega) (by omega)]

theorem toU_add (x y : Int) : toU x + toU y = toU (x + y) := by
  unfold toU; rw [BitVec.ofInt_add]

theorem toU_sub (x y : Int) : toU x - toU y = toU (x - y) := by
  unfold toU; rw [BitVec.sub_eq_add_neg, Int.sub_eq_add_neg, BitVec.ofInt_add, BitVec.ofInt_neg]

theorem toU_mul (x y : Int) : toU x * toU y = toU (x * y) := by
  unfold toU; rw [BitVec.ofInt_mul]

theorem ofNat_toU (n : Nat) : BitVec.ofNat 64 n = toU (n : Int) := by
  unfold toU; rw [BitVec.ofInt_natCast]

theorem toU_toNat {x : Int} (h0 : 0 ≤ x) (h1 : x < 2 ^ 64) : (toU x).toNat = x.toNat := by
  unfold toU
  rw [BitVec.toNat_ofInt]
  congr 1
  exact Int.emod_eq_of_lt h0 (by simpa using h1)


/-- The division step, for a sum that fits: no overflow, no failed assertion, the mathematical result. -/
theorem step64_ok (hw : 0 < w) (hdvd : (w : Int) ∣ 2 ^ 63) (it : BitIter w) (sum : Int) (hs : FitsS64 sum) :
    it.step64 sum = .ok ⟨it.base + sum / (w : Int), (sum % (w : Int)).toNat⟩ := by
  obtain ⟨h1, h2⟩ := hs
  have hw1 : (1 : Int) ≤ w := by omega
  have hwle : (w : Int) ≤ 2 ^ 63 := Int.le_of_dvd (by decide) hdvd
  have hdm := Int.mul_ediv_add_emod sum w
  have hm0 := Int.emod_nonneg sum (b := (w : Int)) (by omega)
  have hm1 := Int.emod_lt_of_pos sum (b := (w : Int)) (by omega)
  rw [Int.mul_comm] at hdm
  -- the floor product is bounded below by -2^63 because w divides 2^63
  have hlow : -2 ^ 63 ≤ sum / (w : Int) * w := by
    obtain ⟨k, hk⟩ := hdvd
    have : -k ≤ sum / (w : Int) := by
      rw [Int.le_ediv_iff_mul_le (by omega), Int.neg_mul, Int.mul_comm]; omega
    have := Int.mul_le_mul_of_nonneg_right this (show (0 : Int) ≤ w by omega)
    rw [Int.neg_mul, Int.mul_comm k] at this
    omega
  have hdivb : ∀ d : Int, -2 ^ 63 ≤ d * (w : Int) → d * (w : Int) < 2 ^ 63 → FitsS64 d := by
    intro d ha hb
    rcases Int.le_total 0 d with h | h
    · have := Int.mul_le_mul_of_nonneg_left hw1 h
      rw [Int.mul_one] at this
      exact ⟨by omega, by omega⟩
    · have := Int.mul_le_mul_of_nonpos_left (a := d) h hw1
      rw [Int.mul_one] at this
      exact ⟨by omega, by omega⟩
  -- truncated quotient
  have ht := Int.tmod_add_tdiv_mul sum w
  have htp : -2 ^ 63 ≤ Int.tdiv sum w * (w : Int) ∧ Int.tdiv sum w * (w : Int) < 2 ^ 63 := by
    rcases Int.le_total 0 sum with h | h
    · have h3 := Int.tmod_nonneg (w : Int) h
      have h4 := Int.tmod_lt_of_pos sum (show (0 : Int) < w by omega)
      have h5 : 0 ≤ Int.tdiv sum w := Int.tdiv_nonneg h (by omega)
      have := Int.mul_nonneg h5 (show (0 : Int) ≤ w by omega)
      omega
    · have h5 : 0 ≤ Int.tdiv (-sum) w := Int.tdiv_nonneg (by omega) (by omega)
      have h3 := Int.tmod_nonneg (w : Int) (show 0 ≤ -sum by omega)
      have h6 := Int.mul_nonneg h5 (show (0 : Int) ≤ w by omega)
      have h7 := Int.tmod_add_tdiv_mul (-sum) w
      have h8 := Int.neg_tdiv (a := sum) (b := (w : Int))
      rw [h8, Int.neg_mul] at h6 h7
      omega
  have hff := BitIter.floor_fix hw sum
  unfold BitIter.step64
  simp only [bind, Except.bind, pure, Except.pure]
  rw [signed_ok (hdivb _ htp.1 htp.2)]
  dsimp only
  rw [signed_ok ⟨htp.1, htp.2⟩]
  dsimp only
  have hfit : FitsS64 (sum / (w : Int)) := hdivb _ hlow (by omega)
  have hstep : (if sum < 0 ∧ Int.tdiv sum w * (w : Int) ≠ sum then signed (Int.tdiv sum w - 1) else Except.ok (Int.tdiv sum w))
      = .ok (sum / (w : Int)) := by
    by_cases hc : sum < 0 ∧ Int.tdiv sum w * (w : Int) ≠ sum
    · rw [if_pos hc] at hff ⊢
      rw [hff, signed_ok hfit]
    · rw [if_neg hc] at hff ⊢
      rw [hff]
  rw [hstep]
  dsimp only
  rw [signed_ok ⟨hlow, by omega⟩]
  dsimp only
  have hpos : sum - sum / (w : Int) * w = sum % (w : Int) := by omega
  rw [hpos, signed_ok ⟨by omega, by omega⟩]
  dsimp only
  rw [toU_toNat hm0 (by omega), if_pos (by omega)]

end BitLib
