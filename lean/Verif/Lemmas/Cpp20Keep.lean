import Verif.Lemmas.Cpp20Vec
/-
C96: with a library that leaves the vacated words alone the C++20 build is the other build; `reverse` is the same with every library.
-/
namespace BitLib
variable {w : Nat}

theorem scribble_keep {a b : Int} {f : Mem w → Int → BitVec w} (hf : ∀ m i, f m i = (m i).getD 0) : scribble a b f = pure () := by
  funext m
  unfold scribble
  have : (fun i => if a ≤ i ∧ i < b then (m i).map fun _ => f m i else m i) = m := by
    funext i
    split_ifs
    · rw [hf]; cases m i <;> rfl
    · rfl
  rw [this]; rfl

theorem stdShiftLeft_keep {a b n : Int} (hn : 0 ≤ n) : stdShiftLeft (w := w) Vacated.keep a b n = wordShiftLeft a b n := by
  unfold stdShiftLeft wordShiftLeft
  rw [if_neg (by omega)]
  by_cases h : n = 0
  · rw [if_pos h, if_pos (by omega)]
  · have hk : scribble (b - n) b ((Vacated.keep : Vacated w).left a b n) = pure () := scribble_keep fun _ _ => rfl
    simp only [if_neg h, if_neg (show ¬ n ≤ 0 by omega), hk, pure_bind, bind_pure]

theorem stdShiftRight_keep {a b n : Int} (hn : 0 ≤ n) : stdShiftRight (w := w) Vacated.keep a b n = wordShiftRight a b n := by
  unfold stdShiftRight wordShiftRight
  rw [if_neg (by omega)]
  by_cases h : n = 0
  · rw [if_pos h, if_pos (by omega)]
  · have hk : scribble a (a + n) ((Vacated.keep : Vacated w).right a b n) = pure () := scribble_keep fun _ _ => rfl
    simp only [if_neg h, if_neg (show ¬ n ≤ 0 by omega), hk, pure_bind]

theorem leftMain_keep (S : ShiftSem w) {first middle last : BitIter w} {n : Int} (hn : 0 < n) :
    shiftLeftMain20 Vacated.keep S first middle last n = shiftLeftMain S first middle last n := by
  unfold shiftLeftMain20 shiftLeftMain
  simp only [stdShiftLeft_keep (Int.tdiv_nonneg (show 0 ≤ n by omega) (show (0 : Int) ≤ w by omega))]

theorem rightMain_keep (S : ShiftSem w) {first middle last : BitIter w} {n : Int} (hn : 0 < n) :
    shiftRightMain20 Vacated.keep S first middle last n = shiftRightMain S first middle last n := by
  unfold shiftRightMain20 shiftRightMain
  simp only [stdShiftRight_keep (Int.tdiv_nonneg (show 0 ≤ n by omega) (show (0 : Int) ≤ w by omega))]

theorem shiftLeft_keep (S : ShiftSem w) (first last : BitIter w) (n : Int) :
    shiftLeft20 Vacated.keep S first last n = shiftLeft S first last n := by
  by_cases hn : n ≤ 0
  · exact left20_nonpos _ S hn
  unfold shiftLeft20 shiftLeft
  simp only [leftMain_keep S (show 0 < n by omega)]

theorem shiftRight_keep (S : ShiftSem w) (first last : BitIter w) (n : Int) :
    shiftRight20 Vacated.keep S first last n = shiftRight S first last n := by
  by_cases hn : n ≤ 0
  · exact right20_nonpos _ S hn
  unfold shiftRight20 shiftRight
  simp only [rightMain_keep S (show 0 < n by omega)]

theorem reverse_keep (S : ShiftSem w) (first last : BitIter w) : reverse20 Vacated.keep S first last = reverse S first last := by
  unfold reverse20 reverse reverseShift20 reverseShift
  simp only [shiftLeft_keep, shiftRight_keep]

theorem rotLoop_keep (S : ShiftSem w) : ∀ (fuel : Nat) (p : BitIter w) (k n : Int),
    rotLoop20 Vacated.keep S fuel p k n = rotLoop S fuel p k n
  | 0, _, _, _ => rfl
  | fuel+1, p, k, n => by
    unfold rotLoop20 rotLoop
    simp only [shiftLeft_keep, shiftRight_keep, rotLoop_keep S fuel]

theorem rotate_keep (S : ShiftSem w) (first nFirst last : BitIter w) : rotate20 Vacated.keep S first nFirst last = rotate S first nFirst last := by
  unfold rotate20 rotate rotateViaRaw20 rotateViaRaw
  simp only [shiftLeft_keep, shiftRight_keep, rotLoop_keep]

theorem exec_keep (S : ShiftSem w) (P : Policy) (vs : List BV) (op : Op w) : op.exec20 Vacated.keep S P vs = op.exec S P vs := by
  cases op <;> simp only [Op.exec20, Op.exec, BV.insert20, BV.insert, BV.insertN20, BV.insertN, BV.insertRange20, BV.insertRange,
    BV.erase20, BV.erase, BV.eraseRange20, BV.eraseRange, shiftLeft_keep, shiftRight_keep]

/-! ### `reverse` -/

/-- A left shift of an aligned range by less than a word does not reach `std::shift_left`. -/
theorem shiftLeft20_small (J : Vacated w) (S : ShiftSem w) {first last : BitIter w} {n : Nat} (hp : first.pos = 0) (hn : n < w) :
    shiftLeft20 J S first last n = shiftLeft S first last n := by
  by_cases h0 : n = 0
  · exact left20_nonpos J S (by omega)
  have hw : 0 < w := by omega
  have hmid : (first.add (n : Int)).pos ≠ 0 := by
    have hv : (first.add (n : Int)).Valid := BitIter.add_valid hw first n
    have h1 := pos_eq hw hv
    rw [BitIter.add_addr hw, show first.addr = first.base * (w : Int) + first.pos from rfl, hp,
      show first.base * (w : Int) + ((0 : Nat) : Int) + (n : Int) = n + first.base * (w : Int) by omega, Int.add_mul_emod_self_right,
      Int.emod_eq_of_lt (by omega) (by omega)] at h1
    omega
  have hmain : ∀ last, shiftLeftMain20 J S first (first.add (n : Int)) last n = shiftLeftMain S first (first.add (n : Int)) last n := by
    intro last
    unfold shiftLeftMain20 shiftLeftMain
    simp only [if_neg hmid]
  unfold shiftLeft20 shiftLeft
  simp only [hp, hmain, ne_eq, not_true_eq_false, if_false]

/-- A right shift by less than a word does not reach `std::shift_right` with words to move. -/
theorem shiftRight20_small (J : Vacated w) (S : ShiftSem w) {first last : BitIter w} {n : Nat} (hf : first.Valid) (hl : last.Valid) (hn : n < w) :
    shiftRight20 J S first last n = shiftRight S first last n := by
  by_cases h0 : n = 0
  · exact right20_nonpos J S (by omega)
  rw [shiftRight20_eq J S hf hl (by omega)]
  have : ∀ r, spoil J first last (n : Int) r = pure r := by
    intro r
    unfold spoil
    rw [if_neg]
    rintro ⟨h1, -⟩
    rw [Int.emod_eq_of_lt (by omega) (by omega)] at h1
    omega
  rw [show spoil J first last (n : Int) = pure from funext this, bind_pure]

theorem reverse20_eq (J : Vacated w) (S : ShiftSem w) {first last : BitIter w} (hf : first.Valid) (hl : last.Valid) :
    reverse20 J S first last = reverse S first last := by
  have hf' : first.pos < w := hf
  have hl' : last.pos < w := hl
  have hw : 0 < w := by omega
  have hgap : (if last.pos = 0 then 0 else w - last.pos) < w := by split_ifs <;> omega
  have hs : ∀ fb lb wend, reverseShift20 J S fb lb wend first.pos (if last.pos = 0 then 0 else w - last.pos) =
      reverseShift S fb lb wend first.pos (if last.pos = 0 then 0 else w - last.pos) := by
    intro fb lb wend
    unfold reverseShift20 reverseShift
    rw [shiftLeft20_small J S rfl (by omega), shiftRight20_small J S (first := BitIter.aligned fb) (last := BitIter.aligned wend) hw hw (by omega)]
  unfold reverse20 reverse
  simp only [hs]

end BitLib
