import Verif.Model.Helpers
import Verif.Lemmas.ShiftLeft
import Verif.Lemmas.ShiftRight
import Verif.Lemmas.Map
import Verif.Lemmas.HwyFull
/- Helper templates: `_padded_read`, `get_word`/`write_word` between word types, `_rotate_via_copy_*`, word shifts. -/
namespace BitLib
variable {w : Nat}

theorem getLsbD_allOnesWord {i : Nat} (hi : i < w) : (allOnesWord : BitVec w).getLsbD i = true := by
  unfold allOnesWord
  rw [show (-1 : Int) = Int.negSucc 0 from rfl, BitVec.ofInt_negSucc_eq_not_ofNat]
  simp [hi]

theorem allOnes_shl {n i : Nat} (hi : i < w) : ((allOnesWord : BitVec w) <<< n).getLsbD i = decide (n ≤ i) := by
  rw [BitVec.getLsbD_shiftLeft]
  by_cases h : n ≤ i
  · rw [getLsbD_allOnesWord (by omega)]
    simp [hi, h]
  · simp [hi, h, show i < n by omega]

theorem allOnes_shr {n i : Nat} (_ : i < w) : ((allOnesWord : BitVec w) >>> n).getLsbD i = decide (n + i < w) := by
  rw [BitVec.getLsbD_ushiftRight]
  by_cases h : n + i < w
  · rw [getLsbD_allOnesWord h]; simp [h]
  · rw [BitVec.getLsbD_of_ge _ _ (by omega)]; simp [h]

theorem wp_paddedRead (S : ShiftSem w) {first last : BitIter w} {bv : Bool} {m : Mem w} {Q : BitVec w → Mem w → Prop}
    (hf : first.Valid) (hl : last.Valid) (hlt : first.addr ≤ last.addr)
    (hfull : first.addr < last.addr ∨ first.pos ≠ 0 ∨ bv = true ∨ w < S.pw)
    (hm : (bitAt m first.addr).isSome)
    (hQ : ∀ x : BitVec w, (∀ p : Nat, p < w → some (x.getLsbD p) =
      if first.addr ≤ first.base * w + p ∧ first.base * w + p < last.addr then bitAt m (first.base * w + p) else some bv) →
      Q x m) :
    wp (paddedRead S first last bv) m Q := by
  have hf' : first.pos < w := hf
  have hl' : last.pos < w := hl
  have hw : 0 < w := by omega
  have hfa : first.addr = first.base * w + first.pos := rfl
  have hla : last.addr = last.base * w + last.pos := rfl
  have hbb := base_le_of_addr hl hlt
  unfold paddedRead
  rw [wp_bind]
  refine wp_load_bits hw first.addr (by omega) (by omega) hm ?_
  intro x hx
  have hb : first.base = last.base ∨ first.base * w + w ≤ last.base * w := by
    rcases Int.lt_or_eq_of_le hbb with h | h
    · right; have := base_lt_mul (w := w) h; omega
    · exact Or.inl h
  split
  · rename_i h0
    split
    · rename_i he
      have hem : first.base * (w : Int) = last.base * w := by rw [he]
      split
      · rename_i hbv
        subst hbv
        have hs : w - last.pos < S.pw := by
          have := S.le_pw
          simp at hfull
          omega
        unfold ShiftSem.shr
        rw [if_pos hs, wp_bind, wp_lift_ok, wp_pure]
        apply hQ
        intro p hp
        rw [hx p hp, BitVec.getLsbD_and, allOnes_shr hp]
        by_cases h : p < last.pos
        · rw [if_pos (by omega)]; simp [show w - last.pos + p < w by omega]
        · rw [if_neg (by omega)]; simp [show ¬ (w - last.pos + p < w) by omega]
      · rename_i hbv
        have hbv : bv = true := by simpa using hbv
        subst hbv
        rw [wp_bind, wp_shl S hl', wp_pure]
        apply hQ
        intro p hp
        rw [hx p hp, BitVec.getLsbD_or, allOnes_shl hp]
        by_cases h : p < last.pos
        · rw [if_pos (by omega)]; simp [show ¬ last.pos ≤ p by omega]
        · rw [if_neg (by omega)]; simp [show last.pos ≤ p by omega]
    · rename_i he
      rw [wp_pure]
      apply hQ
      intro p hp
      rw [hx p hp, if_pos (by omega)]
  · rename_i h0
    split
    · rename_i he
      split
      · rename_i hbv
        subst hbv
        rw [wp_bind, wp_shl S hf', wp_pure]
        apply hQ
        intro p hp
        rw [hx p hp, BitVec.getLsbD_and, allOnes_shl hp]
        by_cases h : first.pos ≤ p
        · rw [if_pos (by omega)]; simp [h]
        · rw [if_neg (by omega)]; simp [h]
      · rename_i hbv
        have hbv : bv = true := by simpa using hbv
        subst hbv
        rw [wp_bind, wp_shr S (by omega), wp_pure]
        apply hQ
        intro p hp
        rw [hx p hp, BitVec.getLsbD_or, allOnes_shr hp]
        by_cases h : first.pos ≤ p
        · rw [if_pos (by omega)]; simp [show ¬ (w - first.pos + p < w) by omega]
        · rw [if_neg (by omega)]; simp [show w - first.pos + p < w by omega]
    · rename_i he
      have he : first.base = last.base := by simpa using he
      have hem : first.base * (w : Int) = last.base * w := by rw [he]
      split
      · rename_i hbv
        subst hbv
        rw [wp_bind, wp_shl S hf', wp_bind, wp_shr S (by omega), wp_pure]
        apply hQ
        intro p hp
        rw [hx p hp, BitVec.getLsbD_and, BitVec.getLsbD_and, allOnes_shl hp, allOnes_shr hp]
        by_cases h : first.pos ≤ p ∧ p < last.pos
        · rw [if_pos (by omega)]; simp [h.1, show w - last.pos + p < w by omega]
        · rw [if_neg (by omega)]
          by_cases h1 : first.pos ≤ p
          · simp [show ¬ (w - last.pos + p < w) by omega]
          · simp [h1]
      · rename_i hbv
        have hbv : bv = true := by simpa using hbv
        subst hbv
        rw [wp_bind, wp_shr S (by omega), wp_bind, wp_shl S hl', wp_pure]
        apply hQ
        intro p hp
        rw [hx p hp, BitVec.getLsbD_or, BitVec.getLsbD_or, allOnes_shr hp, allOnes_shl hp]
        by_cases h : first.pos ≤ p ∧ p < last.pos
        · rw [if_pos (by omega)]; simp [show ¬ (w - first.pos + p < w) by omega, show ¬ last.pos ≤ p by omega]
        · rw [if_neg (by omega)]
          by_cases h1 : first.pos ≤ p
          · simp [show last.pos ≤ p by omega]
          · simp [show w - first.pos + p < w by omega]

/-! ### `get_word` and `write_word` between word types -/

theorem wp_getWordT {t : Nat} (Sw : ShiftSem w) (St : ShiftSem t) {it : BitIter w} {len : Nat} {m : Mem w}
    {Q : BitVec t → Mem w → Prop} (hv : it.Valid) (hlen : len ≤ w) (hlt : len ≤ t) (h0 : 0 < len)
    (hm : Mapped m it.addr (it.addr + len))
    (hQ : ∀ x : BitVec t, (∀ i : Nat, i < len → bitAt m (it.addr + i) = some (x.getLsbD i)) → Q x m) :
    wp (getWordT Sw St it len) m Q := by
  unfold BitIter.Valid at hv
  have hw : 0 < w := by omega
  unfold getWordT
  unfold BitIter.addr at *
  rw [wp_bind, wp_assert]
  refine ⟨hlen, ?_⟩
  rw [wp_bind]
  refine wp_load_bits hw (it.base * w + it.pos) (by omega) (by omega) (hm _ (by omega) (by omega)) ?_
  intro x hx
  rw [wp_bind, wp_shr Sw hv]
  split
  · rename_i hle
    rw [wp_pure]
    apply hQ
    intro i hi
    have := hx (it.pos + i) (by omega)
    rw [BitVec.getLsbD_setWidth, decide_eq_true (show i < t by omega), Bool.true_and, BitVec.getLsbD_ushiftRight, ← this]
    congr 1
    push_cast
    omega
  · rename_i hle
    rw [wp_bind]
    refine wp_load_bits hw (it.base * w + it.pos + (w - it.pos)) ?_ ?_
      (hm _ (by omega) (by omega)) ?_
    · rw [Int.add_mul]; omega
    · rw [Int.add_mul]; omega
    intro y hy
    rw [wp_bind, St.shl_ok (show w - it.pos < t by omega), wp_lift_ok]
    obtain ⟨r, hr, hb⟩ := bitblend4_ok St ((x >>> it.pos).setWidth t) (y.setWidth t <<< (w - it.pos)) (start := w - it.pos)
      (len := len - (w - it.pos)) (by omega) (lt_pw St (by omega))
    rw [hr, wp_lift_ok]
    apply hQ
    intro i hi
    rw [hb i (by omega)]
    split
    · have := hy (i - (w - it.pos)) (by omega)
      rw [Int.add_mul] at this
      rw [BitVec.getLsbD_shiftLeft]
      simp only [show i < t by omega, show ¬ i < w - it.pos by omega, decide_true, decide_false,
        Bool.not_false, Bool.true_and]
      rw [BitVec.getLsbD_setWidth, decide_eq_true (show i - (w - it.pos) < t by omega), Bool.true_and, ← this]
      congr 1
      omega
    · have := hx (it.pos + i) (by omega)
      rw [BitVec.getLsbD_setWidth, decide_eq_true (show i < t by omega), Bool.true_and, BitVec.getLsbD_ushiftRight, ← this]
      congr 1
      push_cast
      omega

theorem getWordT_self (S : ShiftSem w) (it : BitIter w) (len : Nat) : getWordT S S it len = getWord S it len := by
  unfold getWordT getWord
  simp only [BitVec.setWidth_eq]

theorem writeWordT_self (S : ShiftSem w) (src : BitVec w) (it : BitIter w) (len : Nat) :
    writeWordT S src it len = writeWord S src it len := by
  unfold writeWordT writeWord blendAt
  simp only [BitVec.setWidth_eq, bind_assoc]

/-- `_bitblend` whose start may lie outside the word: nothing is replaced then. -/
theorem bitblend4_any (S : ShiftSem w) (a b : BitVec w) {start len : Nat} (hs : start < S.pw) (hl : len < S.pw ∨ S.Lenient) :
    ∃ r, bitblend4 S a b start len = .ok r ∧ ∀ i, i < w →
      r.getLsbD i = if start ≤ i ∧ i < start + len then b.getLsbD i else a.getLsbD i := by
  by_cases h : start < w
  · exact bitblend4_ok S a b h hl
  · obtain ⟨k, hk, _⟩ := mask_ok S len hl
    unfold bitblend4
    rw [hk]
    simp only [bind, Except.bind, pure, Except.pure]
    rw [show S.shl (k * boolWord (decide (len < w)) - 1#w) start = .ok ((k * boolWord (decide (len < w)) - 1#w) <<< start) by
      unfold ShiftSem.shl; rw [if_pos hs]]
    refine ⟨_, rfl, fun i hi => ?_⟩
    rw [decide_eq_false h, boolWord_false_mul, if_neg (by omega)]
    simp

theorem wp_writeWordT {s : Nat} (Ss : ShiftSem s) {src : BitVec s} {it : BitIter w} {len : Nat} {m : Mem w}
    {Q : Unit → Mem w → Prop} (hv : it.Valid) (hlen : it.pos + len ≤ w) (hne : ¬ (it.pos = 0 ∧ len = w)) (hp : it.pos < Ss.pw)
    (hl : len < Ss.pw) (hm : (bitAt m it.addr).isSome)
    (hQ : ∀ m', Wrote m m' (it.base * w) (it.base * w + w) (fun i =>
      if i < it.base * w + s then
        if it.addr ≤ i ∧ i < it.addr + len then some (src.getLsbD (i - it.addr).toNat) else bitAt m i
      else some false) → Q () m') :
    wp (writeWordT Ss src it len) m Q := by
  unfold BitIter.Valid at hv
  have hw : 0 < w := by omega
  unfold writeWordT
  unfold BitIter.addr at *
  rw [if_neg hne, wp_bind, show Ss.shl src it.pos = .ok (src <<< it.pos) by unfold ShiftSem.shl; rw [if_pos hp], wp_lift_ok, wp_bind]
  refine wp_load_bits hw (it.base * w + it.pos) (by omega) (by omega) hm ?_
  intro x hx
  obtain ⟨r, hr, hb⟩ := bitblend4_any Ss (x.setWidth s) (src <<< it.pos) (start := it.pos) (len := min (w - it.pos) len)
    hp (Or.inl (by omega))
  rw [wp_bind, hr, wp_lift_ok, wp_bind]
  refine wp_store_bits hw (it.base * w + it.pos) (by omega) (by omega) hm ?_
  intro m' hm'
  rw [if_neg (by omega), wp_pure]
  apply hQ
  intro i
  rw [hm' i]
  beta_reduce
  by_cases hi : it.base * (w : Int) ≤ i ∧ i < it.base * (w : Int) + w
  · rw [if_pos hi, if_pos hi, BitVec.getLsbD_setWidth, decide_eq_true (show (i - it.base * (w : Int)).toNat < w by omega),
      Bool.true_and]
    by_cases h1 : i < it.base * (w : Int) + s
    · rw [if_pos h1, hb _ (by omega)]
      by_cases h2 : it.base * (w : Int) + it.pos ≤ i ∧ i < it.base * (w : Int) + it.pos + len
      · rw [if_pos (by omega), if_pos h2, BitVec.getLsbD_shiftLeft,
          decide_eq_true (show (i - it.base * (w : Int)).toNat < s by omega),
          decide_eq_false (show ¬ (i - it.base * (w : Int)).toNat < it.pos by omega)]
        simp only [Bool.not_false, Bool.true_and]
        congr 2
        omega
      · rw [if_neg (by omega), if_neg h2, BitVec.getLsbD_setWidth,
          decide_eq_true (show (i - it.base * (w : Int)).toNat < s by omega), Bool.true_and]
        have := hx (i - it.base * (w : Int)).toNat (by omega)
        rw [← this]
        congr 1
        omega
    · rw [if_neg h1, BitVec.getLsbD_of_ge _ _ (by omega)]
  · rw [if_neg hi, if_neg hi]

/-! ### Word shifts -/

/-- `std::copy` on words, seen word by word. -/
theorem stdCopyN_words (n : Nat) : ∀ {s d : Int} {m : Mem w}, d ≤ s →
    (∀ a, s ≤ a → a < s + n → ∃ x, m a = some x) → (∀ a, d ≤ a → a < d + n → ∃ x, m a = some x) →
    ∃ m', stdCopyN n s d m = .ok (d + n, m') ∧ ∀ a, m' a = if d ≤ a ∧ a < d + n then m (a + (s - d)) else m a := by
  induction n with
  | zero =>
    intro s d m _ _ _
    refine ⟨m, by simp [stdCopyN, pure, StateT.pure, Except.pure], fun a => ?_⟩
    rw [if_neg (by omega)]
  | succ n ih =>
    intro s d m hd h1 h2
    obtain ⟨x, hx⟩ := h1 s (by omega) (by omega)
    obtain ⟨y, hy⟩ := h2 d (by omega) (by omega)
    unfold stdCopyN
    have hl : load s m = .ok (x, m) := by simp [load, hx]
    have hst : store d x m = .ok ((), m.set d x) := by simp [store, hy]
    rw [M_bind_apply, hl]; dsimp only
    rw [M_bind_apply, hst]; dsimp only
    have hset : ∀ a, (∃ z, m a = some z) → ∃ z, (m.set d x) a = some z := by
      intro a ha
      unfold Mem.set
      split
      · exact ⟨_, rfl⟩
      · exact ha
    obtain ⟨m', h, hm⟩ := ih (s := s + 1) (d := d + 1) (m := m.set d x) (by omega)
      (fun a ha hb => hset a (h1 a (by omega) (by omega))) (fun a ha hb => hset a (h2 a (by omega) (by omega)))
    refine ⟨m', by rw [h]; push_cast; congr 2; omega, fun a => ?_⟩
    rw [hm a]
    unfold Mem.set
    by_cases ha : a = d
    · subst ha
      rw [if_neg (by omega), if_pos rfl, if_pos (by omega), ← hx]
      congr 1; omega
    · by_cases hb : d + 1 ≤ a ∧ a < d + 1 + n
      · rw [if_pos hb, if_neg (by omega), if_pos (by omega)]
        congr 1; omega
      · rw [if_neg hb, if_neg ha, if_neg (by omega)]

/-- `std::copy_backward` on words, seen word by word. -/
theorem stdCopyBackwardN_words (n : Nat) : ∀ {l dl : Int} {m : Mem w}, l ≤ dl →
    (∀ a, l - n ≤ a → a < l → ∃ x, m a = some x) → (∀ a, dl - n ≤ a → a < dl → ∃ x, m a = some x) →
    ∃ m', stdCopyBackwardN n l dl m = .ok (dl - n, m') ∧ ∀ a, m' a = if dl - n ≤ a ∧ a < dl then m (a - (dl - l)) else m a := by
  induction n with
  | zero =>
    intro l dl m _ _ _
    refine ⟨m, by simp [stdCopyBackwardN, pure, StateT.pure, Except.pure], fun a => ?_⟩
    rw [if_neg (by omega)]
  | succ n ih =>
    intro l dl m hd h1 h2
    obtain ⟨x, hx⟩ := h1 (l - 1) (by omega) (by omega)
    obtain ⟨y, hy⟩ := h2 (dl - 1) (by omega) (by omega)
    unfold stdCopyBackwardN
    have hl : load (l - 1) m = .ok (x, m) := by simp [load, hx]
    have hst : store (dl - 1) x m = .ok ((), m.set (dl - 1) x) := by simp [store, hy]
    rw [M_bind_apply, hl]; dsimp only
    rw [M_bind_apply, hst]; dsimp only
    have hset : ∀ a, (∃ z, m a = some z) → ∃ z, (m.set (dl - 1) x) a = some z := by
      intro a ha
      unfold Mem.set
      split
      · exact ⟨_, rfl⟩
      · exact ha
    obtain ⟨m', h, hm⟩ := ih (l := l - 1) (dl := dl - 1) (m := m.set (dl - 1) x) (by omega)
      (fun a ha hb => hset a (h1 a (by omega) (by omega))) (fun a ha hb => hset a (h2 a (by omega) (by omega)))
    refine ⟨m', by rw [h]; push_cast; congr 2; omega, fun a => ?_⟩
    rw [hm a]
    unfold Mem.set
    by_cases ha : a = dl - 1
    · subst ha
      rw [if_neg (by omega), if_pos rfl, if_pos (by omega), ← hx]
      congr 1; omega
    · by_cases hb : dl - 1 - n ≤ a ∧ a < dl - 1
      · rw [if_pos hb, if_neg (by omega), if_pos (by omega)]
        congr 1; omega
      · rw [if_neg hb, if_neg ha, if_neg (by omega)]

/-! ### The buffer loop -/

theorem toShort_id {x : Int} (h1 : -2 ^ 15 ≤ x) (h2 : x < 2 ^ 15) : toShort x = x := by
  unfold toShort
  omega

/-- `std::copy` through an unmapped destination word is out of bounds. -/
theorem stdCopyN_unmapped (n : Nat) : ∀ {s d a : Int} {m : Mem w}, d ≤ a → a < d + n → m a = none →
    stdCopyN n s d m = .error .outOfBounds := by
  induction n with
  | zero => intro s d a m h1 h2; omega
  | succ n ih =>
    intro s d a m h1 h2 ha
    unfold stdCopyN
    cases hs : m s with
    | none =>
      have hl : load s m = .error .outOfBounds := by simp [load, hs]
      rw [M_bind_apply, hl]
    | some x =>
      have hl : load s m = .ok (x, m) := by simp [load, hs]
      rw [M_bind_apply, hl]; dsimp only
      cases hd : m d with
      | none =>
        have hst : store d x m = .error .outOfBounds := by simp [store, hd]
        rw [M_bind_apply, hst]
      | some y =>
        have hst : store d x m = .ok ((), m.set d x) := by simp [store, hd]
        rw [M_bind_apply, hst]; dsimp only
        have hne : a ≠ d := by rintro rfl; rw [ha] at hd; cases hd
        refine ih (a := a) (by omega) (by omega) ?_
        unfold Mem.set
        rw [if_neg hne, ha]

/-- Number of words the loop copies. -/
def bufWords (w : Nat) (bits : Int) : Nat := ((bits + (w - 1)) / w).toNat

theorem bufLoop_eq (hw : 0 < w) (hw2 : w ≤ 2 ^ 14) : ∀ (fuel : Nat) (bits it dst : Int), bits < 2 ^ 15 → -w ≤ bits → bits < fuel → 0 < fuel →
    bufLoop w fuel bits it dst = (do let _ ← stdCopyN (bufWords w bits) it dst; pure ()) := by
  intro fuel
  induction fuel with
  | zero => intro bits it dst _ _ _ h; omega
  | succ fuel ih =>
    intro bits it dst h1 h2 h3 _
    unfold bufLoop
    by_cases hb : bits > 0
    · rw [if_pos hb]
      have hn : bufWords w bits = bufWords w (bits - w) + 1 := by
        unfold bufWords
        rw [show bits + ((w : Int) - 1) = (bits - w + (w - 1)) + w by omega, Int.add_ediv_of_dvd_right (Int.dvd_refl _),
          Int.ediv_self (by omega)]
        have : 0 ≤ (bits - w + ((w : Int) - 1)) / w := Int.ediv_nonneg (by omega) (by omega)
        omega
      rw [hn, toShort_id (by omega) (by omega), ih _ _ _ (by omega) (by omega) (by omega) (by omega)]
      simp only [stdCopyN, bind_assoc]
    · rw [if_neg hb]
      have hn : bufWords w bits = 0 := by
        unfold bufWords
        have : (bits + ((w : Int) - 1)) / w ≤ 0 := by
          have := Int.ediv_lt_of_lt_mul (a := bits + ((w : Int) - 1)) (b := 1) (c := w) (by omega) (by omega)
          omega
        omega
      rw [hn]
      simp [stdCopyN]

theorem bufWords_bounds (hw : 0 < w) (b : Int) : b ≤ bufWords w b * w ∧ (0 < bufWords w b → ((bufWords w b : Int) - 1) * w < b) := by
  unfold bufWords
  have h1 := Int.mul_ediv_add_emod (b + ((w : Int) - 1)) w
  have h2 := Int.emod_nonneg (b + ((w : Int) - 1)) (show (w : Int) ≠ 0 by omega)
  have h3 := Int.emod_lt_of_pos (b + ((w : Int) - 1)) (show (0 : Int) < w by omega)
  generalize (b + ((w : Int) - 1)) / w = q at *
  generalize (b + ((w : Int) - 1)) % w = r at *
  constructor
  · by_cases hq : 0 ≤ q
    · rw [Int.toNat_of_nonneg hq, Int.mul_comm]; omega
    · have : (w : Int) * q ≤ w * (-1) := Int.mul_le_mul_of_nonneg_left (by omega) (by omega)
      rw [show q.toNat = 0 by omega]
      omega
  · intro hq
    rw [Int.toNat_of_nonneg (by omega), Int.sub_mul, Int.mul_comm]
    omega

/-- The part that copies the words holding `[it, it + k)` to the buffer. -/
theorem wp_bufCopy (hw : 0 < w) (hw2 : w ≤ 2 ^ 14) {B : Nat} {buf : Int} {it : BitIter w} {k : Int} {m : Mem w} {α : Type}
    {f : M w α} {Q : α → Mem w → Prop} (hv : it.Valid) (hk0 : 0 ≤ k) (hB : 0 < B) (hk : it.pos + k ≤ B * w)
    (hs : k - ((w : Int) - it.pos) < 2 ^ 15)
    (h0 : (bitAt m it.addr).isSome) (hm : Mapped m it.addr (it.addr + k)) (hbuf : Mapped m (buf * w) (buf * w + B * w))
    (hdis : buf * w + B * w ≤ it.base * w ∨ (it.base * w + w ≤ buf * w ∧ it.addr + k ≤ buf * w))
    (hQ : ∀ m1, (∀ i, (i < buf * w ∨ buf * w + B * w ≤ i) → bitAt m1 i = bitAt m i) →
      (∀ j, 0 ≤ j → j < k → bitAt m1 (buf * w + it.pos + j) = bitAt m (it.addr + j)) →
      (∀ j, k + w ≤ j → bitAt m1 (buf * w + it.pos + j) = bitAt m (buf * w + it.pos + j)) → SameMapped m m1 → wp f m1 Q) :
    wp (do
      let x ← load it.base
      store buf x
      bufLoop w (2 ^ 15 + 1) (toShort (k - ((w : Int) - it.pos))) (it.base + 1) (buf + 1)
      f) m Q := by
  have hv' : it.pos < w := hv
  have hia : it.addr = it.base * w + it.pos := rfl
  rw [toShort_id (by omega) (by omega), bufLoop_eq hw hw2 _ _ _ _ (by omega) (by omega) (by push_cast; omega) (by omega)]
  obtain ⟨hn1, hn2⟩ := bufWords_bounds hw (k - ((w : Int) - it.pos))
  generalize bufWords w (k - ((w : Int) - it.pos)) = N at *
  have hprog : (do
      let x ← load it.base
      store buf x
      (do let _ ← stdCopyN N (it.base + 1) (buf + 1); pure ())
      f) = (do let _ ← stdCopyN (N + 1) it.base buf; f) := by
    simp only [stdCopyN, bind_assoc, pure_bind]
  have hNB : N + 1 ≤ B := by
    rcases Nat.eq_zero_or_pos N with h | h
    · omega
    · have h3 := hn2 h
      by_contra hc
      have : (B : Int) * w ≤ N * w := Int.mul_le_mul_of_nonneg_right (by omega) (by omega)
      rw [Int.sub_mul] at h3
      omega
  have hNBw : ((N : Int) + 1) * w ≤ B * w := Int.mul_le_mul_of_nonneg_right (by omega) (by omega)
  have hNw : (N : Int) * w = ((N : Int) - 1) * w + w := by rw [Int.sub_mul]; omega
  have hN1w : ((N : Int) + 1) * w = (N : Int) * w + w := by rw [Int.add_mul]; omega
  -- every word of the source is mapped
  have hwords : ∀ j : Int, 0 ≤ j → j ≤ N → (bitAt m ((it.base + j) * w)).isSome ∧
      (it.base + j = it.base ∨ (it.base + j) * w < it.addr + k) := by
    intro j hj1 hj2
    rcases Int.lt_or_eq_of_le hj1 with h | h
    · have hN : 0 < N := by omega
      have h3 := hn2 hN
      have h4 : j * w ≤ N * w := Int.mul_le_mul_of_nonneg_right hj2 (by omega)
      have h5 := base_lt_mul (w := w) h
      have h6 : (it.base + j) * w = it.base * w + j * w := Int.add_mul _ _ _
      exact ⟨hm _ (by omega) (by omega), Or.inr (by omega)⟩
    · subst h
      obtain ⟨x, hx⟩ := mapped_word hw (a := it.base) (by omega) (by omega) h0
      have := bitAt_word m it.base 0 hw
      refine ⟨?_, Or.inl (by omega)⟩
      rw [show (it.base + 0) * (w : Int) = it.base * w + (0 : Nat) by simp, this, hx]; rfl
  have hsrc : Mapped m (it.base * w) (it.base * w + ((N + 1 : Nat) : Int) * w) := by
    intro i h1 h2
    push_cast at h2
    obtain ⟨b, p, hp, rfl⟩ := word_decomp hw i
    have hb1 : it.base ≤ b := by
      by_contra hc
      have := base_lt_mul (w := w) (a := b) (b := it.base) (by omega)
      omega
    have hb2 : b ≤ it.base + N := by
      by_contra hc
      have := base_lt_mul (w := w) (a := it.base + N) (b := b) (by omega)
      rw [Int.add_mul] at this
      omega
    obtain ⟨x, hx⟩ := mapped_word hw (a := it.base + (b - it.base)) (Int.le_refl _) (by omega)
      (hwords (b - it.base) (by omega) (by omega)).1
    rw [show it.base + (b - it.base) = b by omega] at hx
    rw [bitAt_word _ _ _ hp, hx]; rfl
  have hend : it.base * (w : Int) + ((N + 1 : Nat) : Int) * w ≤ buf * w ∨ buf * w + B * w ≤ it.base * w := by
    rcases hdis with h | ⟨h, h'⟩
    · exact Or.inr h
    · left
      push_cast
      have := (hwords N (by omega) (by omega)).2
      rcases this with h3 | h3
      · have : (N : Int) = 0 := by omega
        rw [this]; omega
      · have h4 : it.base + N < buf := by
          by_contra hc
          have := base_le_mul (w := w) (a := buf) (b := it.base + N) (by omega)
          omega
        have := base_lt_mul (w := w) h4
        rw [Int.add_mul] at this
        omega
  have hov : buf * (w : Int) ≤ it.base * w ∨ it.base * w + ((N + 1 : Nat) : Int) * w ≤ buf * w := by
    rcases hend with h | h
    · exact Or.inr h
    · left; have : 0 ≤ (B : Int) * w := Int.mul_nonneg (by omega) (by omega)
      omega
  rw [hprog, wp_bind]
  refine wp_stdCopyN hw (N + 1) hsrc (fun i h1 h2 => hbuf i h1 (by push_cast at h2; omega)) hov ?_
  intro m1 hm1
  push_cast at *
  apply hQ
  · intro i hi
    rw [hm1 i, if_neg (by omega)]
  · intro j hj1 hj2
    rw [hm1, if_pos (by omega)]
    beta_reduce
    congr 1
    omega
  · intro j hj
    have : (N : Int) * w ≤ k + it.pos := by
      rcases Nat.eq_zero_or_pos N with h | h
      · rw [h]; push_cast; omega
      · have := hn2 h; omega
    rw [hm1, if_neg (by omega)]
  · intro i
    rw [hm1 i]
    split
    · rename_i h
      rw [hbuf i (by omega) (by omega)]
      exact hsrc _ (by omega) (by omega)
    · rfl

/-- The same part without a limit on `k`: the number of bits is truncated to a `short`, so that only `k'` bits are copied. -/
theorem wp_bufCopy_any (hw : 0 < w) (hw2 : w ≤ 2 ^ 14) {B : Nat} {buf : Int} {it : BitIter w} {k : Int} {m : Mem w} {α : Type}
    {f : M w α} {Q : α → Mem w → Prop} (hv : it.Valid) (hk0 : 0 ≤ k) (hB : 0 < B) (hk : it.pos + k ≤ B * w)
    (h0 : (bitAt m it.addr).isSome) (hm : Mapped m it.addr (it.addr + k)) (hbuf : Mapped m (buf * w) (buf * w + B * w))
    (hdis : buf * w + B * w ≤ it.base * w ∨ (it.base * w + w ≤ buf * w ∧ it.addr + k ≤ buf * w))
    (hQ : ∀ m1 k', (k - ((w : Int) - it.pos) < 2 ^ 15 → k' = k) → (2 ^ 15 ≤ k - ((w : Int) - it.pos) → 0 < k' ∧ k' + 2 ^ 15 ≤ k) →
      (∀ i, (i < buf * w ∨ buf * w + B * w ≤ i) → bitAt m1 i = bitAt m i) →
      (∀ j, 0 ≤ j → j < k' → bitAt m1 (buf * w + it.pos + j) = bitAt m (it.addr + j)) →
      (∀ j, k' + w ≤ j → bitAt m1 (buf * w + it.pos + j) = bitAt m (buf * w + it.pos + j)) → SameMapped m m1 → wp f m1 Q) :
    wp (do
      let x ← load it.base
      store buf x
      bufLoop w (2 ^ 15 + 1) (toShort (k - ((w : Int) - it.pos))) (it.base + 1) (buf + 1)
      f) m Q := by
  have hv' : it.pos < w := hv
  by_cases hs : k - ((w : Int) - it.pos) < 2 ^ 15
  · exact wp_bufCopy hw hw2 hv hk0 hB hk hs h0 hm hbuf hdis
      (fun m1 a b c d => hQ m1 k (fun _ => rfl) (fun h => absurd h (by omega)) a b c d)
  · obtain ⟨e, he, h1, h2, h3⟩ : ∃ e, e = toShort (k - ((w : Int) - it.pos)) ∧ e < 2 ^ 15 ∧ -2 ^ 15 ≤ e ∧
        e + 2 ^ 16 ≤ k - ((w : Int) - it.pos) := by
      refine ⟨_, rfl, ?_, ?_, ?_⟩ <;> (unfold toShort; omega)
    rw [← he]
    have hloop : ∀ (n : Nat) (a b : Int), bufLoop w (n + 1) e a b = bufLoop w (n + 1) (toShort (max e 0 + ((w : Int) - it.pos) - ((w : Int) - it.pos))) a b := by
      intro n a b
      rw [toShort_id (by omega) (by omega)]
      rcases Int.lt_or_le 0 e with h | h
      · rw [show max e 0 + ((w : Int) - it.pos) - ((w : Int) - it.pos) = e by omega]
      · rw [show max e 0 + ((w : Int) - it.pos) - ((w : Int) - it.pos) = 0 by omega]
        unfold bufLoop
        rw [if_neg (by omega), if_neg (by omega)]
    rw [hloop]
    exact wp_bufCopy hw hw2 (k := max e 0 + ((w : Int) - it.pos)) hv (by omega) hB (by omega) (by omega) h0 (hm.sub (by omega) (by omega)) hbuf
      (by omega) (fun m1 a b c d => hQ m1 _ (fun h => absurd h hs) (fun _ => by omega) a b c d)

theorem wp_rotateViaCopyBegin_any (S : ShiftSem w) (hw2 : w ≤ 2 ^ 14) {B : Nat} {buf : Int} {first nFirst last : BitIter w} {m : Mem w}
    {Q : BitIter w → Mem w → Prop} (hr : Range m first last) (h1 : first.addr ≤ nFirst.addr)
    (h2 : nFirst.addr ≤ last.addr) (hne : first.addr < last.addr) (hB : 0 < B)
    (hk : first.pos + (nFirst.addr - first.addr) ≤ B * w)
    (hbuf : Mapped m (buf * w) (buf * w + B * w)) (hdis : buf * w + B * w ≤ first.addr ∨ last.addr ≤ buf * w)
    (hfull : ¬ (first.pos = 0 ∧ last.addr - first.addr = w ∧ first.addr < nFirst.addr ∧ nFirst.addr < last.addr) ∨ S.FullShiftOk)
    (hQ : ∀ r m' (k' : Int), r.Valid → r.addr = first.addr + (last.addr - nFirst.addr) →
      (nFirst.addr - first.addr - ((w : Int) - first.pos) < 2 ^ 15 → k' = nFirst.addr - first.addr) →
      (2 ^ 15 ≤ nFirst.addr - first.addr - ((w : Int) - first.pos) → 0 < k' ∧ k' + 2 ^ 15 ≤ nFirst.addr - first.addr) →
      (∀ i, (i < buf * w ∨ buf * w + B * w ≤ i) → (i < r.addr ∨ last.addr ≤ i ∨ i < r.addr + k') →
        bitAt m' i = if first.addr ≤ i ∧ i < first.addr + (last.addr - nFirst.addr) then bitAt m (i + (nFirst.addr - first.addr))
          else if first.addr + (last.addr - nFirst.addr) ≤ i ∧ i < last.addr then bitAt m (i - (last.addr - nFirst.addr)) else bitAt m i) →
      (∀ j, k' + w ≤ j → j < nFirst.addr - first.addr → bitAt m' (r.addr + j) = bitAt m (buf * w + first.pos + j)) → Q r m') :
    wp (rotateViaCopyBegin S B buf first nFirst last) m Q := by
  obtain ⟨hf, hl, hle, hmap⟩ := hr
  have hf' : first.pos < w := hf
  have hw : 0 < w := by omega
  have hfa : first.addr = first.base * w + first.pos := rfl
  have hdis' : buf * w + B * w ≤ first.base * w ∨ (first.base * w + w ≤ buf * w ∧ last.addr ≤ buf * w) := by
    rcases hdis with h | h
    · left
      by_contra hc
      have : first.base < buf + B := by
        by_contra hd
        have := base_le_mul (w := w) (a := buf + B) (b := first.base) (by omega)
        rw [Int.add_mul] at this; omega
      have := base_lt_mul (w := w) this
      rw [Int.add_mul] at this; omega
    · right
      refine ⟨?_, h⟩
      have : first.base < buf := by
        by_contra hd
        have := base_le_mul (w := w) (a := buf) (b := first.base) (by omega)
        omega
      exact base_lt_mul this
  have hsum : first.base * (w : Int) + first.pos + (nFirst.addr - first.addr) = nFirst.addr := by omega
  unfold rotateViaCopyBegin
  rw [distance_pure h1]
  rw [pure_bind, wp_bind, wp_assert]
  refine ⟨by omega, ?_⟩
  refine wp_bufCopy_any hw hw2 (B := B) hf (by omega) hB hk (hmap _ (by omega) hne)
    (hmap.sub (by omega) (by omega)) hbuf (by omega) ?_
  intro m1 k' hk1 hk2 hm1 hm1b hm1c hsame1
  have hmap1 : Mapped m1 first.addr last.addr := fun i a b => by rw [hsame1 i]; exact hmap i a b
  have hbuf1 : Mapped m1 (buf * w) (buf * w + B * w) := fun i a b => by rw [hsame1 i]; exact hbuf i a b
  rw [wp_bind]
  -- what the shift leaves
  have cont : ∀ (m2 : Mem w) (ret : BitIter w), ret.Valid → ret.addr = last.addr - (nFirst.addr - first.addr) →
      (∀ i, first.addr ≤ i → i < last.addr - (nFirst.addr - first.addr) → bitAt m2 i = bitAt m1 (i + (nFirst.addr - first.addr))) →
      (∀ i, (i < first.addr ∨ last.addr ≤ i) → bitAt m2 i = bitAt m1 i) → SameMapped m1 m2 →
      wp (do let _ ← copy S ⟨buf, first.pos⟩ (BitIter.add ⟨buf, first.pos⟩ (nFirst.addr - first.addr)) ret; pure ret) m2 Q := by
    intro m2 ret hrv hra hin hout hsame2
    have ha := BitIter.add_addr hw ⟨buf, first.pos⟩ (nFirst.addr - first.addr)
    have hav := BitIter.add_valid hw ⟨buf, first.pos⟩ (nFirst.addr - first.addr)
    have hba : (⟨buf, first.pos⟩ : BitIter w).addr = buf * w + first.pos := rfl
    rw [hba] at ha
    rw [wp_bind]
    refine wp_copy S hf hav hrv (by omega) ?_ ?_ (by omega) ?_
    · intro i a b
      rw [hsame2 i]; exact hbuf1 i (by omega) (by omega)
    · intro i a b
      rw [hsame2 i]; exact hmap1 i (by omega) (by omega)
    · intro m3 _ _ _ hm3
      rw [wp_pure]
      refine hQ _ _ k' hrv (by omega) hk1 hk2 ?_ ?_
      rotate_left
      · intro j hj hj2
        rw [hm3, if_pos (by omega)]
        beta_reduce
        rw [hba, hout _ (by omega), ← hm1c j hj]
        congr 1; omega
      intro i hi hi2
      rw [hm3 i, ha, hba]
      by_cases c1 : first.addr ≤ i ∧ i < first.addr + (last.addr - nFirst.addr)
      · rw [if_neg (by omega), if_pos c1, hin i (by omega) (by omega), hm1 _ (by omega)]
      · rw [if_neg c1]
        by_cases c2 : first.addr + (last.addr - nFirst.addr) ≤ i ∧ i < last.addr
        · rw [if_pos (by omega), if_pos c2]
          beta_reduce
          rw [hout _ (by omega), hm1b _ (by omega) (by omega)]
          congr 1; omega
        · rw [if_neg (by omega), if_neg c2, hout i (by omega), hm1 i hi]
  refine wp_shiftLeft S hf hl hle hmap1 ?_ ?_ ?_ ?_
  · rcases hfull with h | h
    · left; intro hc; apply h; omega
    · exact Or.inr h
  · intro hk0
    exact cont m1 last hl (by omega) (fun i a b => by congr 1; omega) (fun _ _ => rfl) (fun _ => rfl)
  · intro hk0 hk1
    exact cont m1 first hf (by omega) (fun i a b => by omega) (fun _ _ => rfl) (fun _ => rfl)
  · intro hk0 hk1 m2 r hrv hra hsh
    exact cont m2 r hrv hra hsh.1 hsh.2.1 hsh.2.2

theorem wp_rotateViaCopyEnd_any (S : ShiftSem w) (hw2 : w ≤ 2 ^ 14) {B : Nat} {buf : Int} {first nFirst last : BitIter w} {m : Mem w}
    {Q : BitIter w → Mem w → Prop} (hr : Range m first last) (hn : nFirst.Valid) (h1 : first.addr ≤ nFirst.addr)
    (h2 : nFirst.addr ≤ last.addr) (hne : (bitAt m nFirst.addr).isSome) (hB : 0 < B)
    (hk : nFirst.pos + (last.addr - nFirst.addr) ≤ B * w)
    (hbuf : Mapped m (buf * w) (buf * w + B * w))
    (hdis : buf * w + B * w ≤ first.addr ∨ (last.addr ≤ buf * w ∧ nFirst.addr < buf * w))
    (hfull : ¬ (first.pos = 0 ∧ last.addr - first.addr = w ∧ first.addr < nFirst.addr ∧ nFirst.addr < last.addr) ∨ S.FullShiftOk)
    (hQ : ∀ r m' (k' : Int), r.Valid → r.addr = first.addr + (last.addr - nFirst.addr) →
      (last.addr - nFirst.addr - ((w : Int) - nFirst.pos) < 2 ^ 15 → k' = last.addr - nFirst.addr) →
      (2 ^ 15 ≤ last.addr - nFirst.addr - ((w : Int) - nFirst.pos) → 0 < k' ∧ k' + 2 ^ 15 ≤ last.addr - nFirst.addr) →
      (∀ i, (i < buf * w ∨ buf * w + B * w ≤ i) → (i < first.addr + k' ∨ r.addr ≤ i) →
        bitAt m' i = if first.addr ≤ i ∧ i < first.addr + (last.addr - nFirst.addr) then bitAt m (i + (nFirst.addr - first.addr))
          else if first.addr + (last.addr - nFirst.addr) ≤ i ∧ i < last.addr then bitAt m (i - (last.addr - nFirst.addr)) else bitAt m i) →
      (∀ j, k' + w ≤ j → j < last.addr - nFirst.addr → bitAt m' (first.addr + j) = bitAt m (buf * w + nFirst.pos + j)) → Q r m') :
    wp (rotateViaCopyEnd S B buf first nFirst last) m Q := by
  obtain ⟨hf, hl, hle, hmap⟩ := hr
  have hf' : first.pos < w := hf
  have hn' : nFirst.pos < w := hn
  have hw : 0 < w := by omega
  have hfa : first.addr = first.base * w + first.pos := rfl
  have hna : nFirst.addr = nFirst.base * w + nFirst.pos := rfl
  have hdis' : buf * w + B * w ≤ nFirst.base * w ∨ (nFirst.base * w + w ≤ buf * w ∧ last.addr ≤ buf * w) := by
    rcases hdis with h | ⟨h, h'⟩
    · left
      by_contra hc
      have : nFirst.base < buf + B := by
        by_contra hd
        have := base_le_mul (w := w) (a := buf + B) (b := nFirst.base) (by omega)
        rw [Int.add_mul] at this; omega
      have := base_lt_mul (w := w) this
      rw [Int.add_mul] at this; omega
    · right
      refine ⟨?_, h⟩
      have : nFirst.base < buf := by
        by_contra hd
        have := base_le_mul (w := w) (a := buf) (b := nFirst.base) (by omega)
        omega
      exact base_lt_mul this
  unfold rotateViaCopyEnd
  rw [distance_pure h2]
  rw [pure_bind, wp_bind, wp_assert]
  refine ⟨by omega, ?_⟩
  refine wp_bufCopy_any hw hw2 (B := B) hn (by omega) hB hk hne
    (hmap.sub (by omega) (by omega)) hbuf (by omega) ?_
  intro m1 k' hk1 hk2 hm1 hm1b hm1c hsame1
  have hmap1 : Mapped m1 first.addr last.addr := fun i a b => by rw [hsame1 i]; exact hmap i a b
  have hbuf1 : Mapped m1 (buf * w) (buf * w + B * w) := fun i a b => by rw [hsame1 i]; exact hbuf i a b
  rw [wp_bind]
  have cont : ∀ (m2 : Mem w) (ret : BitIter w), ret.Valid → ret.addr = first.addr + (last.addr - nFirst.addr) →
      (∀ i, first.addr + (last.addr - nFirst.addr) ≤ i → i < last.addr → bitAt m2 i = bitAt m1 (i - (last.addr - nFirst.addr))) →
      (∀ i, (i < first.addr ∨ last.addr ≤ i) → bitAt m2 i = bitAt m1 i) → SameMapped m1 m2 →
      wp (do let _ ← copy S ⟨buf, nFirst.pos⟩ (BitIter.add ⟨buf, nFirst.pos⟩ (last.addr - nFirst.addr)) first; pure ret) m2 Q := by
    intro m2 ret hrv hra hin hout hsame2
    have ha := BitIter.add_addr hw ⟨buf, nFirst.pos⟩ (last.addr - nFirst.addr)
    have hav := BitIter.add_valid hw ⟨buf, nFirst.pos⟩ (last.addr - nFirst.addr)
    have hba : (⟨buf, nFirst.pos⟩ : BitIter w).addr = buf * w + nFirst.pos := rfl
    rw [hba] at ha
    rw [wp_bind]
    refine wp_copy S hn hav hf (by omega) ?_ ?_ (by omega) ?_
    · intro i a b
      rw [hsame2 i]; exact hbuf1 i (by omega) (by omega)
    · intro i a b
      rw [hsame2 i]; exact hmap1 i (by omega) (by omega)
    · intro m3 _ _ _ hm3
      rw [wp_pure]
      refine hQ _ _ k' hrv (by omega) hk1 hk2 ?_ ?_
      rotate_left
      · intro j hj hj2
        rw [hm3, if_pos (by omega)]
        beta_reduce
        rw [hba, hout _ (by omega), ← hm1c j hj]
        congr 1; omega
      intro i hi hi2
      rw [hm3 i, ha, hba]
      by_cases c1 : first.addr ≤ i ∧ i < first.addr + (last.addr - nFirst.addr)
      · rw [if_pos (by omega), if_pos c1]
        beta_reduce
        rw [hout _ (by omega), hm1b _ (by omega) (by omega)]
        congr 1; omega
      · rw [if_neg c1]
        by_cases c2 : first.addr + (last.addr - nFirst.addr) ≤ i ∧ i < last.addr
        · rw [if_neg (by omega), if_pos c2, hin i (by omega) (by omega), hm1 _ (by omega)]
        · rw [if_neg (by omega), if_neg c2, hout i (by omega), hm1 i hi]
  refine wp_shiftRight S hf hl hle hmap1 ?_ ?_ ?_ ?_
  · rcases hfull with h | h
    · left; intro hc; apply h; omega
    · exact Or.inr h
  · intro hk0
    exact cont m1 first hf (by omega) (fun i a b => by congr 1; omega) (fun _ _ => rfl) (fun _ => rfl)
  · intro hk0 hk1
    exact cont m1 last hl (by omega) (fun i a b => by omega) (fun _ _ => rfl) (fun _ => rfl)
  · intro hk0 hk1 m2 hsh
    exact cont m2 _ (BitIter.add_valid hw _ _) (BitIter.add_addr hw _ _) hsh.1 hsh.2.1 hsh.2.2

theorem wp_rotateViaCopyBegin (S : ShiftSem w) (hw2 : w ≤ 2 ^ 14) {B : Nat} {buf : Int} {first nFirst last : BitIter w} {m : Mem w}
    {Q : BitIter w → Mem w → Prop} (hr : Range m first last) (h1 : first.addr ≤ nFirst.addr)
    (h2 : nFirst.addr ≤ last.addr) (hne : first.addr < last.addr) (hB : 0 < B)
    (hk : first.pos + (nFirst.addr - first.addr) ≤ B * w) (hs : nFirst.addr - first.addr - ((w : Int) - first.pos) < 2 ^ 15)
    (hbuf : Mapped m (buf * w) (buf * w + B * w)) (hdis : buf * w + B * w ≤ first.addr ∨ last.addr ≤ buf * w)
    (hfull : ¬ (first.pos = 0 ∧ last.addr - first.addr = w ∧ first.addr < nFirst.addr ∧ nFirst.addr < last.addr) ∨ S.FullShiftOk)
    (hQ : ∀ r m', r.Valid → r.addr = first.addr + (last.addr - nFirst.addr) →
      RotatedBut m m' first.addr nFirst.addr last.addr (buf * w) (buf * w + B * w) → Q r m') :
    wp (rotateViaCopyBegin S B buf first nFirst last) m Q :=
  wp_rotateViaCopyBegin_any S hw2 hr h1 h2 hne hB hk hbuf hdis hfull fun r m' k' hv ha hk' _ hrot _ =>
    hQ r m' hv ha fun i hi => hrot i hi (by have := hk' hs; omega)

theorem wp_rotateViaCopyEnd (S : ShiftSem w) (hw2 : w ≤ 2 ^ 14) {B : Nat} {buf : Int} {first nFirst last : BitIter w} {m : Mem w}
    {Q : BitIter w → Mem w → Prop} (hr : Range m first last) (hn : nFirst.Valid) (h1 : first.addr ≤ nFirst.addr)
    (h2 : nFirst.addr ≤ last.addr) (hne : (bitAt m nFirst.addr).isSome) (hB : 0 < B)
    (hk : nFirst.pos + (last.addr - nFirst.addr) ≤ B * w) (hs : last.addr - nFirst.addr - ((w : Int) - nFirst.pos) < 2 ^ 15)
    (hbuf : Mapped m (buf * w) (buf * w + B * w))
    (hdis : buf * w + B * w ≤ first.addr ∨ (last.addr ≤ buf * w ∧ nFirst.addr < buf * w))
    (hfull : ¬ (first.pos = 0 ∧ last.addr - first.addr = w ∧ first.addr < nFirst.addr ∧ nFirst.addr < last.addr) ∨ S.FullShiftOk)
    (hQ : ∀ r m', r.Valid → r.addr = first.addr + (last.addr - nFirst.addr) →
      RotatedBut m m' first.addr nFirst.addr last.addr (buf * w) (buf * w + B * w) → Q r m') :
    wp (rotateViaCopyEnd S B buf first nFirst last) m Q :=
  wp_rotateViaCopyEnd_any S hw2 hr hn h1 h2 hne hB hk hbuf hdis hfull fun r m' k' hv ha hk' _ hrot _ =>
    hQ r m' hv ha fun i hi => hrot i hi (by have := hk' hs; omega)

/-- The same part, as an equation: the rest of the program runs on the memory with the buffer filled. -/
theorem bufCopy_run (hw : 0 < w) (hw2 : w ≤ 2 ^ 14) {B : Nat} {buf : Int} {it : BitIter w} {k : Int} {m : Mem w} {α : Type}
    (f : M w α) (hv : it.Valid) (hk0 : 0 ≤ k) (hB : 0 < B) (hk : it.pos + k ≤ B * w)
    (hs : k - ((w : Int) - it.pos) < 2 ^ 15)
    (h0 : (bitAt m it.addr).isSome) (hm : Mapped m it.addr (it.addr + k)) (hbuf : Mapped m (buf * w) (buf * w + B * w))
    (hdis : buf * w + B * w ≤ it.base * w ∨ (it.base * w + w ≤ buf * w ∧ it.addr + k ≤ buf * w)) :
    ∃ m1, SameMapped m m1 ∧ (do
      let x ← load it.base
      store buf x
      bufLoop w (2 ^ 15 + 1) (toShort (k - ((w : Int) - it.pos))) (it.base + 1) (buf + 1)
      f) m = f m1 := by
  obtain ⟨_, m1, h, hm1⟩ := wp_bufCopy (f := (pure () : M w Unit)) (Q := fun _ m1 => SameMapped m m1) hw hw2 hv hk0 hB hk hs h0 hm hbuf hdis
    (fun m1 _ _ _ hs => wp_pure.2 hs)
  refine ⟨m1, hm1, ?_⟩
  have hp : (do
      let x ← load it.base
      store buf x
      bufLoop w (2 ^ 15 + 1) (toShort (k - ((w : Int) - it.pos))) (it.base + 1) (buf + 1)
      f) = ((do
      let x ← load it.base
      store buf x
      bufLoop w (2 ^ 15 + 1) (toShort (k - ((w : Int) - it.pos))) (it.base + 1) (buf + 1)
      pure ()) >>= fun _ : Unit => f) := by
    simp only [bind_assoc, pure_bind]
  rw [hp, M_bind_apply, h]

/-- A buffer that is too small is overrun. -/
theorem bufCopy_overrun (hw : 0 < w) (hw2 : w ≤ 2 ^ 14) {B : Nat} {buf : Int} {it : BitIter w} {k : Int} {m : Mem w} {α : Type}
    (f : M w α) (hv : it.Valid) (hk0 : 0 ≤ k) (hk : B * w < it.pos + k)
    (hs : k - ((w : Int) - it.pos) < 2 ^ 15) (hend : m (buf + B) = none) :
    (do
      let x ← load it.base
      store buf x
      bufLoop w (2 ^ 15 + 1) (toShort (k - ((w : Int) - it.pos))) (it.base + 1) (buf + 1)
      f) m = .error .outOfBounds := by
  have hv' : it.pos < w := hv
  rw [toShort_id (by omega) (by omega), bufLoop_eq hw hw2 _ _ _ _ (by omega) (by omega) (by push_cast; omega) (by omega)]
  obtain ⟨hn1, hn2⟩ := bufWords_bounds hw (k - ((w : Int) - it.pos))
  generalize bufWords w (k - ((w : Int) - it.pos)) = N at *
  have hprog : (do
      let x ← load it.base
      store buf x
      (do let _ ← stdCopyN N (it.base + 1) (buf + 1); pure ())
      f) = (do let _ ← stdCopyN (N + 1) it.base buf; f) := by
    simp only [stdCopyN, bind_assoc, pure_bind]
  have hNB : B ≤ N := by
    by_contra hc
    have : ((N : Int) + 1) * w ≤ B * w := Int.mul_le_mul_of_nonneg_right (by omega) (by omega)
    rw [Int.add_mul] at this
    omega
  rw [hprog, M_bind_apply, stdCopyN_unmapped (N + 1) (a := buf + B) (by omega) (by omega) hend]

end BitLib
