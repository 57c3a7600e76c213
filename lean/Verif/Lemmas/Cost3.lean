import Verif.Lemmas.Cost2
/- Bounds for the number of accesses of the shifts, `reverse`, `swap_ranges` and `rotate`. -/
namespace BitLib
variable {w : Nat} {α β : Type}
open Code (Bound)
namespace Gen
variable {Q : α → Prop} {R : β → Prop} {n k : Nat}

/-! ### shift_left -/

theorem b_wordShiftLeft {f l n : Int} : AtMost (@wordShiftLeft w (Code w) _ _ f l n) (2 * (l - (f + n)).toNat) := by
  unfold wordShiftLeft
  refine b_ite (fun _ => trivial) fun _ => b_ite (fun _ => trivial) fun _ => ?_
  exact b_last b_stdCopy (by omega) fun _ => trivial

theorem b_shiftLeftLoop {S : ShiftSem w} {o : Nat} {l : Int} : ∀ (fuel : Nat) (f m : Int),
    AtMost (@shiftLeftLoop w (Code w) _ _ S o l fuel f m) (3 * (l - m - 1).toNat)
  | 0, _, _ => by
    unfold shiftLeftLoop
    repeat cost1
  | fuel + 1, f, m => by
    unfold shiftLeftLoop
    refine b_ite (fun h => ?_) fun _ => trivial
    repeat first | cost1 | with_reducible refine b_last (b_shiftLeftLoop fuel _ _) (by omega) ?_

/-- Whole words of a distance. -/
theorem tdiv_words {f m : BitIter w} {n : Int} (hf : f.pos = 0) (hm : m.pos = 0) (hw : 0 < w) (h : m.addr = f.addr + n) : m.base = f.base + Int.tdiv n w := by
  unfold BitIter.addr at h
  rw [hf, hm] at h
  have e : n = (m.base - f.base) * w := by push_cast at h; linarith
  rw [e, Int.mul_tdiv_cancel _ (by omega)]
  omega

theorem b_shiftLeftMain {S : ShiftSem w} {f m l : BitIter w} {n : Int} (hw : 0 < w) (hf : f.pos = 0) (hm : m.Valid) (hl : l.Valid)
    (h : m.addr = f.addr + n) : AtMost (@shiftLeftMain w (Code w) _ _ S f m l n) (3 * ((l.diff m).toNat / w) + 9) := by
  have hd := words_diff_le hm hl
  generalize (l.diff m).toNat / w = N at *
  unfold shiftLeftMain
  refine b_ite (fun _ => ?_) fun _ => b_bind_distance fun _ => ?_
  · dsimp only
    repeat cost1
  · dsimp only
    refine b_ite (fun ho => ?_) fun _ => ?_
    · have hb := tdiv_words hf ho hw h
      refine b_then b_wordShiftLeft (by omega) fun _ => ?_
      refine b_ite (fun _ => ?_) fun _ => trivial
      refine b_bind_load (by omega) fun _ => ?_
      refine b_then (b_writeWord1 (le_of_lt (show l.pos < w - 0 from hl))) (by omega) fun _ => trivial
    · refine b_then (b_shiftLeftLoop _ _ _) (by omega) ?_
      rintro ⟨fb, mb⟩
      dsimp only
      repeat cost1

theorem b_shiftLeftAlign' {S : ShiftSem w} {f g : BitIter w} {d n : Int} (h : d - n > w) :
    Bound (fun r => r.1 = f.add ((w - f.pos : Nat) : Int) ∧ r.2 = g.add ((w - f.pos : Nat) : Int)) (@shiftLeftAlign w (Code w) _ _ S f g d n) 6 := by
  have e : min (d - n) ((w - f.pos : Nat) : Int) = ((w - f.pos : Nat) : Int) := by omega
  unfold shiftLeftAlign
  dsimp only
  rw [e]
  refine b_ite (fun _ => ?_) fun _ => ?_
  · repeat cost1
  · repeat cost1

theorem pos_zero {f : BitIter w} (hf : f.Valid) {b : Int} (h : f.addr = b * w) : f.pos = 0 := by
  have hw : 0 < w := lt_of_le_of_lt (Nat.zero_le _) hf
  have := BitIter.addr_inj (b := ⟨b, 0⟩) hf hw (by rw [h]; simp [BitIter.addr])
  rw [this]

theorem align_up {f : BitIter w} (hf : f.Valid) : (f.add ((w - f.pos : Nat) : Int)).pos = 0 := by
  have hw : 0 < w := lt_of_le_of_lt (Nat.zero_le _) hf
  refine pos_zero (BitIter.add_valid hw _ _) (b := f.base + 1) ?_
  rw [BitIter.add_addr hw]
  unfold BitIter.addr BitIter.Valid at *
  push_cast [show f.pos ≤ w by omega]
  ring

theorem b_shiftLeft {S : ShiftSem w} {f l : BitIter w} {n : Int} (hf : f.Valid) (hl : l.Valid) :
    AtMost (@shiftLeft w (Code w) _ _ S f l n) (3 * ((l.diff f - n).toNat / w) + 17) := by
  have hw : 0 < w := lt_of_le_of_lt (Nat.zero_le _) hf
  unfold shiftLeft
  refine b_bind_viable fun h0 => b_bind_distance fun _ => ?_
  dsimp only
  refine b_ite (fun _ => trivial) fun h1 => b_ite (fun _ => trivial) fun h2 => b_ite (fun _ => ?_) fun _ => b_ite (fun _ => ?_) fun _ => ?_
  · repeat cost1
  · repeat cost1
  · have hb : ∀ (f' m' : BitIter w) (s : Int), 0 ≤ s → f'.pos = 0 → m'.Valid → f'.addr = f.addr + s → m'.addr = f.addr + n + s →
        AtMost (@shiftLeftMain w (Code w) _ _ S f' m' l n) (3 * ((l.diff f - n).toNat / w) + 9) := fun f' m' s hs hp hv e1 e2 => by
      have hle : (l.diff m').toNat / w ≤ (l.diff f - n).toNat / w := Nat.div_le_div_right (by rw [BitIter.diff_eq, BitIter.diff_eq]; omega)
      exact b_last (b_shiftLeftMain hw hp hv hl (by omega)) (by omega) fun _ => trivial
    have hm : (f.add n).addr = f.addr + n := BitIter.add_addr hw _ _
    have hj : AtMost (if f.pos ≠ 0 then do
          let (first, middle) ← shiftLeftAlign S f (f.add n) (l.diff f) n
          shiftLeftMain S first middle l n
        else (shiftLeftMain S f (f.add n) l n : Code w (BitIter w))) (3 * ((l.diff f - n).toNat / w) + 15) := by
      refine b_ite (fun _ => ?_) fun hp => ?_
      · refine (b_shiftLeftAlign' (by omega)).bind (by omega) ?_
        rintro ⟨f', m'⟩ ⟨e1, e2⟩
        dsimp only at e1 e2 ⊢
        subst e1 e2
        refine b_last (hb _ _ ((w - f.pos : Nat) : Int) (by omega) (align_up hf) (BitIter.add_valid hw _ _) (BitIter.add_addr hw _ _)
          (by rw [BitIter.add_addr hw, hm])) (by omega) fun _ => trivial
      · exact b_last (hb _ _ 0 (le_refl _) (by omega) (BitIter.add_valid hw _ _) (by omega) (by rw [hm, add_zero])) (by omega) fun _ => trivial
    refine b_bind_load (by omega) fun _ => ?_
    refine b_ite (fun _ => ?_) fun _ => ?_
    · exact b_bind_load (by omega) fun _ => b_last hj (by omega) fun _ => trivial
    · exact b_last hj (by omega) fun _ => trivial

/-! ### shift_right -/

theorem b_wordShiftRight {f l n : Int} : AtMost (@wordShiftRight w (Code w) _ _ f l n) (2 * (l - n - f).toNat) := by
  unfold wordShiftRight
  refine b_ite (fun _ => trivial) fun _ => b_ite (fun _ => trivial) fun _ => ?_
  exact b_then b_stdCopyBackward (by omega) fun _ => trivial

theorem b_shiftRightLoop {S : ShiftSem w} {o : Nat} {f : Int} : ∀ (fuel : Nat) (l m : Int),
    AtMost (@shiftRightLoop w (Code w) _ _ S o f fuel l m) (3 * (m - f).toNat)
  | 0, _, _ => by
    unfold shiftRightLoop
    repeat cost1
  | fuel + 1, l, m => by
    unfold shiftRightLoop
    refine b_ite (fun h => ?_) fun _ => trivial
    repeat first | cost1 | with_reducible refine b_last (b_shiftRightLoop fuel _ _) (by omega) ?_

theorem b_shiftRightWords {S : ShiftSem w} {f m l : BitIter w} {o : Nat} :
    AtMost (@shiftRightWords w (Code w) _ _ S f m l o) (3 * (m.base - 1 - f.base).toNat + 3) := by
  unfold shiftRightWords
  refine b_then (b_shiftRightLoop _ _ _) (by omega) ?_
  rintro ⟨lb, mb⟩
  dsimp only
  repeat cost1

theorem b_shiftRightTail {S : ShiftSem w} {f m l : BitIter w} {n : Int} : AtMost (@shiftRightTail w (Code w) _ _ S f m l n) 6 := by
  unfold shiftRightTail
  repeat cost1

theorem b_shiftRightMain {S : ShiftSem w} {f m l : BitIter w} {n : Int} (hw : 0 < w) (hf : f.Valid) (hm : m.Valid) (hl : l.pos = 0)
    (h : l.addr = m.addr + n) : AtMost (@shiftRightMain w (Code w) _ _ S f m l n) (3 * ((m.diff f).toNat / w) + 9) := by
  have hd := words_diff_le hf hm
  generalize (m.diff f).toNat / w = N at *
  unfold shiftRightMain
  dsimp only
  refine b_ite (fun ho => ?_) fun _ => b_bind_distance fun _ => b_ite (fun _ => ?_) fun _ => ?_
  · have hb := tdiv_words ho hl hw h
    exact b_then b_wordShiftRight (by omega) fun _ => trivial
  · refine b_then b_shiftRightWords (by omega) ?_
    rintro ⟨l', m'⟩
    exact b_last b_shiftRightTail (by omega) fun _ => trivial
  · exact b_last b_shiftRightTail (by omega) fun _ => trivial

theorem b_shiftRight {S : ShiftSem w} {f l : BitIter w} {n : Int} (hf : f.Valid) :
    AtMost (@shiftRight w (Code w) _ _ S f l n) (3 * ((l.diff f - n).toNat / w) + 15) := by
  have hw : 0 < w := lt_of_le_of_lt (Nat.zero_le _) hf
  unfold shiftRight
  refine b_bind_distance fun h0 => ?_
  have hm : (l.sub n).addr = l.addr - n := BitIter.sub_addr hw _ _
  refine b_ite (fun _ => trivial) fun h1 => b_ite (fun _ => trivial) fun h2 => b_ite (fun _ => ?_) fun _ => b_ite (fun hp => ?_) fun hp => ?_
  · repeat cost1
  · refine b_bind_distance fun h3 => ?_
    dsimp only
    refine b_then b_getWord (by omega) fun _ => b_then b_writeWord (by omega) fun _ => ?_
    refine b_ite (fun _ => trivial) fun hne => ?_
    have hs : min l.pos ((l.sub n).diff f).toNat = l.pos := by
      by_contra hc
      refine hne ((BitIter.beq_iff (BitIter.sub_valid hw _ _) hf).2 ?_)
      rw [BitIter.sub_addr hw, hm]
      rw [BitIter.diff_eq, hm] at h3 hc ⊢
      omega
    rw [hs]
    have hle : (((l.sub n).sub l.pos).diff f).toNat / w ≤ (l.diff f - n).toNat / w :=
      Nat.div_le_div_right (by rw [BitIter.diff_eq, BitIter.diff_eq, BitIter.sub_addr hw, hm]; omega)
    refine b_last (b_shiftRightMain hw hf (BitIter.sub_valid hw _ _) ?_ ?_) (by omega) fun _ => trivial
    · refine pos_zero (BitIter.sub_valid hw _ _) (b := l.base) ?_
      rw [BitIter.sub_addr hw]
      unfold BitIter.addr
      omega
    · rw [BitIter.sub_addr hw, BitIter.sub_addr hw, hm]
      omega
  · have hle : ((l.sub n).diff f).toNat / w ≤ (l.diff f - n).toNat / w :=
      Nat.div_le_div_right (by rw [BitIter.diff_eq, BitIter.diff_eq, hm]; omega)
    exact b_last (b_shiftRightMain hw hf (BitIter.sub_valid hw _ _) (by omega) (by rw [hm]; omega)) (by omega) fun _ => trivial

/-! ### reverse -/

theorem aligned_diff {a b : Int} (h : a ≤ b) : ((BitIter.aligned b : BitIter w).diff (BitIter.aligned a)) = ((b - a).toNat * w : Nat) := by
  unfold BitIter.diff BitIter.aligned
  push_cast
  rw [Int.toNat_of_nonneg (by omega)]
  simp

theorem b_reverseShift {S : ShiftSem w} {fb lb we : Int} {fp gap : Nat} (hw : 0 < w) (h1 : gap ≠ 0 → we = lb + 1) (h2 : fb ≤ lb) (h3 : lb ≤ we) :
    AtMost (@reverseShift w (Code w) _ _ S fb lb we fp gap) (3 * (we - fb).toNat + 17) := by
  have hs : ∀ (b : Int) (n : Nat), fb ≤ b → ((BitIter.aligned b : BitIter w).diff (BitIter.aligned fb) - (n : Int)).toNat / w ≤ (b - fb).toNat := fun b n h => by
    rw [aligned_diff h, show (((((b - fb).toNat * w : Nat) : Int) - (n : Int)).toNat) = (b - fb).toNat * w - n by omega]
    calc ((b - fb).toNat * w - n) / w ≤ ((b - fb).toNat * w) / w := Nat.div_le_div_right (Nat.sub_le _ _)
      _ = _ := Nat.mul_div_cancel _ hw
  unfold reverseShift
  refine b_ite (fun h => ?_) fun _ => b_ite (fun h => ?_) fun _ => trivial
  · have := hs (lb + 1) (gap - fp) (by omega)
    have := h1 (by omega)
    exact b_then (b_shiftLeft hw hw) (by omega) fun _ => trivial
  · have := hs we (fp - gap) (by omega)
    exact b_then (b_shiftRight hw) (by omega) fun _ => trivial

theorem base_le {f l : BitIter w} (hl : l.Valid) (h0 : 0 ≤ l.diff f) : f.base ≤ l.base := by
  by_contra h
  have := Int.mul_le_mul_of_nonneg_right (show 1 ≤ f.base - l.base by omega) (show (0 : Int) ≤ w by omega)
  unfold BitIter.diff at h0
  unfold BitIter.Valid at hl
  have e : (l.base - f.base) * (w : Int) = - ((f.base - l.base) * w) := by ring
  omega

theorem b_reverse {S : ShiftSem w} {f l : BitIter w} (hf : f.Valid) (hl : l.Valid) :
    AtMost (@reverse w (Code w) _ _ S f l) (7 * ((l.diff f).toNat / w) + 37) := by
  have hw : 0 < w := lt_of_le_of_lt (Nat.zero_le _) hf
  have hd := words_diff_le hf hl
  unfold reverse
  refine b_bind_viable fun h0 => ?_
  have hb := base_le hl h0
  have hz : f.pos = 0 → _ := fun h => words_diff_aligned (f := f) h hl
  generalize (l.diff f).toNat / w = N at *
  dsimp only
  refine b_ite (fun hp => ?_) fun _ => b_ite (fun hp => ?_) fun _ => ?_
  · have ha := hz hp.1
    refine b_then b_stdReverse (by omega) fun _ => ?_
    exact b_then b_stdTransform (by omega) fun _ => trivial
  · refine b_bind_load (by omega) fun _ => b_bind_load (by omega) fun _ => ?_
    have hn : (l.base + (if l.pos = 0 then 0 else 1) - f.base).toNat ≤ N + 2 := by split_ifs <;> omega
    have hge : l.base ≤ l.base + (if l.pos = 0 then 0 else 1) := by split_ifs <;> omega
    have hgap : (if l.pos = 0 then 0 else w - l.pos) ≠ 0 → l.base + (if l.pos = 0 then 0 else 1) = l.base + 1 := by
      split_ifs
      · exact fun h => absurd rfl h
      · exact fun _ => rfl
    generalize l.base + (if l.pos = 0 then 0 else 1) = we at *
    refine b_then b_stdReverse (by omega) fun _ => ?_
    refine b_then b_stdTransform (by omega) fun _ => ?_
    refine b_then (b_reverseShift hw hgap hb hge) (by omega) fun _ => ?_
    repeat cost1
  · repeat cost1

/-! ### swap_ranges -/

theorem b_swapLoop {S : ShiftSem w} {l : Int} {p : Nat} : ∀ (fuel : Nat) (a b : Int), a ≤ l →
    AtMost (@swapLoop w (Code w) _ _ S l p fuel a b) (18 * (l - a).toNat)
  | 0, _, _, _ => by
    unfold swapLoop
    repeat cost1
  | fuel + 1, a, b, h => by
    unfold swapLoop
    refine b_ite (fun h => ?_) fun _ => trivial
    repeat first | cost1 | with_reducible refine b_last (b_swapLoop fuel _ _ (by omega)) (by omega) ?_

theorem b_swapSingle {S : ShiftSem w} {f l d : BitIter w} : AtMost (@swapSingle w (Code w) _ _ S f l d) 18 := by
  unfold swapSingle
  repeat cost1

theorem b_swapAligned {S : ShiftSem w} {f l d : BitIter w} : AtMost (@swapAligned w (Code w) _ _ S f l d) (4 * (l.base - (f.base + 1)).toNat + 18) := by
  unfold swapAligned
  refine b_then b_bitexch4 (by omega) fun _ => b_then b_stdSwapRanges (by omega) fun _ => ?_
  repeat cost1

theorem b_swapMisHead {S : ShiftSem w} {f d : BitIter w} : Bound (fun r => r.1 = f.base + 1) (@swapMisHead w (Code w) _ _ S f d) 18 := by
  unfold swapMisHead
  dsimp only
  refine b_ite (fun _ => ?_) fun _ => ?_
  · repeat cost1
  · repeat cost1

theorem b_swapMisaligned {S : ShiftSem w} {f l d : BitIter w} (h : f.base + 1 ≤ l.base) :
    AtMost (@swapMisaligned w (Code w) _ _ S f l d) (18 * (l.base - (f.base + 1)).toNat + 36) := by
  unfold swapMisaligned
  refine b_swapMisHead.bind (by omega) ?_
  rintro ⟨a, b⟩ e
  dsimp only at e ⊢
  subst e
  refine b_then (b_swapLoop _ _ _ h) (by omega) ?_
  rintro ⟨a, b⟩
  dsimp only
  repeat cost1

theorem b_swapRanges {S : ShiftSem w} {f l d : BitIter w} (hf : f.Valid) (hl : l.Valid) :
    AtMost (@swapRanges w (Code w) _ _ S f l d) (18 * ((l.diff f).toNat / w) + 36) := by
  have hd := words_diff_le hf hl
  unfold swapRanges
  refine b_bind_viable fun h0 => b_ite (fun _ => trivial) fun hne => b_ite (fun _ => ?_) fun hs => ?_
  · exact b_last b_swapSingle (by omega) fun _ => trivial
  · have hb : f.base + 1 ≤ l.base := by
      have h1 := base_le hl h0
      by_contra h2
      have e : f.base = l.base := by omega
      split_ifs at hs with hp
      · refine hne (decide_eq_true (p := f.base = l.base ∧ f.pos = l.pos) ⟨e, ?_⟩)
        unfold BitIter.diff at h0
        rw [e, hp, sub_self, zero_mul] at h0
        omega
      · omega
    generalize (l.diff f).toNat / w = N at *
    refine b_ite (fun _ => ?_) fun _ => ?_
    · exact b_last b_swapAligned (by omega) fun _ => trivial
    · exact b_last (b_swapMisaligned hb) (by omega) fun _ => trivial

/-! ### rotate -/

/-- The cost of exchanging a block of `k > w` bits. -/
theorem block_cost {k : Int} (hw : 0 < w) (hk : k > w) : 18 * (k.toNat / w) + 36 ≤ 54 * (k.toNat / w) := by
  have : 1 ≤ k.toNat / w := (Nat.one_le_div_iff hw).2 (by omega)
  omega

theorem add_diff (hw : 0 < w) {p : BitIter w} {k : Int} : (p.add k).diff p = k := by
  rw [BitIter.diff_eq, BitIter.add_addr hw]
  omega

theorem b_rotFwdSwaps {S : ShiftSem w} {k : Int} (hw : 0 < w) (hk : k > w) : ∀ (s : Nat) (p q : BitIter w), p.Valid → q.Valid → q.addr = p.addr + k →
    Bound (fun r => r.1.Valid ∧ r.2.Valid) (@rotFwdSwaps w (Code w) _ _ S k s p q) (54 * (s * (k.toNat / w)))
  | 0, p, q, hp, hq, _ => by
    unfold rotFwdSwaps
    exact b_pure ⟨hp, hq⟩
  | s + 1, p, q, hp, hq, h => by
    unfold rotFwdSwaps
    have hc := block_cost hw hk
    have e : q.diff p = k := by rw [BitIter.diff_eq]; omega
    have e2 : 54 * ((s + 1) * (k.toNat / w)) = 54 * (s * (k.toNat / w)) + 54 * (k.toNat / w) := by ring
    rw [e2]
    refine b_then (k := 54 * (k.toNat / w)) (b_last (b_swapRanges hp hq) (by rw [e]; exact hc) fun _ => trivial) (by omega) fun _ => ?_
    refine (b_rotFwdSwaps hw hk s (p.add k) (q.add k) (BitIter.add_valid hw _ _) (BitIter.add_valid hw _ _) ?_).mono (fun _ h => h) (by omega)
    rw [BitIter.add_addr hw, BitIter.add_addr hw]
    omega

theorem b_rotBwdSwaps {S : ShiftSem w} {k : Int} (hw : 0 < w) (hk : k > w) : ∀ (s : Nat) (p q : BitIter w), p.Valid → q.Valid → q.addr = p.addr + k →
    Bound (fun r => r.1.Valid ∧ r.2.Valid) (@rotBwdSwaps w (Code w) _ _ S k s p q) (54 * (s * (k.toNat / w)))
  | 0, p, q, hp, hq, _ => by
    unfold rotBwdSwaps
    exact b_pure ⟨hp, hq⟩
  | s + 1, p, q, hp, hq, h => by
    unfold rotBwdSwaps
    have hc := block_cost hw hk
    have h' : (q.sub k).addr = (p.sub k).addr + k := by
      rw [BitIter.sub_addr hw, BitIter.sub_addr hw]
      omega
    have e : (q.sub k).diff (p.sub k) = k := by rw [BitIter.diff_eq]; omega
    have e2 : 54 * ((s + 1) * (k.toNat / w)) = 54 * (s * (k.toNat / w)) + 54 * (k.toNat / w) := by ring
    rw [e2]
    dsimp only
    refine b_then (k := 54 * (k.toNat / w)) (b_last (b_swapRanges (BitIter.sub_valid hw _ _) (BitIter.sub_valid hw _ _)) (by rw [e]; exact hc) fun _ => trivial)
      (by omega) fun _ => ?_
    exact (b_rotBwdSwaps hw hk s (p.sub k) (q.sub k) (BitIter.sub_valid hw _ _) (BitIter.sub_valid hw _ _) h').mono (fun _ h => h) (by omega)

/-- One round: `s` blocks of `k` bits and a remainder of `r` bits, and then a range of `k` bits. -/
theorem round_cost {s k r n : Nat} (hw : 0 < w) (hk : w < k) (hn : k ≤ n) (h : s * k + r = n) :
    54 * (s * (k / w)) + (18 * (r / w) + 36) + (90 * (k / w) + 23) ≤ 90 * ((n + k) / w) + 23 := by
  have h1 : s * (k / w) ≤ s * k / w := Nat.mul_div_le_mul_div_assoc _ _ _
  have h2 : s * k / w + r / w ≤ n / w := by rw [← h]; exact Nat.div_add_div_le_add_div
  have h3 : n / w + k / w ≤ (n + k) / w := Nat.div_add_div_le_add_div
  have h4 : 1 ≤ n / w := (Nat.one_le_div_iff hw).2 (by omega)
  omega

/-- `full_swaps` and the remainder, also when `full_swaps` does not fit into 32 bits. -/
theorem swaps_sum {a k : Int} (hk : 0 < k) (ha : 0 ≤ a) :
    0 ≤ a - (Int.tdiv a k) % 2 ^ 32 * k ∧ ((Int.tdiv a k) % 2 ^ 32).toNat * k.toNat + (a - (Int.tdiv a k) % 2 ^ 32 * k).toNat = a.toNat := by
  have h0 : 0 ≤ Int.tdiv a k := Int.tdiv_nonneg ha (le_of_lt hk)
  have h1 : 0 ≤ (Int.tdiv a k) % 2 ^ 32 := Int.emod_nonneg _ (by norm_num)
  have h2 : (Int.tdiv a k) % 2 ^ 32 ≤ Int.tdiv a k := by
    have := Int.emod_lt_of_pos (Int.tdiv a k) (show (0 : Int) < 2 ^ 32 by norm_num)
    by_cases h : Int.tdiv a k < 2 ^ 32
    · rw [Int.emod_eq_of_lt h0 h]
    · omega
  have h3 : (Int.tdiv a k) % 2 ^ 32 * k ≤ a := by
    calc (Int.tdiv a k) % 2 ^ 32 * k ≤ Int.tdiv a k * k := Int.mul_le_mul_of_nonneg_right h2 (le_of_lt hk)
      _ ≤ a := by rw [Int.tdiv_eq_ediv_of_nonneg ha]; exact Int.ediv_mul_le a (by omega)
  generalize (Int.tdiv a k) % 2 ^ 32 = s at *
  refine ⟨by omega, ?_⟩
  have e : ((s.toNat * k.toNat + (a - s * k).toNat : Nat) : Int) = (a.toNat : Int) := by
    push_cast
    rw [Int.toNat_of_nonneg h1, Int.toNat_of_nonneg (le_of_lt hk), Int.toNat_of_nonneg (by omega), Int.toNat_of_nonneg ha]
    omega
  exact_mod_cast e

theorem b_rotLoop {S : ShiftSem w} (hw : 0 < w) : ∀ (fuel : Nat) (p : BitIter w) (k n : Int), p.Valid → 0 ≤ k → k ≤ n →
    AtMost (@rotLoop w (Code w) _ _ S fuel p k n) (90 * (n.toNat / w) + 23)
  | 0, _, _, _, _, _, _ => by
    unfold rotLoop
    repeat cost1
  | fuel + 1, p, k, n, hp, hk0, hkn => by
    unfold rotLoop
    refine b_ite (fun h1 => b_ite (fun h2 => ?_) fun h2 => ?_) fun h1 => ?_
    · have hs : ((p.add n).diff p - k).toNat / w ≤ n.toNat / w := Nat.div_le_div_right (by rw [add_diff hw]; omega)
      refine b_then b_getWord (by omega) fun _ => ?_
      refine b_then (b_shiftLeft hp (BitIter.add_valid hw _ _)) (by omega) fun _ => ?_
      repeat cost1
    · obtain ⟨hr, hsum⟩ := swaps_sum (a := n - k) (k := k) (by omega) (by omega)
      have hround := round_cost (w := w) hw (k := k.toNat) (by omega) (by omega) hsum
      rw [show (n - k).toNat + k.toNat = n.toNat by omega] at hround
      dsimp only
      generalize (Int.tdiv (n - k) k) % 2 ^ 32 = s at *
      refine (b_rotFwdSwaps hw (by omega) _ _ _ hp (BitIter.add_valid hw _ _) (BitIter.add_addr hw _ _)).bind (by omega) ?_
      rintro ⟨p', q'⟩ ⟨hv, hv'⟩
      dsimp only at hv hv' ⊢
      refine b_then (b_swapRanges hv (BitIter.add_valid hw _ _)) (by rw [add_diff hw]; omega) fun _ => ?_
      refine b_ite (fun _ => trivial) fun hn => ?_
      have ht := Int.tmod_lt_of_pos n (show 0 < k by omega)
      have ht0 := Int.tmod_nonneg k (show 0 ≤ n by omega)
      exact b_last (b_rotLoop hw fuel _ _ _ (BitIter.add_valid hw _ _) (by omega) (by omega)) (by rw [add_diff hw]; omega) fun _ => trivial
    · dsimp only
      refine b_ite (fun h2 => ?_) fun h2 => ?_
      · have hs : ((p.add n).diff p - (n - k)).toNat / w ≤ n.toNat / w := Nat.div_le_div_right (by rw [add_diff hw]; omega)
        refine b_then b_getWord (by omega) fun _ => ?_
        refine b_then (b_shiftRight hp) (by omega) fun _ => ?_
        repeat cost1
      · generalize hk' : n - k = k' at *
        obtain ⟨hr, hsum⟩ := swaps_sum (a := n - k') (k := k') (by omega) (by omega)
        have hround := round_cost (w := w) hw (k := k'.toNat) (by omega) (by omega) hsum
        rw [show (n - k').toNat + k'.toNat = n.toNat by omega] at hround
        generalize (Int.tdiv (n - k') k') % 2 ^ 32 = s at *
        refine (b_rotBwdSwaps hw (by omega) _ _ _ (BitIter.sub_valid hw _ _) (BitIter.add_valid hw _ _)
          (by rw [BitIter.sub_addr hw]; omega)).bind (by omega) ?_
        rintro ⟨p', q'⟩ ⟨hv, hv'⟩
        dsimp only at hv hv' ⊢
        refine b_then (b_swapRanges (BitIter.sub_valid hw _ _) (BitIter.add_valid hw _ _)) (by rw [add_diff hw]; omega) fun _ => ?_
        refine b_ite (fun _ => trivial) fun hn => ?_
        have ht := Int.tmod_lt_of_pos n (show 0 < k' by omega)
        have ht0 := Int.tmod_nonneg k' (show 0 ≤ n by omega)
        exact b_last (b_rotLoop hw fuel _ _ _ (BitIter.sub_valid hw _ _) ht0 (by omega)) (by rw [add_diff hw]; omega) fun _ => trivial

theorem b_rotateSingle {S : ShiftSem w} {f m l : BitIter w} : AtMost (@rotateSingle w (Code w) _ _ S f m l) 3 := by
  unfold rotateSingle
  repeat cost1

theorem b_rotateViaRaw {S : ShiftSem w} {f m l : BitIter w} (hf : f.Valid) (hm : m.Valid) (h1 : 0 ≤ m.diff f) (h2 : 0 ≤ l.diff m) :
    AtMost (@rotateViaRaw w (Code w) _ _ S f m l) (90 * ((l.diff f).toNat / w) + 36) := by
  have hw : 0 < w := lt_of_le_of_lt (Nat.zero_le _) hf
  have hle : m.diff f ≤ l.diff f := by rw [BitIter.diff_eq] at h2; rw [BitIter.diff_eq, BitIter.diff_eq]; omega
  have hle' : (m.diff f).toNat / w ≤ (l.diff f).toNat / w := Nat.div_le_div_right (by omega)
  unfold rotateViaRaw
  dsimp only
  refine b_ite (fun h => ?_) fun h => ?_
  · exact b_then (b_swapRanges hf hm) (by omega) fun _ => trivial
  · exact b_then (b_rotLoop hw _ _ _ _ hf h1 hle) (by omega) fun _ => trivial

theorem b_rotate {S : ShiftSem w} {f m l : BitIter w} (hf : f.Valid) (hm : m.Valid) (hl : l.Valid) :
    AtMost (@rotate w (Code w) _ _ S f m l) (90 * ((l.diff f).toNat / w) + 36) := by
  unfold rotate
  refine b_bind_viable fun h1 => b_bind_viable fun h2 => b_bind_viable fun h3 => ?_
  refine b_ite (fun _ => trivial) fun _ => b_ite (fun _ => ?_) fun _ => b_ite (fun _ => ?_) fun _ => b_ite (fun _ => ?_) fun _ => ?_
  · exact b_last b_rotateSingle (by omega) fun _ => trivial
  · refine b_bind_distance fun _ => b_then b_getWord (by omega) fun _ => ?_
    have hs : (l.diff f - m.diff f).toNat / w ≤ (l.diff f).toNat / w := Nat.div_le_div_right (by omega)
    refine b_then (b_shiftLeft hf hl) (by omega) fun _ => ?_
    repeat cost1
  · refine b_bind_distance fun _ => b_then b_getWord (by omega) fun _ => ?_
    have hs : (l.diff f - l.diff m).toNat / w ≤ (l.diff f).toNat / w := Nat.div_le_div_right (by omega)
    refine b_then (b_shiftRight hf) (by omega) fun _ => ?_
    repeat cost1
  · exact b_rotateViaRaw hf hm h1 h2

end Gen
end BitLib
