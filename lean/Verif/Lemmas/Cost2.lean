import Verif.Lemmas.Cost
import Mathlib.Tactic.Ring
/- Bounds for the number of accesses of the algorithms. -/
namespace BitLib
variable {w : Nat} {α β : Type}
open Code (Bound)
namespace Gen
variable {Q : α → Prop} {R : β → Prop} {n k : Nat}

theorem words_diff_aligned {f l : BitIter w} (hf : f.pos = 0) (hl : l.Valid) : (l.base - f.base).toNat = (l.diff f).toNat / w := by
  by_cases h : 0 ≤ l.diff f
  · exact words_aligned hf hl (by rw [BitIter.diff_eq] at h ⊢; omega)
  · have hw : 0 < w := lt_of_le_of_lt (Nat.zero_le _) hl
    have h1 : l.base < f.base := by
      by_contra h2
      refine h ?_
      unfold BitIter.diff
      have := Int.mul_nonneg (show 0 ≤ l.base - f.base by omega) (show (0 : Int) ≤ w by omega)
      omega
    rw [show (l.diff f).toNat = 0 by omega, Nat.zero_div]
    omega

theorem words_diff_le {f l : BitIter w} (hf : f.Valid) (hl : l.Valid) : (l.base - f.base).toNat ≤ (l.diff f).toNat / w + 1 := by
  by_cases h : 0 ≤ l.diff f
  · exact words_le hf hl (by rw [BitIter.diff_eq] at h ⊢; omega)
  · have hw : 0 < w := lt_of_le_of_lt (Nat.zero_le _) hl
    have h1 : l.base ≤ f.base := by
      by_contra h2
      refine h ?_
      unfold BitIter.diff
      have := Int.mul_le_mul_of_nonneg_right (show 1 ≤ l.base - f.base by omega) (show (0 : Int) ≤ w by omega)
      unfold BitIter.Valid at hf
      omega
    have := Nat.zero_le ((l.diff f).toNat / w)
    generalize (l.diff f).toNat / w = N at *
    omega

/-! ### copy, move, copy_backward, transform -/

theorem b_copyHead {S : ShiftSem w} {f d : BitIter w} {t : Nat} (hw : 0 < w) (hf : f.Valid) :
    Bound (fun r => r.2.1.Valid ∧ r.2.1.addr + r.1 = f.addr + t ∧ r.1 ≤ t) (@copyHead w (Code w) _ _ S f d t) 4 := by
  unfold copyHead
  refine b_ite (fun _ => ?_) fun _ => ?_
  · repeat cost1
    refine ⟨BitIter.add_valid hw _ _, ?_, by omega⟩
    rw [BitIter.add_addr hw]
    omega
  · exact ⟨hf, rfl, le_refl _⟩

theorem b_copyLoop {S : ShiftSem w} (hw : 0 < w) : ∀ (fuel r : Nat) (f : BitIter w) (a : Int), AtMost (@copyLoop w (Code w) _ _ S fuel r f a) (3 * (r / w) + 4)
  | 0, _, _, _ => by
    unfold copyLoop
    repeat cost1
  | fuel + 1, r, f, a => by
    unfold copyLoop
    refine b_ite (fun h => ?_) fun _ => ?_
    · have := div_step hw h
      repeat first | cost1 | with_reducible refine b_last (b_copyLoop hw fuel _ _ _) (by omega) ?_
    · repeat cost1

theorem b_copy {S : ShiftSem w} {f l d : BitIter w} (hf : f.Valid) (hl : l.Valid) :
    AtMost (@copy w (Code w) _ _ S f l d) (3 * ((l.diff f).toNat / w) + 8) := by
  have hw : 0 < w := lt_of_le_of_lt (Nat.zero_le _) hf
  unfold copy
  refine b_bind_viable fun h0 => b_ite (fun _ => trivial) fun _ => b_bind_distance fun _ => ?_
  dsimp only
  refine (b_copyHead hw hf).bind (by omega) ?_
  rintro ⟨r, f', a⟩ ⟨hv, ha, hr⟩
  dsimp only at hv ha hr ⊢
  have hle : r / w ≤ (l.diff f).toNat / w := Nat.div_le_div_right hr
  refine b_ite (fun _ => b_ite (fun hp => ?_) fun _ => ?_) fun _ => trivial
  · have hw' := words_aligned (f := f') (l := l) (r := r) hp.1 hl (by rw [ha]; rw [BitIter.diff_eq] at h0 ⊢; omega)
    refine b_bind_wordDist fun _ => ?_
    refine b_then b_stdCopy (by omega) fun _ => ?_
    repeat cost1
  · refine b_then (b_copyLoop hw _ _ _ _) (by omega) fun _ => ?_
    repeat cost1

theorem b_moveHead {S : ShiftSem w} {f d : BitIter w} {t : Nat} (hw : 0 < w) (hf : f.Valid) :
    Bound (fun r => r.2.1.Valid ∧ r.2.1.addr + r.1 = f.addr + t ∧ r.1 ≤ t) (@moveHead w (Code w) _ _ S f d t) 4 := by
  unfold moveHead
  refine b_ite (fun _ => ?_) fun _ => ?_
  · repeat cost1
    refine ⟨BitIter.add_valid hw _ _, ?_, by omega⟩
    rw [BitIter.add_addr hw]
    omega
  · exact ⟨hf, rfl, le_refl _⟩

theorem b_moveLoop {S : ShiftSem w} (hw : 0 < w) : ∀ (fuel r : Nat) (f : BitIter w) (a : Int), AtMost (@moveLoop w (Code w) _ _ S fuel r f a) (3 * (r / w) + 4)
  | 0, _, _, _ => by
    unfold moveLoop
    repeat cost1
  | fuel + 1, r, f, a => by
    unfold moveLoop
    refine b_ite (fun h => ?_) fun _ => ?_
    · have := div_step hw h
      repeat first | cost1 | with_reducible refine b_last (b_moveLoop hw fuel _ _ _) (by omega) ?_
    · repeat cost1

theorem b_move {S : ShiftSem w} {f l d : BitIter w} (hf : f.Valid) (hl : l.Valid) :
    AtMost (@move w (Code w) _ _ S f l d) (3 * ((l.diff f).toNat / w) + 8) := by
  have hw : 0 < w := lt_of_le_of_lt (Nat.zero_le _) hf
  unfold move
  refine b_bind_viable fun h0 => b_ite (fun _ => trivial) fun _ => b_bind_distance fun _ => ?_
  dsimp only
  refine (b_moveHead hw hf).bind (by omega) ?_
  rintro ⟨r, f', a⟩ ⟨hv, ha, hr⟩
  dsimp only at hv ha hr ⊢
  have hle : r / w ≤ (l.diff f).toNat / w := Nat.div_le_div_right hr
  refine b_ite (fun _ => b_ite (fun hp => ?_) fun _ => ?_) fun _ => trivial
  · have hw' := words_aligned (f := f') (l := l) (r := r) hp.1 hl (by rw [ha]; rw [BitIter.diff_eq] at h0 ⊢; omega)
    refine b_bind_wordDist fun _ => ?_
    refine b_then b_stdCopy (by omega) fun _ => ?_
    repeat cost1
  · refine b_then (b_moveLoop hw _ _ _ _) (by omega) fun _ => ?_
    repeat cost1

theorem b_transformHead {S : ShiftSem w} {op : BitVec w → BitVec w} {f d : BitIter w} {t : Nat} (hw : 0 < w) (hf : f.Valid) :
    Bound (fun r => r.2.1.Valid ∧ r.2.1.addr + r.1 = f.addr + t ∧ r.1 ≤ t) (@transformHead w (Code w) _ _ S op f d t) 4 := by
  unfold transformHead
  refine b_ite (fun _ => ?_) fun _ => ?_
  · repeat cost1
    refine ⟨BitIter.add_valid hw _ _, ?_, by omega⟩
    rw [BitIter.add_addr hw]
    omega
  · exact ⟨hf, rfl, le_refl _⟩

theorem b_transformLoop {S : ShiftSem w} {op : BitVec w → BitVec w} (hw : 0 < w) : ∀ (fuel r : Nat) (f : BitIter w) (a : Int), AtMost (@transformLoop w (Code w) _ _ S op fuel r f a) (3 * (r / w) + 4)
  | 0, _, _, _ => by
    unfold transformLoop
    repeat cost1
  | fuel + 1, r, f, a => by
    unfold transformLoop
    refine b_ite (fun h => ?_) fun _ => ?_
    · have := div_step hw h
      repeat first | cost1 | with_reducible refine b_last (b_transformLoop hw fuel _ _ _) (by omega) ?_
    · repeat cost1

theorem b_transform {S : ShiftSem w} {op : BitVec w → BitVec w} {f l d : BitIter w} (hf : f.Valid) (hl : l.Valid) :
    AtMost (@transform w (Code w) _ _ S op f l d) (3 * ((l.diff f).toNat / w) + 8) := by
  have hw : 0 < w := lt_of_le_of_lt (Nat.zero_le _) hf
  unfold transform
  refine b_bind_viable fun h0 => b_ite (fun _ => trivial) fun _ => b_bind_distance fun _ => ?_
  dsimp only
  refine (b_transformHead hw hf).bind (by omega) ?_
  rintro ⟨r, f', a⟩ ⟨hv, ha, hr⟩
  dsimp only at hv ha hr ⊢
  have hle : r / w ≤ (l.diff f).toNat / w := Nat.div_le_div_right hr
  refine b_ite (fun _ => b_ite (fun hp => ?_) fun _ => ?_) fun _ => trivial
  · have hw' := words_aligned (f := f') (l := l) (r := r) hp.1 hl (by rw [ha]; rw [BitIter.diff_eq] at h0 ⊢; omega)
    refine b_bind_wordDist fun _ => ?_
    refine b_then b_stdTransform (by omega) fun _ => ?_
    repeat cost1
  · refine b_then (b_transformLoop hw _ _ _ _) (by omega) fun _ => ?_
    repeat cost1

theorem b_transform2Head {S : ShiftSem w} {op : BitVec w → BitVec w → BitVec w} {f g d : BitIter w} {t : Nat} (hw : 0 < w) (hf : f.Valid) :
    Bound (fun r => r.2.1.Valid ∧ r.2.1.addr + r.1 = f.addr + t ∧ r.1 ≤ t) (@transform2Head w (Code w) _ _ S op f g d t) 6 := by
  unfold transform2Head
  refine b_ite (fun _ => ?_) fun _ => ?_
  · repeat cost1
    refine ⟨BitIter.add_valid hw _ _, ?_, by omega⟩
    rw [BitIter.add_addr hw]
    omega
  · exact ⟨hf, rfl, le_refl _⟩

theorem b_transform2Loop {S : ShiftSem w} {op : BitVec w → BitVec w → BitVec w} (hw : 0 < w) : ∀ (fuel r : Nat) (f g : BitIter w) (a : Int),
    AtMost (@transform2Loop w (Code w) _ _ S op fuel r f g a) (5 * (r / w) + 6)
  | 0, _, _, _, _ => by
    unfold transform2Loop
    repeat cost1
  | fuel + 1, r, f, g, a => by
    unfold transform2Loop
    refine b_ite (fun h => ?_) fun _ => ?_
    · have := div_step hw h
      repeat first | cost1 | with_reducible refine b_last (b_transform2Loop hw fuel _ _ _ _) (by omega) ?_
    · repeat cost1

theorem b_transform2 {S : ShiftSem w} {op : BitVec w → BitVec w → BitVec w} {f l g d : BitIter w} (hf : f.Valid) (hl : l.Valid) :
    AtMost (@transform2 w (Code w) _ _ S op f l g d) (5 * ((l.diff f).toNat / w) + 12) := by
  have hw : 0 < w := lt_of_le_of_lt (Nat.zero_le _) hf
  unfold transform2
  refine b_bind_viable fun h0 => b_ite (fun _ => trivial) fun _ => b_bind_distance fun _ => ?_
  dsimp only
  refine (b_transform2Head hw hf).bind (by omega) ?_
  rintro ⟨r, f', g', a⟩ ⟨hv, ha, hr⟩
  dsimp only at hv ha hr ⊢
  have hle : r / w ≤ (l.diff f).toNat / w := Nat.div_le_div_right hr
  refine b_ite (fun _ => b_ite (fun hp => ?_) fun _ => ?_) fun _ => trivial
  · have hw' := words_aligned (f := f') (l := l) (r := r) hp.1 hl (by rw [ha]; rw [BitIter.diff_eq] at h0 ⊢; omega)
    refine b_bind_wordDist fun _ => ?_
    refine b_then b_stdTransform2 (by omega) fun _ => ?_
    repeat cost1
  · refine b_then (b_transform2Loop hw _ _ _ _ _) (by omega) fun _ => ?_
    repeat cost1

theorem b_copyBackwardHead {S : ShiftSem w} {l d : BitIter w} {t : Nat} (hw : 0 < w) (hl : l.Valid) :
    Bound (fun r => r.2.Valid ∧ r.2.addr = l.addr - t + r.1 ∧ r.1 ≤ t) (@copyBackwardHead w (Code w) _ _ S l d t) 4 := by
  unfold copyBackwardHead
  refine b_ite (fun _ => ?_) fun _ => ?_
  · repeat cost1
    refine ⟨BitIter.add_valid hw _ _, ?_, by omega⟩
    rw [BitIter.add_addr hw]
    omega
  · exact ⟨hl, by dsimp only; omega, le_refl _⟩

theorem b_copyBackwardLoop {S : ShiftSem w} (hw : 0 < w) : ∀ (fuel r : Nat) (l : BitIter w) (a : Int),
    AtMost (@copyBackwardLoop w (Code w) _ _ S fuel r l a) (3 * (r / w) + 4)
  | 0, _, _, _ => by
    unfold copyBackwardLoop
    repeat cost1
  | fuel + 1, r, l, a => by
    unfold copyBackwardLoop
    refine b_ite (fun h => ?_) fun _ => ?_
    · have := div_step hw h
      repeat first | cost1 | with_reducible refine b_last (b_copyBackwardLoop hw fuel _ _ _) (by omega) ?_
    · repeat cost1

theorem b_copyBackward {S : ShiftSem w} {f l d : BitIter w} (hf : f.Valid) (hl : l.Valid) :
    AtMost (@copyBackward w (Code w) _ _ S f l d) (3 * ((l.diff f).toNat / w) + 8) := by
  have hw : 0 < w := lt_of_le_of_lt (Nat.zero_le _) hf
  unfold copyBackward
  refine b_bind_viable fun h0 => b_ite (fun _ => trivial) fun _ => b_bind_distance fun _ => ?_
  dsimp only
  refine (b_copyBackwardHead hw hl).bind (by omega) ?_
  rintro ⟨r, l'⟩ ⟨hv, ha, hr⟩
  dsimp only at hv ha hr ⊢
  have hle : r / w ≤ (l.diff f).toNat / w := Nat.div_le_div_right hr
  refine b_ite (fun _ => b_ite (fun hp => ?_) fun _ => ?_) fun _ => trivial
  · have hw' := words_le (f := f) (l := l') (r := r) hf hv (by rw [ha]; rw [BitIter.diff_eq] at h0 ⊢; omega)
    refine b_then b_stdCopyBackward (by omega) fun _ => ?_
    repeat cost1
  · refine b_then (b_copyBackwardLoop hw _ _ _ _) (by omega) fun _ => ?_
    repeat cost1

/-! ### fill, find, equal, count -/

/-- A piece inside one word. -/
theorem b_writeWord1 {S : ShiftSem w} {x : BitVec w} {d : BitIter w} {l : Nat} (h : l ≤ w - d.pos) : AtMost (@writeWord w (Code w) _ _ S x d l) 2 := by
  unfold writeWord
  refine b_ite (fun _ => ?_) fun _ => ?_
  · repeat cost1
  · refine b_bind_lift fun _ => b_then b_blendAt (by omega) fun _ => b_ite (fun h2 => ?_) fun _ => trivial
    omega

theorem b_fill {S : ShiftSem w} {f l : BitIter w} {v : Bool} (hf : f.Valid) (hl : l.Valid) :
    AtMost (@fill w (Code w) _ _ S f l v) ((l.diff f).toNat / w + 4) := by
  have hd := words_diff_le hf hl
  have hz : f.pos = 0 → _ := fun h => words_diff_aligned (f := f) h hl
  generalize (l.diff f).toNat / w = N at *
  unfold fill
  refine b_bind_viable fun h0 => b_bind_distance fun _ => ?_
  refine b_ite (fun _ => trivial) fun _ => b_ite (fun _ => ?_) fun _ => ?_
  · repeat cost1
  · dsimp only
    refine b_ite (fun _ => ?_) fun hp => ?_
    · refine b_then (b_writeWord1 (le_refl _)) (by omega) fun _ => ?_
      refine b_then b_stdFill (by omega) fun _ => ?_
      refine b_ite (fun _ => ?_) fun _ => trivial
      exact b_last (b_writeWord1 (le_of_lt (show l.pos < w - 0 from hl))) (by omega) fun _ => trivial
    · have ha := hz (by omega)
      refine b_then b_stdFill (by omega) fun _ => ?_
      refine b_ite (fun _ => ?_) fun _ => trivial
      exact b_last (b_writeWord1 (le_of_lt (show l.pos < w - 0 from hl))) (by omega) fun _ => trivial

theorem b_findWords {a : Int} {l : BitIter w} {v : Bool} : AtMost (@findWords w (Code w) _ _ a l v) ((l.base - a).toNat + 1) := by
  unfold findWords
  refine b_then b_stdFindIf (by omega) fun _ => ?_
  repeat cost1

theorem b_find {S : ShiftSem w} {f l : BitIter w} {v : Bool} (hf : f.Valid) (hl : l.Valid) :
    AtMost (@find w (Code w) _ _ S f l v) ((l.diff f).toNat / w + 2) := by
  have hw : 0 < w := lt_of_le_of_lt (Nat.zero_le _) hf
  have hd := words_diff_le hf hl
  have hz : f.pos = 0 → _ := fun h => words_diff_aligned (f := f) h hl
  generalize (l.diff f).toNat / w = N at *
  unfold find
  refine b_ite (fun _ => ?_) fun hp => ?_
  · refine b_bind_load (by omega) fun _ => b_bind_lift fun _ => ?_
    dsimp only
    refine b_ite (fun _ => ?_) fun _ => b_ite (fun _ => ?_) fun _ => ?_
    · repeat cost1
    · repeat cost1
    · have h1 : (f.add ((w - f.pos : Nat) : Int)).base = f.base + 1 := by
        have e : f.add ((w - f.pos : Nat) : Int) = ⟨f.base + 1, 0⟩ := by
          refine BitIter.addr_inj (BitIter.add_valid hw _ _) hw ?_
          rw [BitIter.add_addr hw]
          unfold BitIter.addr BitIter.Valid at *
          push_cast [Nat.sub_le, show f.pos ≤ w by omega]
          ring
        rw [e]
      rw [h1]
      exact b_last b_findWords (by omega) fun _ => trivial
  · have ha := hz (by omega)
    exact b_last b_findWords (by omega) fun _ => trivial

theorem b_equalLoop {S : ShiftSem w} (hw : 0 < w) : ∀ (fuel r : Nat) (f : BitIter w) (a : Int),
    AtMost (@equalLoop w (Code w) _ _ S fuel r f a) (3 * (r / w) + 3)
  | 0, _, _, _ => by
    unfold equalLoop
    repeat cost1
  | fuel + 1, r, l, a => by
    unfold equalLoop
    refine b_ite (fun h => ?_) fun _ => ?_
    · have := div_step hw h
      repeat first | cost1 | with_reducible refine b_last (b_equalLoop hw fuel _ _ _) (by omega) ?_
    · repeat cost1

theorem b_equalBody {S : ShiftSem w} {r : Nat} {f l : BitIter w} {a : Int} (hl : l.Valid) (h : l.addr = f.addr + r) :
    AtMost (@equalBody w (Code w) _ _ S r f l a) (3 * (r / w) + 3) := by
  have hw : 0 < w := lt_of_le_of_lt (Nat.zero_le _) hl
  unfold equalBody
  refine b_ite (fun _ => b_ite (fun hp => ?_) fun _ => ?_) fun _ => trivial
  · have hw' := words_aligned (f := f) (l := l) (r := r) hp.1 hl h
    refine b_bind_wordDist fun _ => ?_
    refine b_then b_stdEqual (by omega) fun _ => ?_
    repeat cost1
  · exact b_equalLoop hw _ _ _ _

theorem b_equal {S : ShiftSem w} {f l d : BitIter w} (hf : f.Valid) (hl : l.Valid) :
    AtMost (@equal w (Code w) _ _ S f l d) (3 * ((l.diff f).toNat / w) + 6) := by
  have hw : 0 < w := lt_of_le_of_lt (Nat.zero_le _) hf
  unfold equal
  refine b_bind_viable fun h0 => b_ite (fun _ => trivial) fun _ => b_bind_distance fun _ => ?_
  dsimp only
  rw [BitIter.diff_eq] at h0 ⊢
  refine b_ite (fun _ => ?_) fun _ => ?_
  · have hle : ((l.addr - f.addr).toNat - min (l.addr - f.addr).toNat (w - d.pos)) / w ≤ (l.addr - f.addr).toNat / w := Nat.div_le_div_right (by omega)
    repeat first | cost1 | with_reducible refine b_last (b_equalBody hl (by rw [BitIter.add_addr hw]; omega)) (by omega) ?_
  · exact b_last (b_equalBody hl (by omega)) (by omega) fun _ => trivial

theorem b_count {S : ShiftSem w} {f l : BitIter w} {v : Bool} (hf : f.Valid) (hl : l.Valid) :
    AtMost (@count w (Code w) _ _ S f l v) ((l.diff f).toNat / w + 2) := by
  have hd := words_diff_le hf hl
  have hz : f.pos = 0 → _ := fun h => words_diff_aligned (f := f) h hl
  generalize (l.diff f).toNat / w = N at *
  unfold count
  refine b_bind_viable fun _ => ?_
  dsimp only
  refine b_ite (fun _ => ?_) fun _ => ?_
  · refine b_ite (fun _ => ?_) fun hp => ?_
    · refine b_bind_load (by omega) fun _ => b_bind_lift fun _ => b_bind_pure (b_bind_wordDist fun _ => ?_)
      refine b_then (b_popcntWords _ _) (by omega) fun _ => ?_
      repeat cost1
    · have ha := hz (by omega)
      refine b_bind_pure (b_bind_wordDist fun _ => ?_)
      refine b_then (b_popcntWords _ _) (by omega) fun _ => ?_
      repeat cost1
  · repeat cost1

end Gen
end BitLib
