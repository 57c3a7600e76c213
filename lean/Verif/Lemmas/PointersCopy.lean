import Verif.Lemmas.PointersFit
import Verif.Lemmas.Map
/- The word iterators that `copy`, `move`, `transform`, `equal`, `fill`, `find` and `count` form. -/
namespace BitLib
namespace Ptr
variable {w : Nat} {α β : Type}

/-! ### Results of steps that form no iterator -/

theorem f_distance (first last : BitIter w) :
    Fits (up (distance first last)) (distance first last) fun d => d = last.addr - first.addr ∧ 0 ≤ d := by
  refine f_upP fun m r m' h => ?_
  unfold distance assertViable assertM at h
  rw [BitIter.diff_eq] at h
  by_cases hc : 0 ≤ last.addr - first.addr
  · rw [if_pos hc] at h
    have e : r = (last.base - first.base) * (w : Int) + ((last.pos : Int) - (first.pos : Int)) := by
      cases h
      rfl
    rw [← BitIter.diff.eq_1, BitIter.diff_eq] at e
    omega
  · rw [if_neg hc] at h
    cases h
theorem f_wordDist (a b : Int) : Fits (up (wordDist a b : M w Nat)) (wordDist a b) fun n => (n : Int) = b - a := by
  refine f_upP fun m r m' h => ?_
  unfold wordDist at h
  split at h
  · cases h
    omega
  · cases h
theorem f_viable (first last : BitIter w) :
    Fits (up (assertViable first last)) (assertViable first last) fun _ => first.addr ≤ last.addr := by
  refine f_upP fun m r m' h => ?_
  unfold assertViable assertM at h
  rw [BitIter.diff_eq] at h
  by_cases hc : 0 ≤ last.addr - first.addr
  · omega
  · rw [if_neg hc] at h
    cases h

/-- A program of `M` all of whose results are `b`. -/
def Gives (q : M w α) (b : α) : Prop := ∀ m r m', q m = .ok (r, m') → r = b
theorem gives_pure (b : α) : Gives (pure b : M w α) b := fun _ _ _ h => by cases h; rfl
theorem gives_bind {q : M w α} {g : α → M w β} {b : β} (h : ∀ a, Gives (g a) b) : Gives (q >>= g) b := by
  intro m r m' e
  change (q m >>= fun r => g r.1 r.2 : Except UB _) = _ at e
  cases hq : q m with
  | error x => rw [hq] at e; cases e
  | ok x => rw [hq] at e; exact h x.1 x.2 r m' e
theorem gives_dist {a b : Int} {g : Nat → M w β} {c : β} (h : ∀ n : Nat, (n : Int) = b - a → Gives (g n) c) :
    Gives (wordDist a b >>= g) c := by
  intro m r m' e
  unfold wordDist at e
  split at e
  · exact h (b - a).toNat (by omega) m r m' e
  · cases e

theorem gives_stdCopyN : ∀ n (s d : Int), Gives (BitLib.stdCopyN n s d : M w Int) (d + n) := by
  intro n
  induction n with
  | zero => intro s d; unfold BitLib.stdCopyN; simpa using gives_pure (w := w) d
  | succ n ih =>
    intro s d
    unfold BitLib.stdCopyN
    refine gives_bind fun _ => gives_bind fun _ => ?_
    have := ih (s + 1) (d + 1)
    rw [show d + ((n + 1 : Nat) : Int) = d + 1 + n by omega]
    exact this
theorem gives_stdTransformN {f : BitVec w → BitVec w} : ∀ n (s d : Int), Gives (BitLib.stdTransformN f n s d : M w Int) (d + n) := by
  intro n
  induction n with
  | zero => intro s d; unfold BitLib.stdTransformN; simpa using gives_pure (w := w) d
  | succ n ih =>
    intro s d
    unfold BitLib.stdTransformN
    refine gives_bind fun _ => gives_bind fun _ => ?_
    have := ih (s + 1) (d + 1)
    rw [show d + ((n + 1 : Nat) : Int) = d + 1 + n by omega]
    exact this
theorem gives_stdTransform2N {f : BitVec w → BitVec w → BitVec w} :
    ∀ n (s t d : Int), Gives (BitLib.stdTransform2N f n s t d : M w Int) (d + n) := by
  intro n
  induction n with
  | zero => intro s t d; unfold BitLib.stdTransform2N; simpa using gives_pure (w := w) d
  | succ n ih =>
    intro s t d
    unfold BitLib.stdTransform2N
    refine gives_bind fun _ => gives_bind fun _ => gives_bind fun _ => ?_
    have := ih (s + 1) (t + 1) (d + 1)
    rw [show d + ((n + 1 : Nat) : Int) = d + 1 + n by omega]
    exact this
theorem gives_stdSwapRangesN : ∀ n (s d : Int), Gives (BitLib.stdSwapRangesN n s d : M w Int) (d + n) := by
  intro n
  induction n with
  | zero => intro s d; unfold BitLib.stdSwapRangesN; simpa using gives_pure (w := w) d
  | succ n ih =>
    intro s d
    unfold BitLib.stdSwapRangesN
    refine gives_bind fun _ => gives_bind fun _ => gives_bind fun _ => gives_bind fun _ => ?_
    have := ih (s + 1) (d + 1)
    rw [show d + ((n + 1 : Nat) : Int) = d + 1 + n by omega]
    exact this
theorem gives_stdCopyBackwardN : ∀ n (s d : Int), Gives (BitLib.stdCopyBackwardN n s d : M w Int) (d - n) := by
  intro n
  induction n with
  | zero => intro s d; unfold BitLib.stdCopyBackwardN; simpa using gives_pure (w := w) d
  | succ n ih =>
    intro s d
    unfold BitLib.stdCopyBackwardN
    refine gives_bind fun _ => gives_bind fun _ => ?_
    have := ih (s - 1) (d - 1)
    rw [show d - ((n + 1 : Nat) : Int) = d - 1 - n by omega]
    exact this

theorem f_stdCopy {B : Arr} {first last d : Int} (h : B.lo ≤ d + (last - first) ∧ d + (last - first) ≤ B.hi) :
    Fits (stdCopy B first last d : P w Int) (BitLib.stdCopy first last d) fun r => r = d + (last - first) := by
  unfold Ptr.stdCopy
  refine f_form h (f_upP ?_)
  unfold BitLib.stdCopy
  exact gives_dist fun n hn => by rw [← hn]; exact gives_stdCopyN n first d
theorem f_stdTransform {B : Arr} {first last d : Int} {f : BitVec w → BitVec w}
    (h : B.lo ≤ d + (last - first) ∧ d + (last - first) ≤ B.hi) :
    Fits (stdTransform B first last d f : P w Int) (BitLib.stdTransform first last d f) fun r => r = d + (last - first) := by
  unfold Ptr.stdTransform
  refine f_form h (f_upP ?_)
  unfold BitLib.stdTransform
  exact gives_dist fun n hn => by rw [← hn]; exact gives_stdTransformN n first d
theorem f_stdTransform2 {A2 B : Arr} {first last first2 d : Int} {f : BitVec w → BitVec w → BitVec w}
    (h2 : A2.lo ≤ first2 + (last - first) ∧ first2 + (last - first) ≤ A2.hi)
    (h : B.lo ≤ d + (last - first) ∧ d + (last - first) ≤ B.hi) :
    Fits (stdTransform2 A2 B first last first2 d f : P w Int) (BitLib.stdTransform2 first last first2 d f)
      fun r => r = d + (last - first) := by
  unfold Ptr.stdTransform2
  refine f_form h2 (f_form h (f_upP ?_))
  unfold BitLib.stdTransform2
  exact gives_dist fun n hn => by rw [← hn]; exact gives_stdTransform2N n first first2 d
theorem f_stdSwapRanges {B : Arr} {first last d : Int} (h : B.lo ≤ d + (last - first) ∧ d + (last - first) ≤ B.hi) :
    Fits (stdSwapRanges B first last d : P w Int) (BitLib.stdSwapRanges first last d) fun r => r = d + (last - first) := by
  unfold Ptr.stdSwapRanges
  refine f_form h (f_upP ?_)
  unfold BitLib.stdSwapRanges
  exact gives_dist fun n hn => by rw [← hn]; exact gives_stdSwapRangesN n first d
theorem f_stdCopyBackward {B : Arr} {first last d : Int} (h : B.lo ≤ d - (last - first) ∧ d - (last - first) ≤ B.hi) :
    Fits (stdCopyBackward B first last d : P w Int) (BitLib.stdCopyBackward first last d) fun r => r = d - (last - first) := by
  unfold Ptr.stdCopyBackward
  refine f_form h (f_upP ?_)
  unfold BitLib.stdCopyBackward
  exact gives_dist fun n hn => by rw [← hn]; exact gives_stdCopyBackwardN n last d
theorem f_stdEqual {B : Arr} {first last d : Int} (h : B.lo ≤ d + (last - first) ∧ d + (last - first) ≤ B.hi) :
    Fits (stdEqual B first last d : P w Bool) (BitLib.stdEqual first last d) fun _ => True := by
  unfold Ptr.stdEqual
  exact f_form h (f_up _)

/-! ### get_word, write_word -/

theorem f_getWord {A : Arr} {S : ShiftSem w} {it : BitIter w} {len : Nat} (h : A.Has it) (hh : it.addr + len ≤ A.hi * w) :
    Fits (getWord A S it len) (BitLib.getWord S it len) fun _ => True := by
  unfold Ptr.getWord BitLib.getWord
  refine f_bind' (f_up _) fun _ => f_bind' (f_up _) fun _ => f_bind' (f_up _) fun _ => f_ite (fun _ => f_pure trivial) fun hl => ?_
  have := h.lo_base
  have := h.word hh (by omega)
  exact f_form ⟨by omega, by omega⟩ (f_bind' (f_up _) fun _ => f_bind' (f_up _) fun _ => f_up _)

theorem f_writeWord {A : Arr} {S : ShiftSem w} {x : BitVec w} {it : BitIter w} {len : Nat} (h : A.Has it) (hh : it.addr + len ≤ A.hi * w) :
    Fits (writeWord A S x it len) (BitLib.writeWord S x it len) fun _ => True := by
  unfold Ptr.writeWord BitLib.writeWord
  refine f_ite (fun _ => f_up _) fun _ => f_bind' (f_up _) fun _ => f_bind' (f_up _) fun _ => f_ite (fun hl => ?_) fun _ => f_pure trivial
  have := h.lo_base
  have := h.word hh (by omega)
  exact f_form ⟨by omega, by omega⟩ (f_bind' (f_up _) fun _ => f_up _)

/-- The arithmetic of the block of whole words: from `first` at the start of a word, `N` words lead to the word of `last`. -/
theorem block {first last : BitIter w} (hw : 0 < w) (h0 : first.pos = 0) {N : Nat} (hN : (N : Int) = last.base - first.base) :
    (first.add ((w : Int) * N)).addr = last.base * w ∧ last.addr - first.addr = (w : Int) * N + last.pos := by
  have e : (w : Int) * N = last.base * w - first.base * w := by rw [hN, Int.mul_comm, Int.sub_mul]
  rw [BitIter.add_addr hw]
  have h1 := Arr.addr_eq first
  have h2 := Arr.addr_eq last
  constructor <;> omega

theorem block_rest {first last : BitIter w} (hw : 0 < w) (h0 : first.pos = 0) {N rem : Nat} (hN : (N : Int) = last.base - first.base)
    (hr : (rem : Int) = last.addr - first.addr) : subSize rem (w * N) = last.pos := by
  have h := (block hw h0 hN).2
  have e : ((w * N : Nat) : Int) = (w : Int) * N := by push_cast; rfl
  rw [subSize_le (by omega)]
  omega

theorem mul_add_one (a : Int) (w : Nat) : (a + 1) * (w : Int) = a * w + w := by rw [Int.add_mul, Int.one_mul]
theorem mul_sub_one (a : Int) (w : Nat) : (a - 1) * (w : Int) = a * w - w := by rw [Int.sub_mul, Int.one_mul]

/-! ### copy -/

/-- What is left to do after the first partial word: `rem` bits from `first` to `last` and to the start of the word `it`. -/
def Left (A B : Arr) (e : Int) (f : Int) (r : Nat × BitIter w × Int) : Prop :=
  A.Has r.2.1 ∧ r.2.1.addr + r.1 = e ∧ B.lo ≤ r.2.2 ∧ (0 < r.1 → r.2.2 * w + r.1 = f)

theorem f_copyHead {A B : Arr} {S : ShiftSem w} {first dFirst : BitIter w} {total : Nat} (h : A.Has first) (hd : B.Has dFirst) (ht : 0 < total)
    (h1 : first.addr + total ≤ A.hi * w) (h2 : dFirst.addr + total ≤ B.hi * w) :
    Fits (copyHead A B S first dFirst total) (BitLib.copyHead S first dFirst total)
      (Left A B (first.addr + total) (dFirst.addr + total)) := by
  unfold Ptr.copyHead BitLib.copyHead
  have hv := hd.valid
  unfold BitIter.Valid at hv
  have hb := hd.lo_base
  have hn := hd.next (n := total) (by omega) h2
  have hw := h.pos_w
  have := h.lo_le
  refine f_ite (fun hp => ?_) fun hp => ?_
  · refine f_bind' (f_getWord h (by omega)) fun _ => f_bind' (f_up _) fun _ => f_bind' (f_up _) fun _ => ?_
    have ha := h.add (n := ((min total (w - dFirst.pos) : Nat) : Int)) (by omega) (by omega)
    refine f_add ha (f_form ⟨by omega, by omega⟩ (f_pure ⟨ha, ?_, by simp only; omega, ?_⟩))
    · rw [BitIter.add_addr hw]
      simp only
      omega
    · simp only
      rw [mul_add_one, Arr.addr_eq dFirst]
      omega
  · refine f_pure ⟨h, rfl, hb, fun _ => ?_⟩
    rw [Arr.addr_eq dFirst]
    simp only
    omega

theorem f_copyTail {A : Arr} {S : ShiftSem w} {rem : Nat} {first : BitIter w} {it : Int} (h : A.Has first)
    (h1 : first.addr + rem ≤ A.hi * w) :
    Fits (copyTail A S rem first it) (BitLib.copyTail S rem first it) fun _ => True := by
  unfold Ptr.copyTail BitLib.copyTail
  exact f_ite (fun _ => f_bind' (f_getWord h h1) fun _ => f_up _) fun _ => f_pure trivial

theorem f_copyLoop {A B : Arr} {S : ShiftSem w} : ∀ (fuel rem : Nat) (first : BitIter w) (it : Int), A.Has first → first.addr + rem ≤ A.hi * w →
    B.lo ≤ it → it * w + rem ≤ B.hi * w →
    Fits (copyLoop A B S fuel rem first it) (BitLib.copyLoop S fuel rem first it) fun _ => True := by
  intro fuel
  induction fuel with
  | zero => intro rem first it _ _ _ _; exact f_up _
  | succ fuel ih =>
    intro rem first it h h1 h2 h3
    have hw := h.pos_w
    have := h.lo_le
    unfold Ptr.copyLoop BitLib.copyLoop
    refine f_ite (fun hr => ?_) fun _ => f_copyTail h h1
    have ha := h.add (n := (w : Int)) (by omega) (by omega)
    have hi : (it + 1) * (w : Int) ≤ B.hi * w := by rw [mul_add_one]; omega
    have := Arr.le_of_mul hw hi
    refine f_bind' (f_getWord h (by omega)) fun _ => f_bind' (f_up _) fun _ => f_form ⟨by omega, by omega⟩
      (f_add ha (ih _ _ _ ha ?_ (by omega) ?_))
    · rw [BitIter.add_addr hw]
      omega
    · rw [mul_add_one]
      omega

theorem f_copy {A B : Arr} {S : ShiftSem w} {first last dFirst : BitIter w} (h : A.Has first) (hl : A.Has last) (hd : B.Has dFirst)
    (h2 : dFirst.addr + (last.addr - first.addr) ≤ B.hi * w) :
    Fits (copy A B S first last dFirst) (BitLib.copy S first last dFirst) fun _ => True := by
  unfold Ptr.copy BitLib.copy
  have hw := h.pos_w
  refine f_bind (f_viable _ _) fun _ hv => f_ite (fun _ => f_pure trivial) fun hne => f_bind (f_distance _ _) fun d hd' => ?_
  have hne : first.addr ≠ last.addr := fun he => hne ((BitIter.beq_iff h.valid hl.valid).2 he)
  have hdl := hd.lo_le
  have hll := hl.le_hi
  have hadd := hd.add (n := (d.toNat : Int)) (by omega) (by omega)
  refine f_bind (f_copyHead h hd (by omega) (by omega) (by omega)) ?_
  rintro ⟨rem, f, it⟩ ⟨hf, hfe, hit, hie⟩
  simp only at hf hfe hit hie ⊢
  refine f_ite (fun hr => ?_) fun _ => f_add0 hadd trivial
  have hie := hie hr
  refine f_ite (fun hc => ?_) fun _ => ?_
  · refine f_bind (f_wordDist _ _) fun N hN => ?_
    have hb := block (last := last) hw hc.1 hN
    have hs : subSize rem (w * N) = last.pos := block_rest hw hc.1 hN (by omega)
    have hle : A.Has (f.add ((w : Int) * N)) := by
      refine hf.add ?_ ?_
      · have := hf.lo_le; have : (0 : Int) ≤ (w : Int) * N := Int.mul_nonneg (by omega) (by omega)
        omega
      · have := hb.1
        rw [BitIter.add_addr hw] at this
        have := Arr.addr_eq last
        omega
    refine f_bind (f_stdCopy ⟨by omega, ?_⟩) fun it' _ => f_add hle ?_
    · refine Arr.le_of_mul hw ?_
      rw [show it + (last.base - f.base) = it + N by omega, Int.add_mul]
      have := Int.mul_comm (N : Int) (w : Int)
      omega
    · refine f_bind' (f_copyTail hle ?_) fun _ => f_add0 hadd trivial
      rw [hb.1, hs]
      exact hl.le_hi
  · exact f_bind' (f_copyLoop _ _ _ _ hf (by omega) hit (by omega)) fun _ => f_add0 hadd trivial

/-! ### move -/

theorem f_moveHead {A B : Arr} {S : ShiftSem w} {first dFirst : BitIter w} {total : Nat} (h : A.Has first) (hd : B.Has dFirst) (ht : 0 < total)
    (h1 : first.addr + total ≤ A.hi * w) (h2 : dFirst.addr + total ≤ B.hi * w) :
    Fits (moveHead A B S first dFirst total) (BitLib.moveHead S first dFirst total)
      (Left A B (first.addr + total) (dFirst.addr + total)) := by
  unfold Ptr.moveHead BitLib.moveHead
  have hv := hd.valid
  unfold BitIter.Valid at hv
  have hb := hd.lo_base
  have hn := hd.next (n := total) (by omega) h2
  have hw := h.pos_w
  have := h.lo_le
  refine f_ite (fun hp => ?_) fun hp => ?_
  · refine f_bind' (f_getWord h (by omega)) fun _ => f_bind' (f_up _) fun _ => f_bind' (f_up _) fun _ => ?_
    have ha := h.add (n := ((min total (w - dFirst.pos) : Nat) : Int)) (by omega) (by omega)
    refine f_add ha (f_form ⟨by omega, by omega⟩ (f_pure ⟨ha, ?_, by simp only; omega, ?_⟩))
    · rw [BitIter.add_addr hw]
      simp only
      omega
    · simp only
      rw [mul_add_one, Arr.addr_eq dFirst]
      omega
  · refine f_pure ⟨h, rfl, hb, fun _ => ?_⟩
    rw [Arr.addr_eq dFirst]
    simp only
    omega

theorem f_moveTail {A : Arr} {S : ShiftSem w} {rem : Nat} {first : BitIter w} {it : Int} (h : A.Has first)
    (h1 : first.addr + rem ≤ A.hi * w) :
    Fits (moveTail A S rem first it) (BitLib.moveTail S rem first it) fun _ => True := by
  unfold Ptr.moveTail BitLib.moveTail
  exact f_ite (fun _ => f_bind' (f_getWord h h1) fun _ => f_up _) fun _ => f_pure trivial

theorem f_moveLoop {A B : Arr} {S : ShiftSem w} : ∀ (fuel rem : Nat) (first : BitIter w) (it : Int), A.Has first → first.addr + rem ≤ A.hi * w →
    B.lo ≤ it → it * w + rem ≤ B.hi * w →
    Fits (moveLoop A B S fuel rem first it) (BitLib.moveLoop S fuel rem first it) fun _ => True := by
  intro fuel
  induction fuel with
  | zero => intro rem first it _ _ _ _; exact f_up _
  | succ fuel ih =>
    intro rem first it h h1 h2 h3
    have hw := h.pos_w
    have := h.lo_le
    unfold Ptr.moveLoop BitLib.moveLoop
    refine f_ite (fun hr => ?_) fun _ => f_moveTail h h1
    have ha := h.add (n := (w : Int)) (by omega) (by omega)
    have hi : (it + 1) * (w : Int) ≤ B.hi * w := by rw [mul_add_one]; omega
    have := Arr.le_of_mul hw hi
    refine f_bind' (f_getWord h (by omega)) fun _ => f_bind' (f_up _) fun _ => f_form ⟨by omega, by omega⟩
      (f_add ha (ih _ _ _ ha ?_ (by omega) ?_))
    · rw [BitIter.add_addr hw]
      omega
    · rw [mul_add_one]
      omega

theorem f_move {A B : Arr} {S : ShiftSem w} {first last dFirst : BitIter w} (h : A.Has first) (hl : A.Has last) (hd : B.Has dFirst)
    (h2 : dFirst.addr + (last.addr - first.addr) ≤ B.hi * w) :
    Fits (move A B S first last dFirst) (BitLib.move S first last dFirst) fun _ => True := by
  unfold Ptr.move BitLib.move
  have hw := h.pos_w
  refine f_bind (f_viable _ _) fun _ hv => f_ite (fun _ => f_pure trivial) fun hne => f_bind (f_distance _ _) fun d hd' => ?_
  have hne : first.addr ≠ last.addr := fun he => hne ((BitIter.beq_iff h.valid hl.valid).2 he)
  have hdl := hd.lo_le
  have hll := hl.le_hi
  have hadd := hd.add (n := (d.toNat : Int)) (by omega) (by omega)
  refine f_bind (f_moveHead h hd (by omega) (by omega) (by omega)) ?_
  rintro ⟨rem, f, it⟩ ⟨hf, hfe, hit, hie⟩
  simp only at hf hfe hit hie ⊢
  refine f_ite (fun hr => ?_) fun _ => f_add0 hadd trivial
  have hie := hie hr
  refine f_ite (fun hc => ?_) fun _ => ?_
  · refine f_bind (f_wordDist _ _) fun N hN => ?_
    have hb := block (last := last) hw hc.1 hN
    have hs : subSize rem (w * N) = last.pos := block_rest hw hc.1 hN (by omega)
    have hle : A.Has (f.add ((w : Int) * N)) := by
      refine hf.add ?_ ?_
      · have := hf.lo_le; have : (0 : Int) ≤ (w : Int) * N := Int.mul_nonneg (by omega) (by omega)
        omega
      · have := hb.1
        rw [BitIter.add_addr hw] at this
        have := Arr.addr_eq last
        omega
    refine f_bind (f_stdCopy ⟨by omega, ?_⟩) fun it' _ => f_add hle ?_
    · refine Arr.le_of_mul hw ?_
      rw [show it + (last.base - f.base) = it + N by omega, Int.add_mul]
      have := Int.mul_comm (N : Int) (w : Int)
      omega
    · refine f_bind' (f_moveTail hle ?_) fun _ => f_add0 hadd trivial
      rw [hb.1, hs]
      exact hl.le_hi
  · exact f_bind' (f_moveLoop _ _ _ _ hf (by omega) hit (by omega)) fun _ => f_add0 hadd trivial

/-! ### transform -/

theorem f_transformHead {A B : Arr} {S : ShiftSem w} {op : BitVec w → BitVec w} {first dFirst : BitIter w} {total : Nat} (h : A.Has first) (hd : B.Has dFirst) (ht : 0 < total)
    (h1 : first.addr + total ≤ A.hi * w) (h2 : dFirst.addr + total ≤ B.hi * w) :
    Fits (transformHead A B S op first dFirst total) (BitLib.transformHead S op first dFirst total)
      (Left A B (first.addr + total) (dFirst.addr + total)) := by
  unfold Ptr.transformHead BitLib.transformHead
  have hv := hd.valid
  unfold BitIter.Valid at hv
  have hb := hd.lo_base
  have hn := hd.next (n := total) (by omega) h2
  have hw := h.pos_w
  have := h.lo_le
  refine f_ite (fun hp => ?_) fun hp => ?_
  · refine f_bind' (f_getWord h (by omega)) fun _ => f_bind' (f_up _) fun _ => f_bind' (f_up _) fun _ => ?_
    have ha := h.add (n := ((min total (w - dFirst.pos) : Nat) : Int)) (by omega) (by omega)
    refine f_add ha (f_form ⟨by omega, by omega⟩ (f_pure ⟨ha, ?_, by simp only; omega, ?_⟩))
    · rw [BitIter.add_addr hw]
      simp only
      omega
    · simp only
      rw [mul_add_one, Arr.addr_eq dFirst]
      omega
  · refine f_pure ⟨h, rfl, hb, fun _ => ?_⟩
    rw [Arr.addr_eq dFirst]
    simp only
    omega

theorem f_transformTail {A : Arr} {S : ShiftSem w} {op : BitVec w → BitVec w} {rem : Nat} {first : BitIter w} {it : Int} (h : A.Has first)
    (h1 : first.addr + rem ≤ A.hi * w) :
    Fits (transformTail A S op rem first it) (BitLib.transformTail S op rem first it) fun _ => True := by
  unfold Ptr.transformTail BitLib.transformTail
  exact f_ite (fun _ => f_bind' (f_getWord h h1) fun _ => f_up _) fun _ => f_pure trivial

theorem f_transformLoop {A B : Arr} {S : ShiftSem w} {op : BitVec w → BitVec w} : ∀ (fuel rem : Nat) (first : BitIter w) (it : Int), A.Has first → first.addr + rem ≤ A.hi * w →
    B.lo ≤ it → it * w + rem ≤ B.hi * w →
    Fits (transformLoop A B S op fuel rem first it) (BitLib.transformLoop S op fuel rem first it) fun _ => True := by
  intro fuel
  induction fuel with
  | zero => intro rem first it _ _ _ _; exact f_up _
  | succ fuel ih =>
    intro rem first it h h1 h2 h3
    have hw := h.pos_w
    have := h.lo_le
    unfold Ptr.transformLoop BitLib.transformLoop
    refine f_ite (fun hr => ?_) fun _ => f_transformTail h h1
    have ha := h.add (n := (w : Int)) (by omega) (by omega)
    have hi : (it + 1) * (w : Int) ≤ B.hi * w := by rw [mul_add_one]; omega
    have := Arr.le_of_mul hw hi
    refine f_bind' (f_getWord h (by omega)) fun _ => f_bind' (f_up _) fun _ => f_form ⟨by omega, by omega⟩
      (f_add ha (ih _ _ _ ha ?_ (by omega) ?_))
    · rw [BitIter.add_addr hw]
      omega
    · rw [mul_add_one]
      omega

theorem f_transform {A B : Arr} {S : ShiftSem w} {op : BitVec w → BitVec w} {first last dFirst : BitIter w} (h : A.Has first) (hl : A.Has last) (hd : B.Has dFirst)
    (h2 : dFirst.addr + (last.addr - first.addr) ≤ B.hi * w) :
    Fits (transform A B S op first last dFirst) (BitLib.transform S op first last dFirst) fun _ => True := by
  unfold Ptr.transform BitLib.transform
  have hw := h.pos_w
  refine f_bind (f_viable _ _) fun _ hv => f_ite (fun _ => f_pure trivial) fun hne => f_bind (f_distance _ _) fun d hd' => ?_
  have hne : first.addr ≠ last.addr := fun he => hne ((BitIter.beq_iff h.valid hl.valid).2 he)
  have hdl := hd.lo_le
  have hll := hl.le_hi
  have hadd := hd.add (n := (d.toNat : Int)) (by omega) (by omega)
  refine f_bind (f_transformHead h hd (by omega) (by omega) (by omega)) ?_
  rintro ⟨rem, f, it⟩ ⟨hf, hfe, hit, hie⟩
  simp only at hf hfe hit hie ⊢
  refine f_ite (fun hr => ?_) fun _ => f_add0 hadd trivial
  have hie := hie hr
  refine f_ite (fun hc => ?_) fun _ => ?_
  · refine f_bind (f_wordDist _ _) fun N hN => ?_
    have hb := block (last := last) hw hc.1 hN
    have hs : subSize rem (w * N) = last.pos := block_rest hw hc.1 hN (by omega)
    have hbe : f.base + N = last.base := by omega
    have hle : A.Has (⟨f.base + N, 0⟩ : BitIter w) := by
      have h1 := Arr.mul_le (w := w) hl.lo_base
      have h2 := Arr.mul_le (w := w) hl.base_hi
      rw [hbe]
      exact ⟨hw, by simp only; omega, by simp only; omega⟩
    refine f_bind (f_stdTransform ⟨by omega, ?_⟩) fun it' _ => f_form ⟨hle.lo_base, hle.base_hi⟩ ?_
    · refine Arr.le_of_mul hw ?_
      rw [show it + (last.base - f.base) = it + N by omega, Int.add_mul]
      have := Int.mul_comm (N : Int) (w : Int)
      omega
    · refine f_bind' (f_transformTail hle ?_) fun _ => f_add0 hadd trivial
      rw [hs, hbe]
      have := hl.le_hi
      rw [Arr.addr_eq] at this ⊢
      simp only
      omega
  · exact f_bind' (f_transformLoop _ _ _ _ hf (by omega) hit (by omega)) fun _ => f_add0 hadd trivial

/-! ### binary transform -/

/-- What is left to do after the first partial word. -/
def Left2 (A1 A2 B : Arr) (e1 e2 : Int) (f : Int) (r : Nat × BitIter w × BitIter w × Int) : Prop :=
  A1.Has r.2.1 ∧ r.2.1.addr + r.1 = e1 ∧ A2.Has r.2.2.1 ∧ r.2.2.1.addr + r.1 = e2 ∧ B.lo ≤ r.2.2.2 ∧ (0 < r.1 → r.2.2.2 * w + r.1 = f)

theorem f_transform2Head {A1 A2 B : Arr} {S : ShiftSem w} {op : BitVec w → BitVec w → BitVec w} {first1 first2 dFirst : BitIter w} {total : Nat}
    (h : A1.Has first1) (h' : A2.Has first2) (hd : B.Has dFirst) (ht : 0 < total) (h1 : first1.addr + total ≤ A1.hi * w)
    (h3 : first2.addr + total ≤ A2.hi * w) (h2 : dFirst.addr + total ≤ B.hi * w) :
    Fits (transform2Head A1 A2 B S op first1 first2 dFirst total) (BitLib.transform2Head S op first1 first2 dFirst total)
      (Left2 A1 A2 B (first1.addr + total) (first2.addr + total) (dFirst.addr + total)) := by
  unfold Ptr.transform2Head BitLib.transform2Head
  have hv := hd.valid
  unfold BitIter.Valid at hv
  have hb := hd.lo_base
  have hn := hd.next (n := total) (by omega) h2
  have hw := h.pos_w
  have := h.lo_le
  have := h'.lo_le
  refine f_ite (fun hp => ?_) fun hp => ?_
  · refine f_bind' (f_getWord h (by omega)) fun _ => f_bind' (f_up _) fun _ => f_bind' (f_getWord h' (by omega)) fun _ =>
      f_bind' (f_up _) fun _ => f_bind' (f_up _) fun _ => ?_
    have ha := h.add (n := ((min total (w - dFirst.pos) : Nat) : Int)) (by omega) (by omega)
    have ha' := h'.add (n := ((min total (w - dFirst.pos) : Nat) : Int)) (by omega) (by omega)
    refine f_add ha (f_add ha' (f_form ⟨by omega, by omega⟩ (f_pure ⟨ha, ?_, ha', ?_, by simp only; omega, ?_⟩)))
    · rw [BitIter.add_addr hw]
      simp only
      omega
    · rw [BitIter.add_addr hw]
      simp only
      omega
    · simp only
      rw [mul_add_one, Arr.addr_eq dFirst]
      omega
  · refine f_pure ⟨h, rfl, h', rfl, hb, fun _ => ?_⟩
    rw [Arr.addr_eq dFirst]
    simp only
    omega

theorem f_transform2Tail {A1 A2 : Arr} {S : ShiftSem w} {op : BitVec w → BitVec w → BitVec w} {rem : Nat} {first1 first2 : BitIter w} {it : Int}
    (h : A1.Has first1) (h' : A2.Has first2) (h1 : first1.addr + rem ≤ A1.hi * w) (h3 : first2.addr + rem ≤ A2.hi * w) :
    Fits (transform2Tail A1 A2 S op rem first1 first2 it) (BitLib.transform2Tail S op rem first1 first2 it) fun _ => True := by
  unfold Ptr.transform2Tail BitLib.transform2Tail
  exact f_ite (fun _ => f_bind' (f_getWord h h1) fun _ => f_bind' (f_getWord h' h3) fun _ => f_up _) fun _ => f_pure trivial

theorem f_transform2Loop {A1 A2 B : Arr} {S : ShiftSem w} {op : BitVec w → BitVec w → BitVec w} :
    ∀ (fuel rem : Nat) (first1 first2 : BitIter w) (it : Int), A1.Has first1 → A2.Has first2 → first1.addr + rem ≤ A1.hi * w →
    first2.addr + rem ≤ A2.hi * w → B.lo ≤ it → it * w + rem ≤ B.hi * w →
    Fits (transform2Loop A1 A2 B S op fuel rem first1 first2 it) (BitLib.transform2Loop S op fuel rem first1 first2 it) fun _ => True := by
  intro fuel
  induction fuel with
  | zero => intro rem first1 first2 it _ _ _ _ _ _; exact f_up _
  | succ fuel ih =>
    intro rem first1 first2 it h h' h1 h1' h2 h3
    have hw := h.pos_w
    have := h.lo_le
    have := h'.lo_le
    unfold Ptr.transform2Loop BitLib.transform2Loop
    refine f_ite (fun hr => ?_) fun _ => f_transform2Tail h h' h1 h1'
    have ha := h.add (n := (w : Int)) (by omega) (by omega)
    have ha' := h'.add (n := (w : Int)) (by omega) (by omega)
    have hi : (it + 1) * (w : Int) ≤ B.hi * w := by rw [mul_add_one]; omega
    have := Arr.le_of_mul hw hi
    refine f_bind' (f_getWord h (by omega)) fun _ => f_bind' (f_getWord h' (by omega)) fun _ => f_bind' (f_up _) fun _ =>
      f_form ⟨by omega, by omega⟩ (f_add ha (f_add ha' (ih _ _ _ _ ha ha' ?_ ?_ (by omega) ?_)))
    · rw [BitIter.add_addr hw]
      omega
    · rw [BitIter.add_addr hw]
      omega
    · rw [mul_add_one]
      omega

theorem f_transform2 {A1 A2 B : Arr} {S : ShiftSem w} {op : BitVec w → BitVec w → BitVec w} {first1 last1 first2 dFirst : BitIter w}
    (h : A1.Has first1) (hl : A1.Has last1) (h' : A2.Has first2) (hd : B.Has dFirst)
    (h3 : first2.addr + (last1.addr - first1.addr) ≤ A2.hi * w) (h2 : dFirst.addr + (last1.addr - first1.addr) ≤ B.hi * w) :
    Fits (transform2 A1 A2 B S op first1 last1 first2 dFirst) (BitLib.transform2 S op first1 last1 first2 dFirst) fun _ => True := by
  unfold Ptr.transform2 BitLib.transform2
  have hw := h.pos_w
  refine f_bind (f_viable _ _) fun _ hv => f_ite (fun _ => f_pure trivial) fun hne => f_bind (f_distance _ _) fun d hd' => ?_
  have hne : first1.addr ≠ last1.addr := fun he => hne ((BitIter.beq_iff h.valid hl.valid).2 he)
  have hdl := hd.lo_le
  have hll := hl.le_hi
  have hadd := hd.add (n := (d.toNat : Int)) (by omega) (by omega)
  refine f_bind (f_transform2Head h h' hd (by omega) (by omega) (by omega) (by omega)) ?_
  rintro ⟨rem, f, g, it⟩ ⟨hf, hfe, hg, hge, hit, hie⟩
  simp only at hf hfe hg hge hit hie ⊢
  refine f_ite (fun hr => ?_) fun _ => f_add0 hadd trivial
  have hie := hie hr
  refine f_ite (fun hc => ?_) fun _ => ?_
  · refine f_bind (f_wordDist _ _) fun N hN => ?_
    have hb := block (last := last1) hw hc.1 hN
    have hs : subSize rem (w * N) = last1.pos := block_rest hw hc.1 hN (by omega)
    have hnn : (0 : Int) ≤ (w : Int) * N := Int.mul_nonneg (by omega) (by omega)
    have hle : A1.Has (f.add ((w : Int) * N)) := by
      refine hf.add ?_ ?_
      · have := hf.lo_le
        omega
      · have := hb.1
        rw [BitIter.add_addr hw] at this
        have := Arr.addr_eq last1
        omega
    have hge' : A2.Has (g.add ((w : Int) * N)) := by
      refine hg.add ?_ ?_
      · have := hg.lo_le
        omega
      · omega
    have hNw := Int.mul_comm (N : Int) (w : Int)
    have hgb : g.base + N ≤ A2.hi := by
      refine Arr.le_of_mul hw ?_
      rw [Int.add_mul]
      have := Arr.addr_eq g
      omega
    have := hg.lo_base
    refine f_bind (f_stdTransform2 ⟨by omega, by omega⟩ ⟨by omega, ?_⟩) fun it' _ => f_add hle (f_add hge' ?_)
    · refine Arr.le_of_mul hw ?_
      rw [show it + (last1.base - f.base) = it + N by omega, Int.add_mul]
      omega
    · refine f_bind' (f_transform2Tail hle hge' ?_ ?_) fun _ => f_add0 hadd trivial
      · rw [hb.1, hs]
        exact hl.le_hi
      · rw [BitIter.add_addr hw, hs]
        omega
  · exact f_bind' (f_transform2Loop _ _ _ _ _ hf hg (by omega) (by omega) hit (by omega)) fun _ => f_add0 hadd trivial

/-! ### equal -/

theorem f_equalTail {A : Arr} {S : ShiftSem w} {rem : Nat} {first : BitIter w} {it : Int} (h : A.Has first)
    (h1 : first.addr + rem ≤ A.hi * w) :
    Fits (equalTail A S rem first it) (BitLib.equalTail S rem first it) fun _ => True := by
  unfold Ptr.equalTail BitLib.equalTail
  exact f_ite (fun _ => f_bind' (f_up _) fun _ => f_bind' (f_getWord h h1) fun _ => f_bind' (f_up _) fun _ => f_pure trivial)
    fun _ => f_pure trivial

theorem f_equalLoop {A B : Arr} {S : ShiftSem w} : ∀ (fuel rem : Nat) (first : BitIter w) (it : Int), A.Has first →
    first.addr + rem ≤ A.hi * w → B.lo ≤ it → it * w + rem ≤ B.hi * w →
    Fits (equalLoop A B S fuel rem first it) (BitLib.equalLoop S fuel rem first it) fun _ => True := by
  intro fuel
  induction fuel with
  | zero => intro rem first it _ _ _ _; exact f_up _
  | succ fuel ih =>
    intro rem first it h h1 h2 h3
    have hw := h.pos_w
    have := h.lo_le
    unfold Ptr.equalLoop BitLib.equalLoop
    refine f_ite (fun hr => ?_) fun _ => f_equalTail h h1
    have ha := h.add (n := (w : Int)) (by omega) (by omega)
    have hi : (it + 1) * (w : Int) ≤ B.hi * w := by rw [mul_add_one]; omega
    have := Arr.le_of_mul hw hi
    refine f_bind' (f_up _) fun _ => f_bind' (f_getWord h (by omega)) fun _ => f_ite (fun _ => ?_) fun _ => f_pure trivial
    refine f_form ⟨by omega, by omega⟩ (f_add ha (ih _ _ _ ha ?_ (by omega) ?_))
    · rw [BitIter.add_addr hw]
      omega
    · rw [mul_add_one]
      omega

theorem f_equalBody {A B : Arr} {S : ShiftSem w} {rem : Nat} {f last : BitIter w} {it : Int} (hf : A.Has f) (hl : A.Has last)
    (hfe : f.addr + rem = last.addr) (hit : B.lo ≤ it) (hie : 0 < rem → it * w + rem ≤ B.hi * w) :
    Fits (equalBody A B S rem f last it) (BitLib.equalBody S rem f last it) fun _ => True := by
  unfold Ptr.equalBody BitLib.equalBody
  have hw := hf.pos_w
  have hll := hl.le_hi
  refine f_ite (fun hr => ?_) fun _ => f_pure trivial
  have hie := hie hr
  refine f_ite (fun hc => ?_) fun _ => ?_
  · refine f_bind (f_wordDist _ _) fun N hN => ?_
    have hb := block (last := last) hw hc.1 hN
    have hs : subSize rem (w * N) = last.pos := block_rest hw hc.1 hN (by omega)
    have hle : A.Has (f.add ((w : Int) * N)) := by
      refine hf.add ?_ ?_
      · have := hf.lo_le; have : (0 : Int) ≤ (w : Int) * N := Int.mul_nonneg (by omega) (by omega)
        omega
      · have := hb.1
        rw [BitIter.add_addr hw] at this
        have := Arr.addr_eq last
        omega
    have hB : it + N ≤ B.hi := by
      refine Arr.le_of_mul hw ?_
      rw [Int.add_mul]
      have := Int.mul_comm (N : Int) (w : Int)
      omega
    refine f_bind' (f_stdEqual ⟨by omega, by omega⟩) fun e => f_ite (fun _ => ?_) fun _ => f_pure trivial
    refine f_form ⟨by omega, hB⟩ (f_add hle (f_equalTail hle ?_))
    rw [hb.1, hs]
    exact hl.le_hi
  · exact f_equalLoop _ _ _ _ hf (by omega) hit (by omega)

theorem f_equal {A B : Arr} {S : ShiftSem w} {first last dFirst : BitIter w} (h : A.Has first) (hl : A.Has last) (hd : B.Has dFirst)
    (h2 : dFirst.addr + (last.addr - first.addr) ≤ B.hi * w) :
    Fits (equal A B S first last dFirst) (BitLib.equal S first last dFirst) fun _ => True := by
  unfold Ptr.equal BitLib.equal
  have hw := h.pos_w
  refine f_bind (f_viable _ _) fun _ hv => f_ite (fun _ => f_pure trivial) fun hne => f_bind (f_distance _ _) fun d hd' => ?_
  have hne : first.addr ≠ last.addr := fun he => hne ((BitIter.beq_iff h.valid hl.valid).2 he)
  have hll := hl.le_hi
  have hfl := h.lo_le
  have hb := hd.lo_base
  have hn := hd.next (n := d) (by omega) (by omega)
  have hv := hd.valid
  unfold BitIter.Valid at hv
  have hda := Arr.addr_eq dFirst
  refine f_ite (fun hp => ?_) fun hp => f_equalBody h hl (by omega) hb (by omega)
  refine f_bind' (f_up _) fun _ => f_bind' (f_up _) fun _ => f_bind' (f_getWord h (by omega)) fun _ => f_bind' (f_up _) fun _ =>
    f_bind' (f_up _) fun _ => f_ite (fun _ => ?_) fun _ => f_pure trivial
  have ha := h.add (n := ((min d.toNat (w - dFirst.pos) : Nat) : Int)) (by omega) (by omega)
  refine f_add ha (f_form ⟨by omega, by omega⟩ (f_equalBody ha hl ?_ (by omega) ?_))
  · rw [BitIter.add_addr hw]
    omega
  · rw [mul_add_one]
    omega

/-! ### is_within, fill -/

theorem isWithin_eq {A : Arr} {first last : BitIter w} (h : A.Has first) (hl : A.Has last) (hle : first.addr ≤ last.addr) :
    (isWithin A w first last : P w Bool) = pure (BitLib.isWithin w first last) := by
  have hw := h.pos_w
  unfold Ptr.isWithin BitLib.isWithin
  rw [Nat.mod_self, Nat.div_self hw]
  unfold Ptr.isWithinAux BitLib.isWithinAux
  have hm := Arr.base_mono hl.valid hle
  have hlo := h.lo_base
  have hhi := hl.base_hi
  split
  next h1 => simp only [h1, decide_true, Bool.true_or]
  next h1 =>
    rw [form_ok ⟨by omega, by omega⟩, pure_bind]
    split
    next h2 =>
      rw [show (decide (first.base + 1 = last.base) && decide (first.pos ≥ last.pos)) = true by simp [h2]]
      simp only [Bool.or_true, Bool.true_or]
    next h2 =>
      rw [show (decide (first.base + 1 = last.base) && decide (first.pos ≥ last.pos)) = false by simpa using h2,
        show decide (first.base = last.base) = false by simpa using h1]
      have hb1 : (first.add (w : Int)) = ⟨first.base + 1, first.pos⟩ := by
        refine BitIter.addr_inj (BitIter.add_valid hw _ _) h.valid ?_
        rw [BitIter.add_addr hw, Arr.addr_eq, Arr.addr_eq]
        simp only
        rw [mul_add_one]
        omega
      unfold Ptr.add
      rw [hb1]
      simp only
      rw [form_ok ⟨by omega, by omega⟩, pure_bind, pure_bind]
      unfold Ptr.isWithinAux BitLib.isWithinAux
      simp only [Nat.add_zero, Bool.false_or]
      split
      next h3 => simp [h3]
      next h3 =>
        have hlast : first.base + 1 + 1 ≤ A.hi := by
          by_cases hlb : last.base = first.base + 1
          · have := hl.next_of_pos (by omega)
            omega
          · omega
        rw [form_ok ⟨by omega, hlast⟩, pure_bind]
        congr 1
        rw [show (decide (first.base + 1 = last.base) && decide (first.pos ≥ last.pos)) = false by simpa using h3]
        rfl

theorem f_isWithin {A : Arr} {first last : BitIter w} {k : Bool → P w α} {q : M w α} {Φ : α → Prop} (h : A.Has first) (hl : A.Has last)
    (hle : first.addr ≤ last.addr) (hk : Fits (k (BitLib.isWithin w first last)) q Φ) : Fits (isWithin A w first last >>= k) q Φ := by
  rw [isWithin_eq h hl hle, pure_bind]
  exact hk

theorem f_fill {A : Arr} {S : ShiftSem w} {first last : BitIter w} {v : Bool} (h : A.Has first) (hl : A.Has last) :
    Fits (fill A S first last v) (BitLib.fill S first last v) fun _ => True := by
  unfold Ptr.fill BitLib.fill
  have hw := h.pos_w
  have hll := hl.le_hi
  have hlo := h.lo_base
  refine f_bind (f_viable _ _) fun _ hv => f_bind (f_distance _ _) fun d hd => f_ite (fun _ => f_pure trivial) fun hne => ?_
  refine f_isWithin h hl hv (f_ite (fun _ => f_writeWord h (by omega)) fun hiw => ?_)
  have hlast : ∀ u : Unit, Fits (if last.pos ≠ 0 then do
        deref A last.base
        writeWord A S (fillWord v) (BitIter.aligned last.base) last.pos
      else pure ()) (if last.pos ≠ 0 then BitLib.writeWord S (fillWord v) (BitIter.aligned last.base) last.pos else pure ()) fun _ => True := by
    intro _
    refine f_ite (fun hp => ?_) fun _ => f_pure trivial
    have := hl.next_of_pos hp
    have h1 := Arr.mul_le (w := w) hl.lo_base
    have h2 := Arr.mul_le (w := w) hl.base_hi
    have hal : A.Has (BitIter.aligned last.base : BitIter w) :=
      ⟨hw, by unfold BitIter.aligned; simp only; omega, by unfold BitIter.aligned; simp only; omega⟩
    refine f_deref ⟨hl.lo_base, by omega⟩ (f_writeWord hal ?_)
    rw [Arr.addr_eq] at hll ⊢
    unfold BitIter.aligned
    simp only
    omega
  refine f_ite (fun hp => ?_) fun _ => f_bind' (f_up _) hlast
  have hnx := h.next_of_pos hp
  have hv' := h.valid
  unfold BitIter.Valid at hv'
  refine f_bind' (f_writeWord h ?_) fun _ => f_form ⟨by omega, hnx⟩ (f_bind' (f_up _) hlast)
  have := Arr.mul_le (w := w) hnx
  rw [mul_add_one] at this
  rw [Arr.addr_eq]
  omega

/-! ### find -/

theorem f_find {A : Arr} {S : ShiftSem w} {first last : BitIter w} {v : Bool} (h : A.Has first) (hl : A.Has last) :
    Fits (find A S first last v) (BitLib.find S first last v) fun _ => True := by
  unfold Ptr.find BitLib.find
  have hw := h.pos_w
  have hll := hl.le_hi
  have hlo := h.lo_base
  have hfl := h.lo_le
  have hv' := h.valid
  unfold BitIter.Valid at hv'
  refine f_ite (fun hp => ?_) fun _ => f_up _
  have hnx := h.next_of_pos hp
  have hmul := Arr.mul_le (w := w) hnx
  rw [mul_add_one] at hmul
  have hfa := Arr.addr_eq first
  refine f_bind' (f_up _) fun _ => f_bind' (f_up _) fun sh => f_form ⟨?_, ?_⟩ (f_ite (fun _ => ?_) fun _ => ?_)
  · split <;> omega
  · split <;> omega
  · refine f_bind (f_distance _ _) fun d hd => f_add0 (h.add ?_ ?_) trivial <;> omega
  · refine f_ite (fun hn => f_add0 (h.add ?_ ?_) trivial) fun _ => ?_
    · omega
    · omega
    · exact f_add (h.add (by omega) (by omega)) (f_up _)

/-! ### count -/

theorem f_count {A : Arr} {S : ShiftSem w} {first last : BitIter w} {v : Bool} (h : A.Has first) (hl : A.Has last)
    (hg : ¬ (first.pos ≠ 0 ∧ first.base + 1 = last.base ∧ last.base = A.hi)) :
    Fits (count A S first last v) (BitLib.count S first last v) fun _ => True := by
  unfold Ptr.count BitLib.count
  have hw := h.pos_w
  have hlo := h.lo_base
  have hhi := hl.base_hi
  refine f_bind (f_viable _ _) fun _ hv => ?_
  have hm := Arr.base_mono hl.valid hv
  simp only [pure_bind]
  have hlast : ∀ (r : Nat) (it : Int), it ≥ A.lo → it < A.hi → Fits (do
      let n ← up (wordDist it last.base)
      deref A it
      let r1 ← up (popcntWords n it)
      if last.pos ≠ 0 then do
        let x ← up (load last.base)
        let x ← up (lift (S.shl x (w - last.pos)))
        pure (if v = true then ((r + r1 + popcnt x : Nat) : Int) else last.diff first - ((r + r1 + popcnt x : Nat) : Int))
      else pure (if v = true then ((r + r1 : Nat) : Int) else last.diff first - ((r + r1 : Nat) : Int))) (do
      let n ← wordDist it last.base
      let r1 ← popcntWords n it
      if last.pos ≠ 0 then do
        let x ← load last.base
        let x ← lift (S.shl x (w - last.pos))
        pure (if v = true then ((r + r1 + popcnt x : Nat) : Int) else last.diff first - ((r + r1 + popcnt x : Nat) : Int))
      else pure (if v = true then ((r + r1 : Nat) : Int) else last.diff first - ((r + r1 : Nat) : Int))) fun _ => True := by
    intro r it h1 h2
    exact f_bind' (f_up _) fun n => f_deref ⟨h1, h2⟩ (f_bind' (f_up _) fun _ => f_ite (fun _ => f_bind' (f_up _) fun _ =>
      f_bind' (f_up _) fun _ => f_pure trivial) fun _ => f_pure trivial)
  refine f_ite (fun hb => f_ite (fun hp => ?_) fun hp => hlast _ _ hlo (by omega)) fun _ => ?_
  · exact f_bind' (f_up _) fun _ => f_bind' (f_up _) fun _ => f_form ⟨by omega, h.next_of_pos hp⟩ (hlast _ _ (by omega) (by omega))
  · exact f_bind' (f_up _) fun _ => f_bind' (f_up _) fun _ => f_pure trivial

theorem s_count {A : Arr} {S : ShiftSem w} {first last : BitIter w} {v : Bool} (h : A.Has first)
    (hg : first.pos ≠ 0 ∧ first.base + 1 = last.base ∧ last.base = A.hi) : Stuck (count A S first last v) := by
  unfold Ptr.count
  have hlo := h.lo_base
  simp only [pure_bind]
  refine s_bind' (f_up _) fun _ => ?_
  rw [if_pos (show first.base ≠ last.base by omega), if_pos hg.1]
  exact s_bind' (f_up _) fun _ => s_bind' (f_up _) fun _ => s_form (.inr (s_bind' (f_up _) fun n => s_deref (.inl (by omega))))

end Ptr
end BitLib
