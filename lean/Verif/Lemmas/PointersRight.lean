import Verif.Lemmas.PointersShift
/- The word iterators that `shift_right` and `reverse` form. -/
namespace BitLib
namespace Ptr
variable {w : Nat} {α β : Type}

theorem neg_pos {m : BitIter w} (hv : m.Valid) {L n : Int} (h : m.addr = L * w - n) :
    m.pos = 0 ∧ n % w = 0 ∨ m.pos ≠ 0 ∧ n % w ≠ 0 ∧ (m.pos : Int) + n % w = w := by
  unfold BitIter.Valid at hv
  have hw : (w : Int) ≠ 0 := by omega
  have e : n = -(m.pos : Int) + (L - m.base) * w := by
    rw [Arr.addr_eq] at h
    rw [Int.sub_mul]
    omega
  by_cases hp : m.pos = 0
  · left
    refine ⟨hp, ?_⟩
    rw [e, hp]
    simp
  · right
    have e' : n = ((w : Int) - m.pos) + (L - m.base - 1) * w := by
      rw [Int.sub_mul _ 1, Int.one_mul]
      omega
    have : n % w = w - m.pos := by
      rw [e', Int.add_mul_emod_self_right, Int.emod_eq_of_lt (by omega) (by omega)]
    exact ⟨hp, by omega, by omega⟩

theorem f_shiftRightLoop {A : Arr} {S : ShiftSem w} {offset : Nat} {fb : Int} (hlo : A.lo ≤ fb) : ∀ (fuel : Nat) (lbp mbp : Int),
    fb ≤ mbp → mbp < lbp → lbp < A.hi →
    Fits (shiftRightLoop A S offset fb fuel lbp mbp) (BitLib.shiftRightLoop S offset fb fuel lbp mbp)
      fun r => r.2 = fb ∧ r.1 = fb + (lbp - mbp) := by
  intro fuel
  induction fuel with
  | zero => intro lbp mbp _ _ _; exact f_upP fun m r m' h => by cases h
  | succ fuel ih =>
    intro lbp mbp h1 h2 h3
    unfold Ptr.shiftRightLoop BitLib.shiftRightLoop
    refine f_ite (fun hc => ?_) fun hc => f_pure ⟨by simp only; omega, by simp only; omega⟩
    refine f_bind' (f_up _) fun _ => f_form ⟨by omega, by omega⟩ (f_bind' (f_up _) fun _ => f_bind' (f_up _) fun _ => f_bind' (f_up _) fun _ =>
      f_form ⟨by omega, by omega⟩ (f_form ⟨by omega, by omega⟩ (f_mono (ih _ _ (by omega) (by omega) (by omega)) fun r hr => ⟨hr.1, ?_⟩)))
    rw [hr.2]
    omega

theorem f_shiftRightWords {A : Arr} {S : ShiftSem w} {first middle last : BitIter w} {offset : Nat} {n : Int} (h : A.Has first) (hm : A.Has middle)
    (hl : A.Has last) (hp : last.pos = 0) (hn : 0 < n) (hml : middle.addr + n = last.addr) (hfm : first.addr + w ≤ middle.addr)
    (hg : A.lo < first.base ∨ middle.pos < first.pos) (hmp : middle.pos ≠ 0) :
    Fits (shiftRightWords A S first middle last offset) (BitLib.shiftRightWords S first middle last offset)
      fun r => A.Has r.1 ∧ A.Has r.2 ∧ first.addr ≤ r.2.addr ∧ r.2.addr + n = r.1.addr := by
  unfold Ptr.shiftRightWords BitLib.shiftRightWords
  have hw := h.pos_w
  have hlo := h.lo_base
  have hlo' := h.lo_le
  have hhi := hl.base_hi
  have hhi' := hl.le_hi
  have hla := Arr.addr_eq last
  have hma := Arr.addr_eq middle
  have hfa := Arr.addr_eq first
  have hmv := hm.valid
  have hfv := h.valid
  unfold BitIter.Valid at hmv hfv
  have hbm : middle.base < last.base := Arr.lt_of_mul (w := w) (by omega)
  have hbf : first.base + 1 ≤ middle.base := Arr.base_ge hmv (by rw [mul_add_one]; omega)
  simp only [pure_bind]
  refine f_form ⟨by omega, by omega⟩ (f_form ⟨by omega, by omega⟩ (f_bind (f_shiftRightLoop hlo _ _ _ (by omega) (by omega) (by omega)) ?_))
  rintro ⟨lbp, mbp⟩ ⟨e1, e2⟩
  simp only at e1 e2 ⊢
  have hnn : n = (last.base - middle.base) * w - middle.pos := by
    rw [Int.sub_mul]
    omega
  have key : ∀ mb lb : Int, lb = mb + (last.base - middle.base) → first.base ≤ mb → mb ≤ middle.base → first.addr ≤ mb * w + middle.pos →
      A.Has (⟨lb, last.pos⟩ : BitIter w) ∧ A.Has (⟨mb, middle.pos⟩ : BitIter w) ∧ first.addr ≤ (⟨mb, middle.pos⟩ : BitIter w).addr ∧
        (⟨mb, middle.pos⟩ : BitIter w).addr + n = (⟨lb, last.pos⟩ : BitIter w).addr := by
    intro mb lb hlb h1 h2 h3
    rw [Arr.addr_eq ⟨mb, middle.pos⟩, Arr.addr_eq ⟨lb, last.pos⟩]
    have := Arr.mul_le (w := w) h2
    have h2' := hm.le_hi
    refine ⟨?_, ⟨hmv, by simp only; omega, by simp only; omega⟩, h3, ?_⟩
    · rw [hp]
      exact aligned_has hw (by omega) (by omega)
    · simp only
      rw [hlb, Int.add_mul, hp]
      omega
  refine f_ite (fun hc => ?_) fun hc => ?_
  · refine f_bind' (f_up _) fun _ => f_form ⟨by omega, by omega⟩ (f_bind' (f_up _) fun _ => f_bind' (f_up _) fun _ => f_bind' (f_up _) fun _ =>
      f_form ⟨by omega, by omega⟩ (f_form ⟨by omega, by omega⟩ (f_form ⟨by omega, by omega⟩ (f_form ⟨by omega, by omega⟩ (f_pure ?_)))))
    have e3 : lbp - 1 + 1 = lbp := by omega
    have e4 : mbp - 1 + 1 = mbp := by omega
    rw [e3, e4]
    refine key _ _ (by omega) (by omega) (by omega) ?_
    rw [e1]
    omega
  · refine f_form ⟨by omega, by omega⟩ (f_form ⟨by omega, by omega⟩ (f_pure (key _ _ (by omega) (by omega) (by omega) ?_)))
    rw [e1, mul_add_one]
    omega

theorem s_shiftRightWords {A : Arr} {S : ShiftSem w} {first middle last : BitIter w} {offset : Nat} (h : A.Has first) (hl : A.Has last)
    (hbm : middle.base < last.base) (hbf : first.base + 1 ≤ middle.base) (hg : first.base = A.lo ∧ first.pos ≤ middle.pos) :
    Stuck (shiftRightWords A S first middle last offset) := by
  unfold Ptr.shiftRightWords
  have hlo := h.lo_base
  have hhi := hl.base_hi
  simp only [pure_bind]
  refine s_form (.inr (s_form (.inr (s_bind (f_shiftRightLoop hlo _ _ _ (by omega) (by omega) (by omega)) ?_))))
  rintro ⟨lbp, mbp⟩ ⟨e1, e2⟩
  simp only at e1 e2 ⊢
  rw [if_pos hg.2]
  exact s_bind' (f_up _) fun _ => s_form (.inr (s_bind' (f_up _) fun _ => s_bind' (f_up _) fun _ => s_bind' (f_up _) fun _ =>
    s_form (.inr (s_form (.inl (by omega))))))

theorem f_shiftRightTail {A : Arr} {S : ShiftSem w} {first middle last : BitIter w} {n : Int} (h : A.Has first) (hm : A.Has middle)
    (hl : A.Has last) (hml : middle.addr + n = last.addr) (hfm : first.addr ≤ middle.addr) (hn : 0 < n) (hfn : first.addr + n ≤ A.hi * w) :
    Fits (shiftRightTail A S first middle last n) (BitLib.shiftRightTail S first middle last n) fun _ => True := by
  unfold Ptr.shiftRightTail BitLib.shiftRightTail
  have hw := h.pos_w
  have hlo := h.lo_le
  have hmh := hm.le_hi
  have hlh := hl.le_hi
  have ha := h.add (n := n) (by omega) hfn
  refine f_ite (fun _ => f_bind (f_distance _ _) fun b hb => ?_) fun _ => f_add0 ha trivial
  have hs := hl.sub (n := b) (by omega) (by omega)
  refine f_bind' (f_getWord h (by omega)) fun _ => f_sub hs (f_bind' (f_writeWord hs ?_) fun _ => f_add0 ha trivial)
  rw [BitIter.sub_addr hw]
  omega

theorem f_shiftRightMain {A : Arr} {S : ShiftSem w} {first middle last : BitIter w} {n : Int} (h : A.Has first) (hm : A.Has middle)
    (hl : A.Has last) (hp : last.pos = 0) (hn : 0 < n) (hml : middle.addr + n = last.addr) (hfm : first.addr < middle.addr)
    (hg : ¬ RightAtStart A first last n) :
    Fits (shiftRightMain A S first middle last n) (BitLib.shiftRightMain S first middle last n) fun _ => True := by
  unfold Ptr.shiftRightMain BitLib.shiftRightMain
  have hw := h.pos_w
  have hlo := h.lo_base
  have hlo' := h.lo_le
  have hhi := hl.base_hi
  have hhi' := hl.le_hi
  have hla := Arr.addr_eq last
  have hma := Arr.addr_eq middle
  have hfa := Arr.addr_eq first
  have ha := h.add (n := n) (by omega) (by omega)
  refine f_ite (fun ho => ?_) fun ho => f_bind (f_distance _ _) fun dm hdm => f_ite (fun hd => ?_) fun hd =>
    f_shiftRightTail h hm hl hml (by omega) hn (by omega)
  · rw [tdiv_words hw (ho.trans hp.symm) hml.symm]
    have hbf := Arr.base_lt (it := first) (b := middle.base) (by omega)
    have hbm : middle.base < last.base := Arr.lt_of_mul (w := w) (by omega)
    exact f_bind' (f_wordShiftRight hlo hhi (by omega) (by omega)) fun _ => f_add0 ha trivial
  · have hnp := neg_pos hm.valid (L := last.base) (n := n) (by omega)
    refine f_bind (f_shiftRightWords h hm hl hp hn hml (by omega) ?_ ho) ?_
    · by_contra hcon
      exact hg ⟨hn, by omega, by omega, by omega, by omega⟩
    · rintro ⟨l, m⟩ ⟨h1, h2, h3, h4⟩
      exact f_shiftRightTail h h2 h1 h4 h3 hn (by omega)

theorem s_shiftRightMain {A : Arr} {S : ShiftSem w} {first middle last : BitIter w} {n : Int} (h : A.Has first) (hm : A.Has middle)
    (hl : A.Has last) (hp : last.pos = 0) (hml : middle.addr + n = last.addr)
    (hg : RightAtStart A first last n) : Stuck (shiftRightMain A S first middle last n) := by
  obtain ⟨g1, g2, g3, g4, g5⟩ := hg
  unfold Ptr.shiftRightMain
  have hla := Arr.addr_eq last
  have hma := Arr.addr_eq middle
  have hfa := Arr.addr_eq first
  have hmv := hm.valid
  unfold BitIter.Valid at hmv
  have hnp := neg_pos hm.valid (L := last.base) (n := n) (by omega)
  dsimp only
  rw [if_neg (by omega)]
  refine s_bind (f_distance _ _) fun dm hdm => ?_
  rw [if_pos (by omega)]
  refine s_left (s_shiftRightWords h hl (Arr.lt_of_mul (w := w) (by omega)) (Arr.base_ge hmv ?_) ⟨g2, by omega⟩)
  rw [mul_add_one]
  omega

/-- `shift_right`: the iterator `last - n` is formed in any case. -/
theorem f_shiftRight {A : Arr} {S : ShiftSem w} {first last : BitIter w} {n : Int} (h : A.Has first) (hl : A.Has last)
    (hg : A.lo ≤ (last.sub n).base ∧ (last.sub n).base ≤ A.hi) (hr : ¬ RightAtStart A first last n) :
    Fits (shiftRight A S first last n) (BitLib.shiftRight S first last n) fun _ => True := by
  unfold Ptr.shiftRight BitLib.shiftRight
  have hw := h.pos_w
  have hlo := h.lo_base
  have hlo' := h.lo_le
  have hhi := hl.base_hi
  have hhi' := hl.le_hi
  have hla := Arr.addr_eq last
  have hfa := Arr.addr_eq first
  have hlv := hl.valid
  unfold BitIter.Valid at hlv
  refine f_bind (f_distance _ _) fun d hd => f_subB hg ?_
  refine f_ite (fun hn => f_pure trivial) fun hn => f_ite (fun hnd => f_pure trivial) fun hnd => ?_
  have hbm := Arr.base_mono hlv (show first.addr ≤ last.addr by omega)
  have hm := hl.sub (n := n) (by omega) (by omega)
  have hma := BitIter.sub_addr hw last n
  have ha := h.add (n := n) (by omega) (by omega)
  refine f_form ⟨?_, ?_⟩ (f_ite (fun hc => ?_) fun hc => f_ite (fun hs => ?_) fun hs => ?_)
  · split <;> omega
  · split
    next h0 =>
      have := h.next (n := d) (by omega) (by omega)
      omega
    next => omega
  · exact f_bind' (f_up _) fun _ => f_bind' (f_up _) fun _ => f_bind' (f_up _) fun _ => f_bind' (f_up _) fun _ => f_add0 ha trivial
  · refine f_bind (f_distance _ _) fun dm hdm => ?_
    have hb1 : ((min last.pos dm.toNat : Nat) : Int) ≤ dm := by omega
    have hs1 := hm.sub (n := ((min last.pos dm.toNat : Nat) : Int)) (by omega) (by omega)
    have hs2 := hl.sub (n := ((min last.pos dm.toNat : Nat) : Int)) (by omega) (by omega)
    have hs1a := BitIter.sub_addr hw (last.sub n) ((min last.pos dm.toNat : Nat) : Int)
    have hs2a := BitIter.sub_addr hw last ((min last.pos dm.toNat : Nat) : Int)
    refine f_sub hs1 (f_bind' (f_getWord hs1 (by omega)) fun _ => f_sub hs2 (f_bind' (f_writeWord hs2 (by omega)) fun _ =>
      f_sub hs1 (f_sub hs2 (f_ite (fun hbe => f_add0 ha trivial) fun hbe => ?_))))
    have hne : (((last.sub n).sub ((min last.pos dm.toNat : Nat) : Int)).addr ≠ first.addr) := fun e =>
      hbe ((BitIter.beq_iff hs1.valid h.valid).2 e)
    have hlast : last.sub ((min last.pos dm.toNat : Nat) : Int) = ⟨last.base, 0⟩ := by
      refine BitIter.addr_inj hs2.valid hw ?_
      rw [hs2a, Arr.addr_eq ⟨last.base, 0⟩]
      simp only
      omega
    rw [hlast] at hs2a hs2 ⊢
    rw [Arr.addr_eq ⟨last.base, 0⟩] at hs2a
    simp only at hs2a
    refine f_shiftRightMain h hs1 hs2 rfl (by omega) ?_ (by omega) fun hra => hr hra
    rw [Arr.addr_eq ⟨last.base, 0⟩]
    simp only
    omega
  · exact f_shiftRightMain h hm hl (by omega) (by omega) (by omega) (by omega) hr

theorem s_shiftRight {A : Arr} {S : ShiftSem w} {first last : BitIter w} {n : Int} (h : A.Has first) (hl : A.Has last)
    (hg : ¬ (A.lo ≤ (last.sub n).base ∧ (last.sub n).base ≤ A.hi) ∨ RightAtStart A first last n) : Stuck (shiftRight A S first last n) := by
  unfold Ptr.shiftRight
  by_cases hgo : A.lo ≤ (last.sub n).base ∧ (last.sub n).base ≤ A.hi
  swap
  · exact s_bind' (f_up _) fun _ => s_sub (.inl hgo)
  obtain hg | hr := hg
  · exact absurd hgo hg
  have hw := h.pos_w
  have hlo := h.lo_base
  have hlo' := h.lo_le
  have hhi := hl.base_hi
  have hhi' := hl.le_hi
  have hla := Arr.addr_eq last
  have hfa := Arr.addr_eq first
  have hlv := hl.valid
  unfold BitIter.Valid at hlv
  have hrr := hr
  obtain ⟨g1, g2, g3, g4, g5⟩ := hrr
  refine s_bind (f_distance _ _) fun d hd => s_sub (.inr ?_)
  have hm := hl.sub (n := n) (by omega) (by omega)
  have hma := BitIter.sub_addr hw last n
  rw [if_neg (by omega), if_neg (by omega)]
  have hb : first.base + 1 < last.base := Arr.lt_of_mul (w := w) (by rw [mul_add_one]; omega)
  refine s_form (.inr ?_)
  rw [if_neg (by split <;> omega)]
  by_cases hs : last.pos ≠ 0
  · rw [if_pos hs]
    refine s_bind (f_distance _ _) fun dm hdm => ?_
    have hs1 := hm.sub (n := ((min last.pos dm.toNat : Nat) : Int)) (by omega) (by omega)
    have hs2 := hl.sub (n := ((min last.pos dm.toNat : Nat) : Int)) (by omega) (by omega)
    have hs1a := BitIter.sub_addr hw (last.sub n) ((min last.pos dm.toNat : Nat) : Int)
    have hs2a := BitIter.sub_addr hw last ((min last.pos dm.toNat : Nat) : Int)
    have hlast : last.sub ((min last.pos dm.toNat : Nat) : Int) = ⟨last.base, 0⟩ := by
      refine BitIter.addr_inj hs2.valid hw ?_
      rw [hs2a, Arr.addr_eq ⟨last.base, 0⟩]
      simp only
      omega
    refine s_sub (.inr (s_bind' (f_getWord hs1 (by omega)) fun _ => s_sub (.inr (s_bind' (f_writeWord hs2 (by omega)) fun _ =>
      s_sub (.inr (s_sub (.inr ?_)))))))
    rw [if_neg (fun hb => by have := (BitIter.beq_iff hs1.valid h.valid).1 hb; omega)]
    rw [hlast] at hs2a hs2 ⊢
    rw [Arr.addr_eq ⟨last.base, 0⟩] at hs2a
    simp only at hs2a
    refine s_shiftRightMain h hs1 hs2 rfl ?_ hr
    rw [Arr.addr_eq ⟨last.base, 0⟩]
    simp only
    omega
  · rw [if_neg hs]
    exact s_shiftRightMain h hm hl (by omega) (by omega) hr

/-! ### reverse -/

theorem aligned_add {w : Nat} (b : Int) {n : Nat} (hn : n < w) : (BitIter.aligned b : BitIter w).add (n : Int) = ⟨b, n⟩ := by
  refine BitIter.addr_inj (BitIter.add_valid (by omega) _ _) hn ?_
  rw [BitIter.add_addr (by omega), Arr.addr_eq, Arr.addr_eq]
  unfold BitIter.aligned
  simp only
  omega

theorem aligned_sub {w : Nat} (b : Int) {n : Nat} (h0 : 0 < n) (hn : n < w) : (BitIter.aligned b : BitIter w).sub (n : Int) = ⟨b - 1, w - n⟩ := by
  refine BitIter.addr_inj ?_ (show w - n < w by omega) ?_
  · rw [BitIter.sub_eq_add]
    exact BitIter.add_valid (by omega) _ _
  · rw [BitIter.sub_addr (by omega), Arr.addr_eq, Arr.addr_eq]
    unfold BitIter.aligned
    simp only
    rw [mul_sub_one]
    omega

theorem rightAtStart_iff {A : Arr} {fb wend : Int} {n : Nat} (h0 : 0 < n) (hn : n < w) :
    RightAtStart A (BitIter.aligned fb : BitIter w) (BitIter.aligned wend) n ↔ fb = A.lo ∧ fb + 1 < wend := by
  unfold RightAtStart BitIter.addr BitIter.aligned
  have e : (n : Int) % w = n := Int.emod_eq_of_lt (by omega) (by omega)
  simp only
  rw [e]
  constructor
  · rintro ⟨_, h2, h3, _⟩
    exact ⟨h2, Arr.lt_of_mul (w := w) (by rw [mul_add_one]; omega)⟩
  · rintro ⟨h2, h3⟩
    have := Arr.mul_le (w := w) (show fb + 1 + 1 ≤ wend by omega)
    rw [mul_add_one, mul_add_one] at this
    exact ⟨by omega, h2, by omega, by omega, by omega⟩

theorem f_reverseShift {A : Arr} {S : ShiftSem w} {fb lb wend : Int} {fp gap : Nat} (h1 : A.lo ≤ fb) (h2 : fb < lb) (h3 : fb < wend) (h3' : wend ≤ A.hi)
    (h4 : 0 < gap → lb + 1 ≤ A.hi) (hfp : fp < w) (hgp : gap < w) (hg : ¬ (fb = A.lo ∧ gap < fp ∧ fb + 1 < wend)) :
    Fits (reverseShift A S fb lb wend fp gap) (BitLib.reverseShift S fb lb wend fp gap) fun _ => True := by
  unfold Ptr.reverseShift BitLib.reverseShift
  have hw : 0 < w := by omega
  refine f_ite (fun hc => ?_) fun hc => f_ite (fun hc' => ?_) fun hc' => f_pure trivial
  · have := h4 (by omega)
    refine f_form ⟨by omega, by omega⟩ (f_bind' (f_mono (f_shiftLeft (aligned_has hw (by omega) (by omega)) (aligned_has hw (by omega) (by omega)) ?_)
      fun _ _ => trivial) fun _ => f_pure trivial)
    rw [aligned_add _ (by omega)]
    simp only
    omega
  · refine f_form ⟨by omega, by omega⟩ (f_bind' (f_shiftRight (aligned_has hw (by omega) (by omega)) (aligned_has hw (by omega) (by omega)) ?_ ?_)
      fun _ => f_pure trivial)
    · rw [aligned_sub _ (by omega) (by omega)]
      simp only
      omega
    · rw [rightAtStart_iff (by omega) (by omega)]
      omega

theorem s_reverseShift {A : Arr} {S : ShiftSem w} {fb lb wend : Int} {fp gap : Nat} (h1 : A.lo ≤ fb) (h3' : wend ≤ A.hi)
    (hfp : fp < w) (hg : fb = A.lo ∧ gap < fp ∧ fb + 1 < wend) : Stuck (reverseShift A S fb lb wend fp gap) := by
  unfold Ptr.reverseShift
  have hw : 0 < w := by omega
  rw [if_neg (by omega), if_pos (by omega)]
  refine s_form (.inr (s_left (s_shiftRight (aligned_has hw (by omega) (by omega)) (aligned_has hw (by omega) (by omega)) (.inr ?_))))
  rw [rightAtStart_iff (by omega) (by omega)]
  omega

theorem f_reverse {A : Arr} {S : ShiftSem w} {first last : BitIter w} (h : A.Has first) (hl : A.Has last) (hg : ¬ ReverseAtStart A first last) :
    Fits (reverse A S first last) (BitLib.reverse S first last) fun _ => True := by
  unfold Ptr.reverse BitLib.reverse
  have hw := h.pos_w
  have hlo := h.lo_base
  have hhi := hl.base_hi
  have hla := Arr.addr_eq last
  have hfv := h.valid
  have hlv := hl.valid
  unfold BitIter.Valid at hfv hlv
  have hnx := fun hp => hl.next_of_pos hp
  refine f_bind (f_viable _ _) fun _ hv => ?_
  have hbm := Arr.base_mono hlv hv
  refine f_ite (fun hc => ?_) fun hc => f_ite (fun hb => ?_) fun hb => ?_
  · exact f_bind' (f_up _) fun _ => f_bind' (f_mono (f_stdTransform ⟨by omega, by omega⟩) fun _ _ => trivial) fun _ => f_pure trivial
  · have hwend : first.base < last.base + (if last.pos = 0 then 0 else 1) ∧ last.base + (if last.pos = 0 then 0 else 1) ≤ A.hi := by
      split <;> omega
    refine f_bind' (f_up _) fun _ => f_form (by split <;> omega) (f_bind' (f_up _) fun _ => f_form ⟨by omega, by omega⟩ (f_bind' (f_up _) fun _ =>
      f_bind' (f_mono (f_stdTransform ⟨by omega, by omega⟩) fun _ _ => trivial) fun _ =>
      f_bind' (f_reverseShift hlo (by omega) hwend.1 hwend.2 ?_ hfv (by split <;> omega) ?_) fun _ => f_bind' (f_up _) fun _ => f_up _))
    · split <;> omega
    · rintro ⟨c1, c2, c3⟩
      refine hg ⟨c1, ?_, ?_⟩
      · by_cases hp : last.pos = 0
        · rw [if_pos hp] at c3
          have := Arr.mul_le (w := w) (show A.lo + 1 + 1 ≤ last.base by omega)
          rw [mul_add_one (A.lo + 1)] at this
          omega
        · have := Arr.mul_le (w := w) (show A.lo + 1 ≤ last.base by omega)
          omega
      · split at c2 <;> rename_i hp
        · rw [if_pos hp]
          omega
        · rw [if_neg hp]
          omega
  · exact f_bind' (f_up _) fun _ => f_bind' (f_up _) fun _ => f_bind' (f_up _) fun _ => f_up _

theorem s_reverse {A : Arr} {S : ShiftSem w} {first last : BitIter w} (h : A.Has first) (hl : A.Has last) (hg : ReverseAtStart A first last) :
    Stuck (reverse A S first last) := by
  obtain ⟨g1, g2, g3⟩ := hg
  unfold Ptr.reverse
  have hw := h.pos_w
  have hlo := h.lo_base
  have hhi := hl.base_hi
  have hla := Arr.addr_eq last
  have hfv := h.valid
  have hlv := hl.valid
  unfold BitIter.Valid at hfv hlv
  have hnx := fun hp => hl.next_of_pos hp
  have hb : A.lo + 1 ≤ last.base := Arr.base_ge hlv (by omega)
  have hb0 : last.pos = 0 → A.lo + 1 < last.base := fun hp => Arr.lt_of_mul (w := w) (by omega)
  refine s_bind (f_viable _ _) fun _ hv => ?_
  have hwend : first.base + 1 < last.base + (if last.pos = 0 then 0 else 1) ∧ last.base + (if last.pos = 0 then 0 else 1) ≤ A.hi := by
    split <;> omega
  dsimp only
  rw [if_neg, if_pos (by omega)]
  · refine s_bind' (f_up _) fun _ => s_form (.inr (s_bind' (f_up _) fun _ => s_form (.inr (s_bind' (f_up _) fun _ =>
      s_bind (f_stdTransform ⟨by omega, by omega⟩) fun _ _ => s_left (s_reverseShift hlo hwend.2 hfv ⟨g1, ?_, hwend.1⟩)))))
    split at g3 <;> rename_i hp
    · rw [if_pos hp]
      omega
    · rw [if_neg hp]
      omega
  · rintro ⟨c1, c2⟩
    rw [if_pos c2] at g3
    omega

end Ptr
end BitLib
