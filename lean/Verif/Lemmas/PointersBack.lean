import Verif.Lemmas.PointersCopy
/- The word iterators that `copy_backward` forms. -/
namespace BitLib
namespace Ptr
variable {w : Nat} {α β : Type}

theorem f_copyBackwardHead {A : Arr} {S : ShiftSem w} {last dLast : BitIter w} {total : Nat} (h : A.Has last)
    (h1 : A.lo * w ≤ last.addr - total) :
    Fits (copyBackwardHead A S last dLast total) (BitLib.copyBackwardHead S last dLast total)
      fun r => A.Has r.2 ∧ r.2.addr - r.1 = last.addr - total ∧ (0 < r.1 → dLast.base * w - r.1 = dLast.addr - total) ∧
        r.1 = total - min total dLast.pos := by
  unfold Ptr.copyBackwardHead BitLib.copyBackwardHead
  have hw := h.pos_w
  have hll := h.le_hi
  refine f_ite (fun hp => ?_) fun hp => ?_
  · have hs := h.sub (n := ((min total dLast.pos : Nat) : Int)) (by omega) (by omega)
    have ha := h.add (n := -((min total dLast.pos : Nat) : Int)) (by omega) (by omega)
    refine f_sub hs (f_bind' (f_getWord hs ?_) fun _ => f_bind' (f_up _) fun _ => f_bind' (f_up _) fun _ => f_add ha (f_pure ⟨ha, ?_, ?_, rfl⟩))
    · rw [BitIter.sub_addr hw]
      omega
    · rw [BitIter.add_addr hw]
      simp only
      omega
    · rw [Arr.addr_eq dLast]
      simp only
      omega
  · refine f_pure ⟨h, rfl, fun _ => ?_, ?_⟩
    · rw [Arr.addr_eq dLast]
      simp only
      omega
    · simp only
      omega

theorem f_copyBackwardTail {A : Arr} {S : ShiftSem w} {rem : Nat} {last : BitIter w} {it : Int} (h : A.Has last) (h1 : A.lo * w ≤ last.addr - rem) :
    Fits (copyBackwardTail A S rem last it) (BitLib.copyBackwardTail S rem last it) fun _ => True := by
  unfold Ptr.copyBackwardTail BitLib.copyBackwardTail
  have hll := h.le_hi
  have hs := h.sub (n := (rem : Int)) h1 (by omega)
  refine f_ite (fun _ => f_sub hs (f_bind' (f_getWord hs ?_) fun _ => f_bind' (f_up _) fun _ => f_up _)) fun _ => f_pure trivial
  rw [BitIter.sub_addr h.pos_w]
  omega

theorem f_copyBackwardLoop {A B : Arr} {S : ShiftSem w} : ∀ (fuel rem : Nat) (last : BitIter w) (it : Int), A.Has last →
    A.lo * w ≤ last.addr - rem → it ≤ B.hi → B.lo * w < it * w - rem →
    Fits (copyBackwardLoop A B S fuel rem last it) (BitLib.copyBackwardLoop S fuel rem last it) fun _ => True := by
  intro fuel
  induction fuel with
  | zero => intro rem last it _ _ _ _; exact f_up _
  | succ fuel ih =>
    intro rem last it h h1 h2 h3
    have hw := h.pos_w
    have := h.le_hi
    have hit : B.lo < it := Arr.lt_of_mul (w := w) (by omega)
    unfold Ptr.copyBackwardLoop BitLib.copyBackwardLoop
    refine f_ite (fun hr => ?_) fun _ => f_form ⟨by omega, by omega⟩ (f_copyBackwardTail h h1)
    have hs := h.sub (n := (w : Int)) (by omega) (by omega)
    have ha := h.add (n := -(w : Int)) (by omega) (by omega)
    refine f_form ⟨by omega, by omega⟩ (f_sub hs (f_bind' (f_getWord hs ?_) fun _ => f_bind' (f_up _) fun _ =>
      f_add ha (ih _ _ _ ha ?_ (by omega) ?_)))
    · rw [BitIter.sub_addr hw]
      omega
    · rw [BitIter.add_addr hw]
      omega
    · rw [mul_sub_one]
      omega

theorem s_copyBackwardLoop {A B : Arr} {S : ShiftSem w} : ∀ (fuel rem : Nat) (last : BitIter w) (it : Int), A.Has last →
    A.lo * w ≤ last.addr - rem → it ≤ B.hi → B.lo * w = it * w - rem → Stuck (copyBackwardLoop A B S fuel rem last it) := by
  intro fuel
  induction fuel with
  | zero =>
    intro rem last it _ _ _ _ m r e
    cases e
  | succ fuel ih =>
    intro rem last it h h1 h2 h3
    have hw := h.pos_w
    have := h.le_hi
    unfold Ptr.copyBackwardLoop
    by_cases hr : rem ≥ w
    · rw [if_pos hr]
      have hs := h.sub (n := (w : Int)) (by omega) (by omega)
      have ha := h.add (n := -(w : Int)) (by omega) (by omega)
      refine s_form (.inr (s_sub (.inr (s_bind' (f_getWord hs ?_) fun _ => s_bind' (f_up _) fun _ => s_add (.inr
        (ih _ _ _ ha ?_ (by omega) ?_))))))
      · rw [BitIter.sub_addr hw]
        omega
      · rw [BitIter.add_addr hw]
        omega
      · rw [mul_sub_one]
        omega
    · rw [if_neg hr]
      refine s_form (.inl fun hc => ?_)
      have := Arr.mul_le (w := w) hc.1
      rw [mul_sub_one] at this
      omega

theorem shift_pos {a b : BitIter w} (ha : a.Valid) (hb : b.Valid) {k : Int} (h : b.addr = a.addr + k * w) : b.pos = a.pos ∧ b.base = a.base + k := by
  have : b = ⟨a.base + k, a.pos⟩ := by
    refine BitIter.addr_inj hb ha ?_
    rw [h, Arr.addr_eq, Arr.addr_eq]
    simp only
    rw [Int.add_mul]
    omega
  rw [this]
  exact ⟨rfl, rfl⟩

theorem f_copyBackward {A B : Arr} {S : ShiftSem w} {first last dLast : BitIter w} (h : A.Has first) (hl : A.Has last) (hd : B.Has dLast)
    (h2 : B.lo * w ≤ dLast.addr - (last.addr - first.addr)) (hg : ¬ BackAtStart B first last dLast) :
    Fits (copyBackward A B S first last dLast) (BitLib.copyBackward S first last dLast) fun _ => True := by
  unfold Ptr.copyBackward BitLib.copyBackward
  have hw := h.pos_w
  refine f_bind (f_viable _ _) fun _ hv => f_ite (fun _ => f_pure trivial) fun hne => f_bind (f_distance _ _) fun d hd' => ?_
  have hdl := hd.le_hi
  have hfl := h.lo_le
  have hsub := hd.sub (n := (d.toNat : Int)) (by omega) (by omega)
  refine f_bind (f_copyBackwardHead hl (by omega)) ?_
  rintro ⟨rem, l⟩ ⟨hlh, hle, hie, hre⟩
  simp only at hlh hle hie hre ⊢
  refine f_ite (fun hr => ?_) fun _ => f_sub0 hsub trivial
  have hie := hie hr
  have hla := Arr.addr_eq l
  have hfa := Arr.addr_eq first
  have hfv := h.valid
  unfold BitIter.Valid at hfv
  have hdb := hd.base_hi
  have hfb := h.lo_base
  refine f_ite (fun hc => ?_) fun hc => ?_
  · have hll := hlh.base_hi
    have hlt : first.base + 1 ≤ l.base := by
      have : first.base * w < l.base * (w : Int) := by omega
      exact Arr.lt_of_mul this
    have hN : (((l.base - first.base - 1).toNat : Nat) : Int) = l.base - first.base - 1 := by omega
    have hNw : (w : Int) * ((l.base - first.base - 1).toNat : Nat) = l.base * w - first.base * w - w := by
      rw [hN, Int.mul_comm, Int.sub_mul, Int.sub_mul, Int.one_mul]
    have hNw' : ((w * (l.base - first.base - 1).toNat : Nat) : Int) = l.base * w - first.base * w - w := by push_cast; exact hNw
    have hs : subSize rem (w * (l.base - first.base - 1).toNat) = w - first.pos := by
      rw [subSize_le (by omega)]
      omega
    have hbd : B.lo + 1 ≤ dLast.base - (l.base - (first.base + 1)) := by
      refine Arr.lt_of_mul (w := w) ?_
      rw [Int.sub_mul, Int.sub_mul, mul_add_one]
      omega
    have hm := Arr.mul_le (w := w) hll
    have hls := hlh.sub (n := (w : Int) * ((l.base - first.base - 1).toNat : Nat)) (by omega) (by omega)
    refine f_form ⟨by omega, by omega⟩ (f_bind (f_stdCopyBackward ⟨by omega, by omega⟩) fun it hit => f_sub hls (f_form ⟨by omega, by omega⟩
      (f_bind' (f_copyBackwardTail hls ?_) fun _ => f_sub0 hsub trivial)))
    rw [BitIter.sub_addr hw, hs]
    omega
  · refine f_bind' (f_copyBackwardLoop _ _ _ _ hlh (by omega) hdb ?_) fun _ => f_sub0 hsub trivial
    by_contra hcon
    refine hg ⟨by omega, Arr.lt_of_mul (w := w) (by omega), ?_⟩
    have e : l.addr = first.addr + (dLast.base - B.lo) * w := by
      rw [Int.sub_mul]
      omega
    have hp := (shift_pos h.valid hlh.valid e).1
    by_cases hf0 : first.pos = 0
    · right
      have hlt : B.lo < dLast.base := Arr.lt_of_mul (w := w) (by omega)
      have : dLast.base * (w : Int) ≤ (B.lo + 1) * w := by rw [mul_add_one]; omega
      have := Arr.le_of_mul hw this
      omega
    · exact .inl hf0

theorem s_copyBackward {A B : Arr} {S : ShiftSem w} {first last dLast : BitIter w} (h : A.Has first) (hl : A.Has last) (hd : B.Has dLast)
    (hg : BackAtStart B first last dLast) : Stuck (copyBackward A B S first last dLast) := by
  obtain ⟨g1, g2, g3⟩ := hg
  unfold Ptr.copyBackward
  have hw := h.pos_w
  have hdl := hd.le_hi
  have hfl := h.lo_le
  have hdv := hd.valid
  unfold BitIter.Valid at hdv
  have hda := Arr.addr_eq dLast
  have hgm := Arr.mul_le (w := w) (show B.lo + 1 ≤ dLast.base by omega)
  rw [mul_add_one] at hgm
  refine s_bind (f_viable _ _) fun _ hv => ?_
  rw [if_neg (fun hb => by have := (BitIter.beq_iff h.valid hl.valid).1 hb; omega)]
  refine s_bind (f_distance _ _) fun d hd' => s_bind (f_copyBackwardHead hl (by omega)) ?_
  rintro ⟨rem, l⟩ ⟨hlh, hle, hie, hre⟩
  simp only at hlh hle hie hre ⊢
  have hr : rem > 0 := by
    omega
  have hie := hie hr
  have e : l.addr = first.addr + (dLast.base - B.lo) * w := by
    rw [Int.sub_mul]
    omega
  have hp := (shift_pos h.valid hlh.valid e).1
  rw [if_pos hr, if_neg]
  · exact s_left (s_copyBackwardLoop _ _ _ _ hlh (by omega) hd.base_hi (by omega))
  · rintro ⟨c1, c2⟩
    rcases g3 with g3 | g3
    · omega
    · rw [g3, mul_add_one] at hie
      omega

end Ptr
end BitLib
