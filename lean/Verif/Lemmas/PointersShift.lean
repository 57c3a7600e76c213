import Verif.Lemmas.PointersBack
/- The word iterators that `shift_left`, `shift_right` and `reverse` form. -/
namespace BitLib
namespace Ptr
variable {w : Nat} {α β : Type}

theorem aligned_has {A : Arr} {b : Int} (hw : 0 < w) (h1 : A.lo ≤ b) (h2 : b ≤ A.hi) : A.Has (⟨b, 0⟩ : BitIter w) := by
  have h1 := Arr.mul_le (w := w) h1
  have h2 := Arr.mul_le (w := w) h2
  exact ⟨hw, by simp only; omega, by simp only; omega⟩

theorem f_addB {A : Arr} {it : BitIter w} {n : Int} {k : BitIter w → P w α} {q : M w α} {Φ : α → Prop}
    (hc : A.lo ≤ (it.add n).base ∧ (it.add n).base ≤ A.hi) (h : Fits (k (it.add n)) q Φ) : Fits (add A it n >>= k) q Φ := by
  unfold add
  rw [form_ok hc]
  exact h
theorem f_addB0 {A : Arr} {it : BitIter w} {n : Int} {Φ : BitIter w → Prop}
    (hc : A.lo ≤ (it.add n).base ∧ (it.add n).base ≤ A.hi) (h : Φ (it.add n)) : Fits (add A it n) (pure (it.add n)) Φ := by
  unfold add
  rw [form_ok hc]
  exact f_pure h
theorem f_subB {A : Arr} {it : BitIter w} {n : Int} {k : BitIter w → P w α} {q : M w α} {Φ : α → Prop}
    (hc : A.lo ≤ (it.sub n).base ∧ (it.sub n).base ≤ A.hi) (h : Fits (k (it.sub n)) q Φ) : Fits (sub A it n >>= k) q Φ := by
  unfold sub
  rw [form_ok hc]
  exact h

/-! ### word shifts -/

theorem f_wordShiftLeft {A : Arr} {first last n : Int} (h0 : A.lo ≤ first) (h1 : last ≤ A.hi) (hn : 0 < n)
    (hl : n < last - first) :
    Fits (wordShiftLeft A first last n : P w Int) (BitLib.wordShiftLeft first last n) fun r => r = last - n := by
  unfold Ptr.wordShiftLeft BitLib.wordShiftLeft
  rw [if_neg (by omega), if_neg (by omega), if_neg (by omega), if_neg (by omega)]
  exact f_form ⟨by omega, by omega⟩ (f_mono (f_stdCopy ⟨by omega, by omega⟩) fun r hr => by omega)

theorem f_wordShiftRight {A : Arr} {first last n : Int} (h0 : A.lo ≤ first) (h1 : last ≤ A.hi) (hn : 0 < n)
    (hl : n < last - first) :
    Fits (wordShiftRight A first last n : P w Int) (BitLib.wordShiftRight first last n) fun _ => True := by
  unfold Ptr.wordShiftRight BitLib.wordShiftRight
  rw [if_neg (by omega), if_neg (by omega), if_neg (by omega), if_neg (by omega)]
  exact f_form ⟨by omega, by omega⟩ (f_bind' (f_mono (f_stdCopyBackward ⟨by omega, by omega⟩) fun _ _ => trivial) fun _ =>
    f_form ⟨by omega, by omega⟩ (f_pure trivial))

/-! ### shift_left -/

theorem f_shiftLeftAlign {A : Arr} {S : ShiftSem w} {first middle : BitIter w} {d n : Int} (h : A.Has first) (hm : A.Has middle)
    (_ : first.pos ≠ 0) (hd : (w : Int) < d - n) (he : middle.addr + (d - n) ≤ A.hi * w) (hn : 0 < n) (hfm : middle.addr = first.addr + n) :
    Fits (shiftLeftAlign A S first middle d n) (BitLib.shiftLeftAlign S first middle d n)
      fun r => A.Has r.1 ∧ A.Has r.2 ∧ r.1.pos = 0 ∧ r.2.addr = r.1.addr + n ∧ r.2.addr ≤ middle.addr + w := by
  unfold Ptr.shiftLeftAlign BitLib.shiftLeftAlign
  have hw := h.pos_w
  have hv := h.valid
  unfold BitIter.Valid at hv
  have hsh : min (d - n) ((w - first.pos : Nat) : Int) = ((w - first.pos : Nat) : Int) := by omega
  have := h.lo_le
  have ha := h.add (n := ((w - first.pos : Nat) : Int)) (by omega) (by omega)
  have hma := hm.add (n := ((w - first.pos : Nat) : Int)) (by omega) (by omega)
  have hpos : (first.add ((w - first.pos : Nat) : Int)).pos = 0 := by
    have e : (first.add ((w - first.pos : Nat) : Int)) = ⟨first.base + 1, 0⟩ := by
      refine BitIter.addr_inj (BitIter.add_valid hw _ _) hw ?_
      rw [BitIter.add_addr hw, Arr.addr_eq, Arr.addr_eq]
      simp only
      rw [mul_add_one]
      omega
    rw [e]
  have hpost : ∀ u : Unit, Fits (do
      let f ← add A first (min (d - n) ((w - first.pos : Nat) : Int))
      let g ← add A middle (min (d - n) ((w - first.pos : Nat) : Int))
      pure (f, g)) (pure (first.add (min (d - n) ((w - first.pos : Nat) : Int)), middle.add (min (d - n) ((w - first.pos : Nat) : Int))))
        fun r => A.Has r.1 ∧ A.Has r.2 ∧ r.1.pos = 0 ∧ r.2.addr = r.1.addr + n ∧ r.2.addr ≤ middle.addr + w := by
    intro _
    rw [hsh]
    refine f_add ha (f_add hma (f_pure ⟨ha, hma, hpos, ?_, ?_⟩))
    · rw [BitIter.add_addr hw, BitIter.add_addr hw]
      omega
    · rw [BitIter.add_addr hw]
      omega
  have hmb := hm.lo_base
  have hmn := hm.next (n := d - n) (by omega) (by omega)
  refine f_ite (fun _ => f_bind' (f_up _) fun _ => f_bind' (f_up _) fun _ => f_bind' (f_up _) hpost) fun _ => ?_
  exact f_bind' (f_up _) fun _ => f_bind' (f_up _) fun _ => f_bind' (f_up _) fun _ => f_form ⟨by omega, hmn⟩
    (f_bind' (f_up _) fun _ => f_bind' (f_up _) fun _ => f_bind' (f_up _) hpost)

theorem f_shiftLeftLoop {A : Arr} {S : ShiftSem w} {offset : Nat} {lastBase : Int} (hhi : lastBase ≤ A.hi) : ∀ (fuel : Nat) (fb mb : Int),
    A.lo ≤ fb → fb ≤ mb → mb < lastBase →
    Fits (shiftLeftLoop A S offset lastBase fuel fb mb) (BitLib.shiftLeftLoop S offset lastBase fuel fb mb)
      fun r => r.2 = lastBase - 1 ∧ r.1 = lastBase - 1 - (mb - fb) := by
  intro fuel
  induction fuel with
  | zero => intro fb mb _ _ _; exact f_upP fun m r m' h => by cases h
  | succ fuel ih =>
    intro fb mb h1 h2 h3
    unfold Ptr.shiftLeftLoop BitLib.shiftLeftLoop
    refine f_form ⟨by omega, by omega⟩ (f_ite (fun hc => ?_) fun hc => f_pure ⟨by simp only; omega, by simp only; omega⟩)
    refine f_bind' (f_up _) fun _ => f_bind' (f_up _) fun _ => f_bind' (f_up _) fun _ => f_bind' (f_up _) fun _ =>
      f_form ⟨by omega, by omega⟩ (f_mono (ih _ _ (by omega) (by omega) (by omega)) fun r hr => ⟨hr.1, ?_⟩)
    rw [hr.2]
    omega

theorem pos_eq {a : BitIter w} (h : a.Valid) : (a.pos : Int) = a.addr % w := by
  unfold BitIter.Valid at h
  rw [Arr.addr_eq, Int.add_comm, Int.add_mul_emod_self_right, Int.emod_eq_of_lt (by omega) (by omega)]

theorem base_diff {a b : BitIter w} (hp : a.pos = b.pos) {n : Int} (h : b.addr = a.addr + n) : n = (b.base - a.base) * w := by
  rw [Arr.addr_eq, Arr.addr_eq] at h
  rw [Int.sub_mul]
  omega

theorem tdiv_words {a b : BitIter w} (hw : 0 < w) (hp : a.pos = b.pos) {n : Int} (h : b.addr = a.addr + n) : Int.tdiv n w = b.base - a.base := by
  rw [base_diff hp h]
  exact Int.mul_tdiv_cancel _ (by omega)

theorem f_shiftLeftMain {A : Arr} {S : ShiftSem w} {first middle last : BitIter w} {n : Int} (h : A.Has first) (hm : A.Has middle)
    (hl : A.Has last) (hp : first.pos = 0) (hn : 0 < n) (hfm : middle.addr = first.addr + n) (hml : middle.addr ≤ last.addr) :
    Fits (shiftLeftMain A S first middle last n) (BitLib.shiftLeftMain S first middle last n)
      fun r => A.Has r ∧ r.addr + n = last.addr := by
  unfold Ptr.shiftLeftMain BitLib.shiftLeftMain
  have hw := h.pos_w
  have hlo := h.lo_base
  have hlo' := h.lo_le
  have hhi := hl.base_hi
  have hhi' := hl.le_hi
  have hla := Arr.addr_eq last
  have hma := Arr.addr_eq middle
  have hfa := Arr.addr_eq first
  have hmv := hm.valid
  unfold BitIter.Valid at hmv
  have hbm := Arr.base_mono hl.valid hml
  have hbf := Arr.base_mono hm.valid (a := first) (by omega)
  refine f_ite (fun hb => ?_) fun hb => ?_
  · have e : middle.base * (w : Int) = last.base * w := by rw [hb]
    refine f_ite (fun hbl => ?_) fun hbl => f_pure ⟨h, by omega⟩
    have ha := h.add (n := (last.pos : Int) - (middle.pos : Int)) (by omega) (by omega)
    refine f_bind' (f_up _) fun _ => f_bind' (f_up _) fun _ => f_bind' (f_up _) fun _ => f_add0 ha ⟨ha, ?_⟩
    rw [BitIter.add_addr hw]
    omega
  · refine f_bind' (f_mono (f_distance _ _) fun _ _ => trivial) fun _ => f_ite (fun ho => ?_) fun ho => ?_
    · rw [tdiv_words hw (hp.trans ho.symm) hfm]
      have hnm := base_diff (hp.trans ho.symm) hfm
      rw [Int.sub_mul] at hnm
      have hmf : first.base < middle.base := Arr.lt_of_mul (w := w) (by omega)
      refine f_bind (f_wordShiftLeft hlo hhi (by omega) (by omega)) fun fb hfb => ?_
      have hf : A.Has (⟨fb, 0⟩ : BitIter w) := aligned_has hw (by omega) (by omega)
      have hfba : (⟨fb, 0⟩ : BitIter w).addr + n = last.base * w := by
        rw [Arr.addr_eq]
        simp only
        rw [hfb, Int.sub_mul, Int.sub_mul]
        omega
      refine f_ite (fun hlp => ?_) fun hlp => f_pure ⟨hf, by omega⟩
      have ha := hf.add (n := (last.pos : Int)) (by have := hf.lo_le; omega) (by omega)
      refine f_bind' (f_up _) fun _ => f_bind' (f_writeWord hf (by omega)) fun _ => f_add0 ha ⟨ha, ?_⟩
      rw [BitIter.add_addr hw]
      omega
    · refine f_bind (f_shiftLeftLoop hhi _ _ _ hlo hbf (by omega)) ?_
      rintro ⟨fb, mb⟩ ⟨hmb, hfb⟩
      simp only at hmb hfb ⊢
      simp only [pure_bind]
      refine f_form ⟨by omega, by omega⟩ ?_
      have e : (⟨mb, middle.pos⟩ : BitIter w).add ((w - middle.pos : Nat) : Int) = ⟨last.base, 0⟩ := by
        refine BitIter.addr_inj (BitIter.add_valid hw _ _) hw ?_
        rw [BitIter.add_addr hw, Arr.addr_eq, Arr.addr_eq]
        simp only
        rw [hmb, mul_sub_one]
        omega
      have hlA : A.Has (⟨last.base, 0⟩ : BitIter w) := aligned_has hw hl.lo_base hhi
      have hfba : (⟨fb, 0⟩ : BitIter w).addr + n = last.base * w - w + middle.pos := by
        rw [Arr.addr_eq]
        simp only
        rw [hfb, Int.sub_mul, mul_sub_one, Int.sub_mul]
        omega
      have hf : A.Has (⟨fb, 0⟩ : BitIter w) := aligned_has hw (by omega) (by omega)
      have hf' : A.Has ((⟨fb, 0⟩ : BitIter w).add ((w - middle.pos : Nat) : Int)) := by
        refine hf.add (by have := hf.lo_le; omega) ?_
        have := Arr.mul_le (w := w) hhi
        omega
      have hfa' : ((⟨fb, 0⟩ : BitIter w).add ((w - middle.pos : Nat) : Int)).addr + n = last.base * w := by
        rw [BitIter.add_addr hw]
        omega
      refine f_ite (fun hc => ?_) fun hc => absurd (show mb + 1 = last.base by omega) hc
      refine f_bind' (f_up _) fun _ => f_bind' (f_up _) fun _ => f_bind' (f_up _) fun _ => f_add hf' ?_
      rw [e]
      refine f_addB ?_ ?_
      · rw [e]
        exact ⟨hl.lo_base, hhi⟩
      rw [e]
      refine f_ite (fun hlp => ?_) fun hlp => f_pure ⟨hf', by omega⟩
      have hsz : toSize ((last.pos : Int) - ((0 : Nat) : Int)) = last.pos := by
        rw [toSize_nonneg (by omega)]
        omega
      simp only
      rw [hsz]
      have hla' : (⟨last.base, 0⟩ : BitIter w).addr = last.base * w := by
        rw [Arr.addr_eq]
        simp only
        omega
      have ha := hf'.add (n := (last.pos : Int) - ((0 : Nat) : Int)) (by have := hf'.lo_le; omega) (by omega)
      refine f_bind' (f_getWord hlA (by omega)) fun _ => f_bind' (f_writeWord hf' (by omega)) fun _ => f_add0 ha ⟨ha, ?_⟩
      rw [BitIter.add_addr hw]
      omega

/-- `shift_left`: the iterator `first + n` is formed in any case. -/
theorem f_shiftLeft {A : Arr} {S : ShiftSem w} {first last : BitIter w} {n : Int} (h : A.Has first) (hl : A.Has last)
    (hg : A.lo ≤ (first.add n).base ∧ (first.add n).base ≤ A.hi) :
    Fits (shiftLeft A S first last n) (BitLib.shiftLeft S first last n)
      fun r => 0 < n → n ≤ last.addr - first.addr → A.Has r ∧ r.addr + n = last.addr := by
  unfold Ptr.shiftLeft BitLib.shiftLeft
  have hw := h.pos_w
  have hlo := h.lo_base
  have hlo' := h.lo_le
  have hhi := hl.base_hi
  have hhi' := hl.le_hi
  have hla := Arr.addr_eq last
  have hfa := Arr.addr_eq first
  refine f_bind (f_viable _ _) fun _ hv => f_bind (f_distance _ _) fun d hd => f_addB hg ?_
  have hbm := Arr.base_mono hl.valid hv
  refine f_ite (fun hn => f_pure fun hn' => absurd hn' (by omega)) fun hn => f_ite (fun hnd => f_pure fun _ hle => ⟨h, by omega⟩) fun hnd => ?_
  have hm := h.add (n := n) (by omega) (by omega)
  have hmaddr := BitIter.add_addr hw first n
  have had := h.add (n := d) (by omega) (by omega)
  have hads := had.sub (n := n) (by rw [BitIter.add_addr hw]; omega) (by rw [BitIter.add_addr hw]; omega)
  have hadsa : ((first.add d).sub n).addr + n = last.addr := by rw [BitIter.sub_addr hw, BitIter.add_addr hw]; omega
  refine f_form ⟨?_, ?_⟩ (f_ite (fun hc => ?_) fun hc => f_ite (fun hs => ?_) fun hs => ?_)
  · split <;> omega
  · split
    next h0 =>
      have := h.next (n := d) (by omega) (by omega)
      omega
    next => omega
  · exact f_bind' (f_up _) fun _ => f_bind' (f_up _) fun _ => f_bind' (f_up _) fun _ => f_bind' (f_up _) fun _ =>
      f_add had (f_sub0 hads fun _ _ => ⟨hads, hadsa⟩)
  · exact f_bind' (f_getWord hm (by omega)) fun _ => f_bind' (f_writeWord h (by omega)) fun _ => f_add had (f_sub0 hads fun _ _ => ⟨hads, hadsa⟩)
  · have hrest : ∀ u : Unit, Fits (if first.pos ≠ 0 then do
          let (first, middle) ← shiftLeftAlign A S first (first.add n) d n
          shiftLeftMain A S first middle last n
        else shiftLeftMain A S first (first.add n) last n) (if first.pos ≠ 0 then do
          let (first, middle) ← BitLib.shiftLeftAlign S first (first.add n) d n
          BitLib.shiftLeftMain S first middle last n
        else BitLib.shiftLeftMain S first (first.add n) last n) fun r => 0 < n → n ≤ last.addr - first.addr → A.Has r ∧ r.addr + n = last.addr := by
      intro _
      refine f_ite (fun hp => ?_) fun hp => ?_
      · refine f_bind (f_shiftLeftAlign h hm hp (by omega) (by omega) (by omega) hmaddr) ?_
        rintro ⟨f, g⟩ ⟨hf, hg, hfp, hfg, hgl⟩
        simp only at hf hg hfp hfg hgl ⊢
        exact f_mono (f_shiftLeftMain hf hg hl hfp (by omega) hfg (by omega)) fun _ hr _ _ => hr
      · exact f_mono (f_shiftLeftMain h hm hl (by omega) (by omega) hmaddr (by omega)) fun _ hr _ _ => hr
    refine f_bind' (f_up _) fun _ => f_ite (fun hp => ?_) fun hp => ?_
    · exact f_bind' (f_up _) fun _ => hrest ()
    · exact hrest ()

theorem s_shiftLeft {A : Arr} {S : ShiftSem w} {first last : BitIter w} {n : Int}
    (hg : ¬ (A.lo ≤ (first.add n).base ∧ (first.add n).base ≤ A.hi)) : Stuck (shiftLeft A S first last n) := by
  unfold Ptr.shiftLeft
  exact s_bind' (f_up _) fun _ => s_bind' (f_up _) fun _ => s_add (.inl hg)

end Ptr
end BitLib
