import Verif.Lemmas.Store
/- The members of `bit_vector` on all the bits of the words. -/
namespace BitLib
variable {w : Nat} {α β : Type}
open Store

theorem HoldsAll.elems {h : Heap w} {v : BV} {s : Store} (r : HoldsAll h v s) : Rep h v s.elems := by
  have hl := RepW.len r.rep
  have hf := r.fit
  have he : s.elems.length = s.n := by unfold Store.elems; rw [List.length_take]; omega
  refine Rep.of r.rep.ok (by rw [he]; exact r.len) (by rw [r.len, hl]; exact hf) ?_
  intro j h0 h1
  rw [he] at h1
  unfold Store.elems
  rw [List.getElem?_take, if_pos (by omega)]
  exact r.rep.bit h0 (by omega)

theorem put_length (s : Store) (d : Nat) (xs : List Bool) (hw : 0 < w) (hd : d ≤ s.n) (hn : s.n ≤ s.bits.length) :
    (put w s d xs).bits.length = max s.bits.length (ceilW w (s.n + xs.length)) := by
  have hc := ceilW_ge hw (s.n + xs.length)
  have h1 := slice_length s.bits (a := d) hn
  unfold put
  dsimp only
  rw [splice_length, widen_length]
  rw [widen_length, List.length_append, h1]
  omega

theorem put_fit (s : Store) (d : Nat) (xs : List Bool) (hw : 0 < w) (hd : d ≤ s.n) (hn : s.n ≤ s.bits.length) :
    (put w s d xs).n ≤ (put w s d xs).bits.length := by
  have hc := ceilW_ge hw (s.n + xs.length)
  rw [put_length s d xs hw hd hn]
  show s.n + xs.length ≤ _
  omega

theorem put_nil (s : Store) (d k : Nat) (hw : 0 < w) (hl : k * w = s.bits.length) (hd : d ≤ s.n) (hn : s.n ≤ s.bits.length) : put w s d [] = s := by
  unfold put
  rw [List.nil_append, List.length_nil, Nat.add_zero, widen_id (by rw [← hl]; exact ceilW_le hw (by omega)), splice_slice _ hd hn]

/-! ### One vector -/

theorem wpV_setW (S : ShiftSem w) (hw : 0 < w) {v : BV} {h : Heap w} {s : Store} {i : Nat} {b : Bool} {Q : BV → Heap w → Prop}
    (hwf : h.WF) (hr : HoldsAll h v s) (hi : i < s.n)
    (hQ : ∀ h', VStep h v.vec h' v.vec → HoldsAll h' v ⟨s.bits.set i b, s.n⟩ → Q v h') : wpV (v.set S i b) h Q := by
  have hf := hr.fit
  have key : wpV ((⟨v.vec, v.vec.size * w⟩ : BV).set S i b) h fun _ h' =>
      VStep h v.vec h' v.vec ∧ RepW h' v.vec (s.bits.set i b) :=
    wpV_set S hw hwf hr.rep (by omega) fun h' st r => ⟨st, r⟩
  unfold BV.set at key ⊢
  rw [wpV_bind] at key ⊢
  refine wpV_mono key ?_
  intro r h1 k
  rw [wpV_bind] at k ⊢
  refine wpV_mono k ?_
  rintro _ h2 ⟨a, h3, e, q1, q2⟩
  cases e
  exact wpV_pure (hQ _ q1 ⟨q2, hr.len, by rw [List.length_set]; exact hf⟩)

theorem wpV_pushW (S : ShiftSem w) (hw : 0 < w) {P : Policy} {v : BV} {h : Heap w} {s : Store} {b : Bool} {Q : BV → Heap w → Prop}
    (hwf : h.WF) (hr : HoldsAll h v s)
    (hQ : ∀ v' h', VStep h v.vec h' v'.vec → HoldsAll h' v' (put w s s.n [b]) → Q v' h') : wpV (v.pushBack S P b) h Q := by
  have hf := hr.fit
  have hln := hr.len
  have hc := ceilW_ge hw (s.n + 1)
  unfold BV.pushBack
  rw [wpV_bind]
  refine wpV_roomW hw hwf hr.rep (by omega) ?_
  intro vec h1 s1 r1
  rw [hln] at r1
  have hli := RepW.lenInt r1
  have hwl := widen_length (w := w) s.bits (s.n + 1)
  dsimp only
  rw [wpV_bind_assoc]
  refine wpV_setBit (v := ⟨vec, v.length⟩) S hw s1.wf r1.ok (by omega) (by dsimp only; omega) ?_
  intro h' st o hb
  dsimp only at hb st o
  have hpl := put_length s s.n [b] hw (Nat.le_refl _) hf
  rw [List.length_singleton] at hpl
  refine wpV_pure (hQ _ h' (s1.trans st) ⟨RepW.mk o (by rw [hpl, RepW.len r1, hwl]) ?_, by rw [hln]; rfl, put_fit _ _ _ hw (Nat.le_refl _) hf⟩)
  intro j h0 h2
  rw [hpl] at h2
  rw [hb j]
  unfold put
  dsimp only
  rw [slice_self, List.append_nil, splice_get _ _ (by rw [List.length_singleton, hwl]; omega), List.length_singleton]
  split_ifs with c1 c2 c2
  · rw [show j.toNat - s.n = 0 by omega]; rfl
  · omega
  · omega
  · exact r1.bit h0 (by omega)

theorem wpV_popW (hw : 0 < w) {v : BV} {h : Heap w} {s : Store} {Q : BV → Heap w → Prop}
    (hwf : h.WF) (hr : HoldsAll h v s) (hne : 0 < s.n)
    (hQ : ∀ v' h', VStep h v.vec h' v'.vec → HoldsAll h' v' (s.pop w) → Q v' h') : wpV v.popBack h Q := by
  have hln := hr.len
  unfold BV.popBack
  rw [subSize_of_le (by omega)]
  dsimp only
  rw [wpV_bind, hln]
  refine wpV_dropWordW hw hwf hr.rep hne hr.fit ?_
  intro vec' h' st _ r hfit
  exact wpV_pure (hQ _ h' st ⟨r, rfl, hfit⟩)

theorem wpV_insertW (S : ShiftSem w) (hw : 0 < w) {P : Policy} {v : BV} {h : Heap w} {s : Store} {b : Bool} {pos : BitIter w}
    {d : Nat} {Q : BV × BitIter w → Heap w → Prop}
    (hwf : h.WF) (hr : HoldsAll h v s) (hp : IsPos v pos d) (hd : d ≤ s.n)
    (hfull : ¬ (d % w = 0 ∧ s.n + 1 - d = w ∧ 1 < w) ∨ S.FullShiftOk)
    (hQ : ∀ v' it h', VStep h v.vec h' v'.vec → HoldsAll h' v' (put w s d [b]) → Q (v', it) h') :
    wpV (v.insert S P pos b) h Q := by
  have hf := hr.fit
  have hln := hr.len
  have hc := ceilW_ge hw (s.n + 1)
  obtain ⟨hp1, hp2⟩ := hp
  unfold BV.insert
  rw [wpV_bind]
  refine wpV_onMem ?_
  rw [wp_distance]
  refine ⟨by rw [BV.begin_addr]; omega, ?_⟩
  rw [BV.begin_addr, show pos.addr - v.vec.ptr * (w : Int) = (d : Int) by omega]
  show wpV _ h Q
  rw [wpV_bind]
  refine wpV_roomW hw hwf hr.rep (by omega) ?_
  intro vec h1 s1 r1
  rw [hln] at r1
  have hwl := widen_length (w := w) s.bits (s.n + 1)
  have hsl := slice_length s.bits (a := d) hf
  have hsw := slice_widen (w := w) s.bits (s.n + 1) d hf
  dsimp only
  rw [wpV_bind]
  refine wpV_gapW (v := ⟨vec, vec.size * w⟩) (n := s.n) (c := 1) S hw s1.wf r1 (IsPos.begin_add hw _ d) (by rw [hln]; exact IsPos.begin_add hw _ _)
    hd (by omega) (by omega) hfull ?_
  intro it h2 A hA s2 r2
  rw [hsw] at r2
  rw [wpV_bind_assoc]
  have hli := RepW.lenInt r2
  have hl2 := splice_length (widen w s.bits (s.n + 1)) (A ++ slice s.bits d s.n) (k := d) (by rw [List.length_append, hA, hsl]; omega)
  refine wpV_setBit (v := ⟨vec, v.length + 1⟩) S hw s2.wf r2.ok (by omega) (by dsimp only; omega) ?_
  intro h3 s3 o3 hb
  dsimp only at hb s2 s3 o3
  have hpl := put_length s d [b] hw hd hf
  rw [List.length_singleton] at hpl
  refine wpV_pure (hQ _ _ h3 ((s1.trans s2).trans s3) ⟨RepW.mk o3 (by rw [hpl, RepW.len r2, hl2, hwl]) ?_, by rw [hln]; rfl, put_fit _ _ _ hw hd hf⟩)
  intro j h0 h4
  rw [hpl] at h4
  rw [hb j]
  unfold put
  dsimp only
  rw [List.length_singleton, ← splice_splice _ A (slice s.bits d s.n) [b] hA (by rw [List.length_append, hA, hsl]; omega),
    splice_get _ _ (by rw [List.length_singleton, hl2]; omega), List.length_singleton]
  split_ifs with c1 c2 c2
  · rw [show j.toNat - d = 0 by omega]; rfl
  · omega
  · omega
  · exact r2.bit h0 (by omega)

theorem wpV_insertNW (S : ShiftSem w) (hw : 0 < w) {P : Policy} {v : BV} {h : Heap w} {s : Store} {b : Bool} {pos : BitIter w}
    {d c : Nat} {Q : BV × BitIter w → Heap w → Prop}
    (hwf : h.WF) (hr : HoldsAll h v s) (hp : IsPos v pos d) (hd : d ≤ s.n) (hlim : s.n + c ≤ 2 ^ 24)
    (hfull : ¬ (d % w = 0 ∧ s.n + c - d = w ∧ c < w) ∨ S.FullShiftOk)
    (hQ : ∀ v' it h', VStep h v.vec h' v'.vec → HoldsAll h' v' (put w s d (List.replicate c b)) → Q (v', it) h') :
    wpV (v.insertN S P pos c b) h Q := by
  have hf := hr.fit
  have hln := hr.len
  have hc := ceilW_ge hw (s.n + c)
  obtain ⟨hp1, hp2⟩ := hp
  unfold BV.insertN
  rw [wpV_bind]
  refine wpV_onMem ?_
  rw [wp_distance]
  refine ⟨by rw [BV.begin_addr]; omega, ?_⟩
  rw [BV.begin_addr, show pos.addr - v.vec.ptr * (w : Int) = (d : Int) by omega]
  show wpV _ h Q
  split_ifs with hn
  · subst hn
    rw [List.replicate_zero, put_nil s d v.vec.size hw (RepW.len hr.rep) hd hf] at hQ
    exact wpV_pure (hQ _ _ _ (VStep.refl hwf _) hr)
  rw [wpV_bind]
  refine wpV_growForW hw hwf hr.rep (by omega) ?_
  intro vec h1 s1 r1
  rw [hln] at r1
  have hwl := widen_length (w := w) s.bits (s.n + c)
  have hsl := slice_length s.bits (a := d) hf
  have hsw := slice_widen (w := w) s.bits (s.n + c) d hf
  dsimp only
  rw [wpV_bind]
  refine wpV_gapW (v := ⟨vec, vec.size * w⟩) (n := s.n) (c := c) S hw s1.wf r1 (IsPos.begin_add hw _ d) (by rw [hln]; exact IsPos.begin_add hw _ _)
    hd (by omega) (by omega) hfull ?_
  intro it h2 A hA s2 r2
  rw [hsw] at r2
  have hl2 := splice_length (widen w s.bits (s.n + c)) (A ++ slice s.bits d s.n) (k := d) (by rw [List.length_append, hA, hsl]; omega)
  have p1 := IsPos.begin_add hw (⟨vec, vec.size * w⟩ : BV) d
  have p2 : IsPos (⟨vec, vec.size * w⟩ : BV) (((BV.begin ⟨vec, vec.size * w⟩ : BitIter w).add (d : Int)).add (c : Int)) (d + c) :=
    ⟨BitIter.add_valid hw _ _, by rw [BitIter.add_addr hw, p1.2]; dsimp only; omega⟩
  rw [wpV_bind]
  obtain ⟨h3, e3, s3, r3⟩ := C64_fill S h2 (⟨vec, vec.size * w⟩ : BV) _ _ _ d (d + c) b s2.wf r2 p1 p2 (by omega) (by rw [hl2]; omega)
  refine ⟨(), h3, e3, wpV_pure (hQ _ _ h3 ((s1.trans s2).trans s3) ⟨?_, by dsimp only; rw [hln]; unfold put; rw [List.length_replicate],
    put_fit _ _ _ hw hd hf⟩)⟩
  rw [Nat.add_sub_cancel_left, splice_splice _ _ _ _ (by rw [List.length_replicate]; exact hA) (by rw [List.length_append, hA, hsl]; omega)] at r3
  unfold put
  rw [List.length_replicate]
  exact r3

theorem HoldsSeq.frame {h h' : Heap w} {v v' : Vec} {first last : BitIter w} {s : List Bool} (hwf : h.WF) (hs : HoldsSeq h first last s)
    (st : VStep h v h' v') (hout : Outside v first last) : HoldsSeq h' first last s := by
  have hsl := hs.len
  refine ⟨hs.validFirst, hs.validLast, hsl, fun i hi => ?_⟩
  have hnx : first.addr + (i : Int) < h.next * (w : Int) := by
    rcases Int.lt_or_le (first.addr + (i : Int)) (h.next * (w : Int)) with hc | hc
    · exact hc
    · have := hwf.unused _ hc
      rw [hs.bits i hi] at this
      cases this
  rw [st.frame _ hnx ?_]
  · exact hs.bits i hi
  · rcases hout with hc | hc | hc | hc
    · omega
    · rw [hc]; simp only [Int.natCast_zero, Int.zero_mul]; omega
    · left; omega
    · right; omega

theorem Outside.frame {h h' : Heap w} {v v' : Vec} {first last : BitIter w} {s : List Bool} (hwf : h.WF) (hs : HoldsSeq h first last s)
    (st : VStep h v h' v') (hout : Outside v first last) : Outside v' first last := by
  have hsl := hs.len
  rcases Nat.eq_zero_or_pos s.length with h0 | h0
  · left; omega
  have hnx : first.addr + ((s.length - 1 : Nat) : Int) < h.next * (w : Int) := by
    rcases Int.lt_or_le (first.addr + ((s.length - 1 : Nat) : Int)) (h.next * (w : Int)) with hc | hc
    · exact hc
    · have := hwf.unused _ hc
      rw [hs.bits _ (by omega)] at this
      cases this
  rcases st.region with ⟨e1, e2⟩ | e
  · unfold Outside at hout ⊢
    rw [e1, e2]
    exact hout
  · right; right; left
    omega

theorem wpV_insertRangeW (S : ShiftSem w) (hw : 0 < w) {P : Policy} {v : BV} {h : Heap w} {s : Store} {xs : List Bool}
    {pos first last : BitIter w} {d : Nat} {Q : BV × BitIter w → Heap w → Prop}
    (hwf : h.WF) (hr : HoldsAll h v s) (hp : IsPos v pos d) (hd : d ≤ s.n) (hs : HoldsSeq h first last xs)
    (hout : Outside v.vec first last) (hlim : s.n + xs.length ≤ 2 ^ 24)
    (hfull : ¬ (d % w = 0 ∧ s.n + xs.length - d = w ∧ xs.length < w) ∨ S.FullShiftOk)
    (hQ : ∀ v' it h', VStep h v.vec h' v'.vec → HoldsAll h' v' (put w s d xs) → Q (v', it) h') :
    wpV (v.insertRange S P pos first last) h Q := by
  have hf := hr.fit
  have hln := hr.len
  have hc := ceilW_ge hw (s.n + xs.length)
  obtain ⟨hp1, hp2⟩ := hp
  have hxl := hs.len
  unfold BV.insertRange
  rw [wpV_bind]
  refine wpV_onMem ?_
  rw [wp_distance]
  refine ⟨by rw [BV.begin_addr]; omega, ?_⟩
  rw [BV.begin_addr, show pos.addr - v.vec.ptr * (w : Int) = (d : Int) by omega]
  show wpV _ h Q
  rw [wpV_bind]
  refine wpV_onMem ?_
  rw [wp_distance]
  refine ⟨by omega, ?_⟩
  rw [show last.addr - first.addr = (xs.length : Int) by omega, toSize_nat]
  show wpV _ h Q
  dsimp only
  split_ifs with hn
  · have : xs = [] := List.length_eq_zero_iff.1 hn
    subst this
    rw [put_nil s d v.vec.size hw (RepW.len hr.rep) hd hf] at hQ
    exact wpV_pure (hQ _ _ _ (VStep.refl hwf _) hr)
  rw [wpV_bind]
  refine wpV_growForW hw hwf hr.rep (by omega) ?_
  intro vec h1 s1 r1
  rw [hln] at r1
  have hwl := widen_length (w := w) s.bits (s.n + xs.length)
  have hsl := slice_length s.bits (a := d) hf
  have hsw := slice_widen (w := w) s.bits (s.n + xs.length) d hf
  have hs1 := hs.frame hwf s1 hout
  have ho1 := hout.frame hwf hs s1
  rw [wpV_bind]
  refine wpV_gapW (v := ⟨vec, vec.size * w⟩) (n := s.n) (c := xs.length) S hw s1.wf r1 (IsPos.begin_add hw _ d)
    (by rw [hln]; exact IsPos.begin_add hw _ _) hd (by omega) (by omega) hfull ?_
  intro it h2 A hA s2 r2
  rw [hsw] at r2
  have hl2 := splice_length (widen w s.bits (s.n + xs.length)) (A ++ slice s.bits d s.n) (k := d) (by rw [List.length_append, hA, hsl]; omega)
  have p1 := IsPos.begin_add hw (⟨vec, vec.size * w⟩ : BV) d
  have hs2 := hs1.frame s1.wf s2 ho1
  have hcap := nat_mul_cast_le (w := w) r2.ok.cap
  have hli := RepW.lenInt r2
  rw [wpV_bind]
  obtain ⟨it3, h3, e3, _, s3, r3⟩ := C64_copy S h2 (⟨vec, vec.size * w⟩ : BV) _ xs first last _ d s2.wf r2 hs2 p1 (by rw [hl2]; omega) (by
    have p12 := p1.2
    dsimp only at p12 hcap
    rcases ho1 with hh | hh | hh | hh
    · omega
    · rw [hh, Int.natCast_zero, Int.zero_mul] at hcap
      omega
    · right; omega
    · left
      omega)
  refine ⟨it3, h3, e3, wpV_pure (hQ _ _ h3 ((s1.trans s2).trans s3) ⟨?_, by dsimp only; rw [hln]; rfl, put_fit _ _ _ hw hd hf⟩)⟩
  rw [splice_splice _ _ _ _ hA (by rw [List.length_append, hA, hsl]; omega)] at r3
  exact r3

theorem close_length (s : Store) (d c : Nat) (hn : s.n ≤ s.bits.length) : (s.close w d c).length = s.bits.length := by
  unfold close
  split_ifs with h
  · have h1 := slice_length s.bits (a := d + c) hn
    have h2 := vacatedL_length (w := w) s.bits (a := d) (b := s.n) (n := c) (by omega) hn
    rw [splice_length _ _ (by rw [List.length_append, h1, h2]; omega)]
  · rfl

theorem wpV_eraseW (S : ShiftSem w) (hw : 0 < w) {v : BV} {h : Heap w} {s : Store} {pos : BitIter w}
    {d : Nat} {Q : BV × BitIter w → Heap w → Prop}
    (hwf : h.WF) (hr : HoldsAll h v s) (hp : IsPos v pos d) (hd : d < s.n)
    (hfull : ¬ (d % w = 0 ∧ s.n - d = w ∧ 1 < w) ∨ S.FullShiftOk)
    (hQ : ∀ v' it h', VStep h v.vec h' v'.vec → HoldsAll h' v' (s.erase w d) → Q (v', it) h') :
    wpV (v.erase S pos) h Q := by
  have hf := hr.fit
  have hln := hr.len
  unfold BV.erase
  rw [wpV_bind, hln]
  refine wpV_closeW (v := ⟨v.vec, v.vec.size * w⟩) (n := s.n) (c := 1) S hw hwf hr.rep hp (IsPos.begin_add hw v _) (by omega) (by omega) hf hfull ?_
  intro it h1 s1 r1
  have hcl := close_length (w := w) s d 1 hf
  rw [subSize_of_le (by omega)]
  dsimp only
  rw [wpV_bind]
  refine wpV_dropWordW hw s1.wf r1 (by omega) (by rw [hcl]; exact hf) ?_
  intro vec' h' st _ r hfit
  exact wpV_pure (hQ _ _ h' (s1.trans st) ⟨r, rfl, hfit⟩)

theorem wpV_eraseRangeW (S : ShiftSem w) (hw : 0 < w) {P : Policy} {v : BV} {h : Heap w} {s : Store} {first last : BitIter w}
    {a b : Nat} {Q : BV × BitIter w → Heap w → Prop}
    (hwf : h.WF) (hr : HoldsAll h v s) (hp : IsPos v first a) (hq : IsPos v last b) (hab : a ≤ b) (hb : b ≤ s.n) (hlim : s.n < 2 ^ 32)
    (hfull : ¬ (a % w = 0 ∧ s.n - a = w ∧ a < b ∧ b - a < w) ∨ S.FullShiftOk)
    (hQ : ∀ v' it h', VStep h v.vec h' v'.vec → HoldsAll h' v' (s.eraseRange w a b) → Q (v', it) h') :
    wpV (v.eraseRange S P first last) h Q := by
  have hf := hr.fit
  have hln := hr.len
  have hp2 := hp.2
  have hq2 := hq.2
  unfold Store.eraseRange at hQ
  unfold BV.eraseRange
  rw [wpV_bind]
  refine wpV_onMem ?_
  rw [wp_distance]
  refine ⟨by rw [BV.begin_addr]; omega, ?_⟩
  rw [BV.begin_addr, show first.addr - v.vec.ptr * (w : Int) = (a : Int) by omega]
  show wpV _ h Q
  rw [wpV_bind]
  refine wpV_onMem ?_
  rw [wp_distance]
  refine ⟨by omega, ?_⟩
  rw [show last.addr - first.addr = ((b - a : Nat) : Int) by omega]
  show wpV _ h Q
  by_cases hab' : a = b
  · rw [if_pos hab'] at hQ
    rw [if_pos (by omega)]
    exact wpV_pure (hQ _ _ _ (VStep.refl hwf _) hr)
  rw [if_neg hab'] at hQ
  rw [if_neg (by omega), wpV_bind]
  refine wpV_closeW (v := ⟨v.vec, v.vec.size * w⟩) (n := s.n) (c := b - a) S hw hwf hr.rep hp
    (by rw [← hln]; exact IsPos.begin_add hw v _) (by omega) (by omega) hf (hfull.imp (fun hc h' => hc ⟨h'.1, h'.2.1, by omega, h'.2.2⟩) id) ?_
  intro it h1 s1 r1
  rw [show (v.length : Int) - ((b - a : Nat) : Int) = ((s.n - (b - a) : Nat) : Int) by omega, toSize_nat]
  dsimp only
  rw [wpV_bind]
  refine wpV_resizeW hw s1.wf r1 (by omega) ?_
  intro vec' h' st r
  have hc := ceilW_ge hw (s.n - (b - a))
  exact wpV_pure (hQ _ _ h' (s1.trans st) ⟨r, rfl, by rw [trim_length]; exact hc⟩)

theorem wpV_resizeS (hw : 0 < w) {P : Policy} {v : BV} {h : Heap w} {s : Store} {n : Nat} {Q : BV → Heap w → Prop}
    (hwf : h.WF) (hr : HoldsAll h v s) (hn : n < 2 ^ 32)
    (hQ : ∀ v' h', VStep h v.vec h' v'.vec → HoldsAll h' v' (s.resize w n) → Q v' h') : wpV (v.resize P n) h Q := by
  unfold BV.resize
  rw [wpV_bind]
  refine wpV_resizeW hw hwf hr.rep hn ?_
  intro vec' h' st r
  have hc := ceilW_ge hw n
  exact wpV_pure (hQ _ h' st ⟨r, rfl, by unfold Store.resize; rw [trim_length]; exact hc⟩)

theorem wpV_resizeValS (S : ShiftSem w) (hw : 0 < w) {P : Policy} {v : BV} {h : Heap w} {s : Store} {n : Nat} {x : Bool} {Q : BV → Heap w → Prop}
    (hwf : h.WF) (hr : HoldsAll h v s) (hn : n < 2 ^ 32)
    (hQ : ∀ v' h', VStep h v.vec h' v'.vec → HoldsAll h' v' (s.resize w n) → Q v' h') : wpV (v.resizeVal S P n x) h Q := by
  unfold BV.resizeVal
  dsimp only
  rw [wpV_bind]
  refine wpV_resizeW hw hwf hr.rep hn ?_
  intro vec' h' st r
  have hc := ceilW_ge hw n
  have hh : HoldsAll h' ⟨vec', n⟩ (s.resize w n) := ⟨r, rfl, by unfold Store.resize; rw [trim_length]; exact hc⟩
  split_ifs
  · rw [wpV_bind]
    have p := IsPos.begin_add hw (⟨vec', vec'.size * w⟩ : BV) n
    obtain ⟨h2, e2, s2, r2⟩ := C64_fill S h' (⟨vec', vec'.size * w⟩ : BV) _ _ _ n n x st.wf r p p (Nat.le_refl _) (by rw [trim_length]; exact hc)
    refine ⟨(), h2, e2, wpV_pure (hQ _ _ (st.trans s2) ⟨?_, rfl, hh.fit⟩)⟩
    rw [Nat.sub_self, List.replicate_zero, show splice (trim w s.bits n) n [] = trim w s.bits n by
      unfold splice
      rw [List.append_nil, List.length_nil, Nat.add_zero, List.take_append_drop]] at r2
    exact r2
  · exact wpV_pure (hQ _ _ st hh)

theorem wpV_clearW (hw : 0 < w) {v : BV} {h : Heap w} {s : Store} {Q : BV → Heap w → Prop} (hwf : h.WF) (hr : HoldsAll h v s)
    (hQ : ∀ v' h', VStep h v.vec h' v'.vec → HoldsAll h' v' ⟨[], 0⟩ → Q v' h') : wpV v.clear h Q := by
  obtain ⟨s, o, hb⟩ := shrink_ok hw hwf hr.rep.ok (n := 0) (by omega)
  have e : v.vec.ptr + ((0 : Nat) : Int) = v.vec.ptr := by omega
  dsimp only at s o
  rw [e, Nat.sub_zero] at s o
  unfold BV.clear
  rw [wpV_bind]
  refine ⟨_, _, rfl, wpV_pure (hQ _ _ s ⟨RepW.mk o (by simp) ?_, rfl, Nat.le_refl _⟩)⟩
  intro j h0 hj
  simp at hj
  omega

theorem wpV_reserveW (hw : 0 < w) {P : Policy} {v : BV} {h : Heap w} {s : Store} {n : Nat} {Q : BV → Heap w → Prop} (hwf : h.WF) (hr : HoldsAll h v s)
    (hQ : ∀ v' h', VStep h v.vec h' v'.vec → HoldsAll h' v' s → Q v' h') : wpV (v.reserve P n) h Q := by
  have hli := RepW.lenInt hr.rep
  unfold BV.reserve Vec.reserve
  rw [wpV_bind]
  split_ifs with hc
  · exact wpV_pure (wpV_pure (hQ _ _ (VStep.refl hwf _) hr))
  · have ha := P.alloc_ok (wordCount w n)
    have hcp := hr.rep.ok.cap
    dsimp only at hcp
    refine wpV_realloc hw hwf hr.rep.ok (by omega) ?_
    intro v' h' st o e1 e2 hb
    refine wpV_pure (hQ _ _ st ⟨RepW.mk o (by rw [e1]; exact RepW.len hr.rep) ?_, hr.len, hr.fit⟩)
    intro j h0 h1
    dsimp only
    rw [hb j h0 (by omega)]
    exact hr.rep.bit h0 h1

theorem wpV_shrinkToFitW (hw : 0 < w) {P : Policy} {v : BV} {h : Heap w} {s : Store} {Q : BV → Heap w → Prop} (hwf : h.WF) (hr : HoldsAll h v s)
    (hQ : ∀ v' h', VStep h v.vec h' v'.vec → HoldsAll h' v' s → Q v' h') : wpV (v.shrinkToFit P) h Q := by
  have hli := RepW.lenInt hr.rep
  unfold BV.shrinkToFit Vec.shrinkToFit
  rw [wpV_bind]
  split_ifs with hc
  · refine wpV_realloc hw hwf hr.rep.ok (Nat.le_refl _) ?_
    intro v' h' st o e1 e2 hb
    refine wpV_pure (hQ _ _ st ⟨RepW.mk o (by rw [e1]; exact RepW.len hr.rep) ?_, hr.len, hr.fit⟩)
    intro j h0 h1
    dsimp only
    rw [hb j h0 (by omega)]
    exact hr.rep.bit h0 h1
  · exact wpV_pure (wpV_pure (hQ _ _ (VStep.refl hwf _) hr))

theorem wpV_destroyW (hw : 0 < w) {v : BV} {h : Heap w} {Q : BV → Heap w → Prop} (hwf : h.WF)
    (hQ : ∀ h', VStep h v.vec h' v.vec → HoldsAll h' BV.default ⟨[], 0⟩ → Q BV.default h') :
    wpV (v.destroy >>= fun _ => pure BV.default) h Q := by
  rw [wpV_bind]
  have s := release_ok hw (v := v.vec) hwf
  have r := (wpV_default s.wf).2
  exact ⟨_, _, rfl, wpV_pure (hQ _ s ⟨⟨r.ok, by simp [BV.default, Vec.empty], Nat.le_refl _, r.bits⟩, rfl, Nat.le_refl _⟩)⟩

/-! ### New vectors -/

theorem holdsAll_default {h : Heap w} (hwf : h.WF) : VStep h Vec.empty h BV.default.vec ∧ HoldsAll h BV.default ⟨[], 0⟩ := by
  obtain ⟨s, r⟩ := wpV_default hwf
  exact ⟨s, ⟨⟨r.ok, by simp [BV.default, Vec.empty], Nat.le_refl _, r.bits⟩, rfl, Nat.le_refl _⟩⟩

theorem wpV_freshW (hw : 0 < w) {P : Policy} {n : Nat} (b : Bool) {x : BitVec w} (hx : ∀ k, k < w → x.getLsbD k = b) {h : Heap w}
    {Q : Vec → Heap w → Prop} (hwf : h.WF)
    (hQ : ∀ v h', VStep h Vec.empty h' v → RepW h' v (List.replicate (n * w) b) → v.size = n → h.next * (w : Int) ≤ v.ptr * (w : Int) → Q v h') :
    wpV (Vec.fresh P n fun _ => some x) h Q := by
  refine wpV_freshConst hw b hx hwf ?_
  intro v h' s o e hp _ hb
  refine hQ v h' s (RepW.mk o (by rw [e, List.length_replicate]) ?_) e hp
  intro j h0 hj
  rw [List.length_replicate] at hj
  have : ((n * w : Nat) : Int) = (n : Int) * (w : Int) := by push_cast; rfl
  rw [hb j h0 (by omega), List.getElem?_replicate, if_pos (by omega)]

theorem wpV_ofCountValW (hw : 0 < w) {P : Policy} {n : Nat} {b : Bool} {h : Heap w} {Q : BV → Heap w → Prop}
    (hwf : h.WF) (hn : n < 2 ^ 32)
    (hQ : ∀ v h', VStep h Vec.empty h' v.vec → HoldsAll h' v ⟨List.replicate (ceilW w n) b, n⟩ → Q v h') : wpV (BV.ofCountVal P n b) h Q := by
  have hc := ceilW_ge hw n
  unfold BV.ofCountVal
  rw [wpV_bind]
  refine wpV_freshW hw b ?_ hwf ?_
  · intro k hk
    cases b
    · simp
    · simp [hk]
  intro v h' s r e _
  rw [wordCount_ceil hn] at r
  exact wpV_pure (hQ _ _ s ⟨r, rfl, by rw [List.length_replicate]; exact hc⟩)

theorem splice_zeros (l : List Bool) (k : Nat) :
    splice (List.replicate k false) 0 l = l ++ List.replicate (k - l.length) false := by
  unfold splice
  rw [List.take_zero, List.nil_append, Nat.zero_add, List.drop_replicate]

theorem roomy_holds {h' : Heap w} {vec : Vec} {l : List Bool}
    (r : RepW h' vec (splice (List.replicate (l.length * w) false) 0 l)) : HoldsAll h' ⟨vec, l.length⟩ (roomy w l) := by
  rw [splice_zeros] at r
  exact ⟨r, rfl, by unfold roomy; simp⟩

theorem wpV_ofBoolRangeW (S : ShiftSem w) (hw : 0 < w) {P : Policy} {l : List Bool} {h : Heap w} {Q : BV → Heap w → Prop}
    (hwf : h.WF) (hQ : ∀ v h', VStep h Vec.empty h' v.vec → HoldsAll h' v (roomy w l) → Q v h') : wpV (BV.ofBoolRange S P l) h Q := by
  have hle := le_mul_self hw l.length
  unfold BV.ofBoolRange
  rw [wpV_bind]
  refine wpV_freshW hw false (fun _ _ => by simp) hwf ?_
  intro vec h1 s1 r1 e _
  have hli := RepW.lenInt r1
  rw [List.length_replicate] at hli
  dsimp only
  rw [wpV_bind]
  refine wpV_onMem (wp_writeBools S hw l (BV.begin_valid hw _) ?_ ?_)
  · rw [BV.begin_addr]
    intro i hi1 hi2
    exact r1.ok.mapped i hi1 (by dsimp only at hi2 ⊢; omega)
  intro m' hw3
  rw [BV.begin_addr] at hw3
  obtain ⟨s2, r2⟩ := Rep.wrote (k := 0) (s := l) (m' := m') s1.wf r1 (by rw [List.length_replicate]; omega) (fun i => by
    rw [hw3 i]
    simp)
  exact wpV_pure (hQ _ _ (s1.trans s2) (roomy_holds r2))

theorem wpV_ofStringW (S : ShiftSem w) (hw : 0 < w) {P : Policy} {s : List Char} {h : Heap w} {Q : BV → Heap w → Prop}
    (hwf : h.WF) (hQ : ∀ v h', VStep h Vec.empty h' v.vec → HoldsAll h' v (roomy w (digitsOf s)) → Q v h') : wpV (BV.ofString S P s) h Q := by
  unfold BV.ofString
  rw [← length_digitsOf]
  have hle := le_mul_self hw (digitsOf s).length
  dsimp only
  rw [wpV_bind]
  refine wpV_freshW hw false (fun _ _ => by simp) hwf ?_
  intro vec h1 s1 r1 e _
  have hli := RepW.lenInt r1
  rw [List.length_replicate] at hli
  rw [wpV_bind]
  refine wpV_onMem (wp_writeChars S hw s ?_ ?_)
  · rw [BV.begin_addr]
    intro i hi1 hi2
    exact r1.ok.mapped i (by dsimp only at hi1 ⊢; omega) (by dsimp only at hi2 ⊢; omega)
  intro m' hw3
  rw [BV.begin_addr] at hw3
  obtain ⟨s2, r2⟩ := Rep.wrote (k := 0) (s := digitsOf s) (m' := m') s1.wf r1 (by rw [List.length_replicate]; omega) (fun i => by
    rw [hw3 i]
    simp)
  exact wpV_pure (hQ _ _ (s1.trans s2) (roomy_holds r2))

theorem wpV_ofBitsW (S : ShiftSem w) (hw : 0 < w) {P : Policy} {first last : BitIter w} {s : List Bool} {h : Heap w} {Q : BV → Heap w → Prop}
    (hwf : h.WF) (hs : HoldsSeq h first last s)
    (hQ : ∀ v h', VStep h Vec.empty h' v.vec → HoldsAll h' v (roomy w s) → Q v h') : wpV (BV.ofBits S P first last) h Q := by
  have hsl := hs.len
  have hle := le_mul_self hw s.length
  unfold BV.ofBits
  rw [wpV_bind]
  refine wpV_onMem ?_
  rw [wp_distance]
  refine ⟨by omega, ?_⟩
  rw [show last.addr - first.addr = (s.length : Int) by omega, toSize_nat]
  show wpV _ h Q
  rw [wpV_bind]
  refine wpV_freshW hw false (fun _ _ => by simp) hwf ?_
  intro vec h1 s1 r1 e hp
  rw [wpV_bind]
  refine wpV_onMem ?_
  rw [wp_distance]
  refine ⟨by omega, ?_⟩
  rw [show last.addr - first.addr = (s.length : Int) by omega, toSize_nat]
  show wpV _ h1 Q
  dsimp only
  have ho : Outside Vec.empty first last := .inr (.inl rfl)
  have hs1 := hs.frame hwf s1 ho
  rw [wpV_bind]
  have p1 : IsPos (⟨vec, vec.size * w⟩ : BV) (BV.begin (⟨vec, vec.size * w⟩ : BV) : BitIter w) 0 :=
    ⟨BV.begin_valid hw _, by rw [BV.begin_addr]; dsimp only; omega⟩
  obtain ⟨it, h2, e2, _, s2, r2⟩ := C64_copy S h1 (⟨vec, vec.size * w⟩ : BV) _ s first last _ 0 s1.wf r1 hs1 p1
    (by rw [List.length_replicate]; omega) (by
      rw [BV.begin_addr]
      dsimp only
      rcases Nat.eq_zero_or_pos s.length with hz | hz
      · omega
      · right
        rcases Int.lt_or_le (first.addr + ((s.length - 1 : Nat) : Int)) (h.next * (w : Int)) with hc | hc
        · omega
        · have := hwf.unused _ hc
          rw [hs.bits _ (by omega)] at this
          cases this)
  exact ⟨it, h2, e2, wpV_pure (hQ _ _ (s1.trans s2) (roomy_holds r2))⟩

theorem wpV_ofWordsW (hw : 0 < w) {P : Policy} {l : List (BitVec w)} {h : Heap w} {Q : BV → Heap w → Prop}
    (hwf : h.WF) (hQ : ∀ v h', VStep h Vec.empty h' v.vec → HoldsAll h' v ⟨bitsOfWords l, l.length * w⟩ → Q v h') :
    wpV (BV.ofWords P l) h Q := by
  unfold BV.ofWords
  rw [wpV_bind]
  refine wpV_freshBits hw hwf (fun k hk => by rw [List.getElem?_eq_getElem hk]; rfl) ?_
  intro v h' s o e _ _ hb
  refine wpV_pure (hQ _ _ s ⟨⟨o, by rw [bitsOfWords_length, e], Nat.le_refl _, ?_⟩, by dsimp only; rw [e], by rw [bitsOfWords_length]⟩)
  intro i hi
  have hi' := hi
  rw [bitsOfWords_length] at hi'
  dsimp only
  rw [hb i hi', ← bitsOfWords_get hw, List.getElem?_eq_getElem]

theorem put_end (hw : 0 < w) (l : List Bool) (b : Bool) :
    put w ⟨widen w l l.length, l.length⟩ l.length [b] = ⟨widen w (l ++ [b]) (l ++ [b]).length, (l ++ [b]).length⟩ := by
  have h1 := ceilW_ge hw l.length
  have h2 := ceilW_ge hw (l.length + 1)
  have h3 := ceilW_le hw (n := l.length) (k := (l.length + 1 + w - 1) / w) (by
    have : ceilW w (l.length + 1) = (l.length + 1 + w - 1) / w * w := rfl
    omega)
  have h4 : ceilW w (l.length + 1) = (l.length + 1 + w - 1) / w * w := rfl
  have hwl := widen_length (w := w) (widen w l l.length) (l.length + 1)
  have hwl2 := widen_length (w := w) l l.length
  unfold put
  dsimp only
  rw [slice_self, List.append_nil, List.length_singleton, List.length_append, List.length_singleton]
  congr 1
  refine List.ext_getElem? fun i => ?_
  rw [splice_get _ _ (by rw [List.length_singleton, hwl]; omega), widen_get, widen_get, widen_get, hwl2, List.length_append, List.length_singleton,
    List.getElem?_append]
  split_ifs <;> first | rfl | (exfalso; omega)

theorem wpV_pushAllW (S : ShiftSem w) (hw : 0 < w) {P : Policy} {v0 : Vec} {h0 : Heap w} (bs : List Bool) {v : BV} {l : List Bool} {h : Heap w}
    {Q : BV → Heap w → Prop} (s0 : VStep h0 v0 h v.vec) (hr : HoldsAll h v ⟨widen w l l.length, l.length⟩)
    (hQ : ∀ v h', VStep h0 v0 h' v.vec → HoldsAll h' v ⟨widen w (l ++ bs) (l ++ bs).length, (l ++ bs).length⟩ → Q v h') :
    wpV (bs.foldlM (fun v b => v.pushBack S P b) v) h Q := by
  induction bs generalizing v l h with
  | nil => exact wpV_pure (hQ _ _ s0 (by rw [List.append_nil]; exact hr))
  | cons b bs ih =>
    rw [List.foldlM_cons, wpV_bind]
    refine wpV_pushW S hw s0.wf hr ?_
    intro v' h' s' r'
    dsimp only at r'
    rw [put_end hw] at r'
    refine ih (s0.trans s') r' ?_
    intro v2 h2 s2 r2
    rw [List.append_assoc] at r2
    exact hQ _ _ s2 r2

theorem wpV_ofBoolListW (S : ShiftSem w) (hw : 0 < w) {P : Policy} {l : List Bool} {h : Heap w} {Q : BV → Heap w → Prop}
    (hwf : h.WF) (hQ : ∀ v h', VStep h Vec.empty h' v.vec → HoldsAll h' v ⟨widen w l l.length, l.length⟩ → Q v h') :
    wpV (BV.ofBoolList S P l) h Q := by
  obtain ⟨s, r⟩ := holdsAll_default hwf
  refine wpV_pushAllW (l := []) S hw l s ?_ ?_
  · rw [widen_id]
    · exact r
    · have := ceilW_le hw (n := 0) (k := 0) (by omega)
      simp; omega
  · intro v h' s r
    rw [List.nil_append] at r
    exact hQ v h' s r

/-! ### Copies and moves -/

theorem wpV_copyOfW (hw : 0 < w) {P : Policy} {o : BV} {s : Store} {h : Heap w} {Q : BV → Heap w → Prop}
    (hwf : h.WF) (hr : HoldsAll h o s)
    (hQ : ∀ v h', VStep h Vec.empty h' v.vec → HoldsAll h' v s → Q v h') : wpV (BV.copyOf P o) h Q := by
  have hli := RepW.lenInt hr.rep
  unfold BV.copyOf
  rw [wpV_bind]
  refine wpV_copyVec hw hwf hr.rep.ok ?_
  intro v h' st okv e _ _ hb
  refine wpV_pure (hQ _ _ st ⟨RepW.mk okv (by rw [e]; exact RepW.len hr.rep) ?_, hr.len, hr.fit⟩)
  intro j h0 h1
  rw [hb j h0 (by omega)]
  exact hr.rep.bit h0 h1

theorem wpV_copyAssignW (hw : 0 < w) {P : Policy} {v o : BV} {s s' : Store} {h : Heap w} {Q : BV → Heap w → Prop}
    (hwf : h.WF) (hv : HoldsAll h v s') (hr : HoldsAll h o s)
    (hQ : ∀ v' h', VStep h v.vec h' v'.vec → HoldsAll h' v' s → Q v' h') : wpV (BV.copyAssign P v o) h Q := by
  have key : wpV (BV.copyAssign P (⟨v.vec, v.vec.size * w⟩ : BV) (⟨o.vec, o.vec.size * w⟩ : BV)) h fun v' h' =>
      VStep h v.vec h' v'.vec ∧ Rep h' v' s.bits :=
    wpV_copyAssign hw hwf hv.rep hr.rep fun v' h' st r => ⟨st, r⟩
  have hsz : wpV (Vec.copyAssign P v.vec o.vec) h fun vec _ => vec.size = o.vec.size := by
    unfold Vec.copyAssign
    split_ifs
    · exact ⟨_, _, rfl, rfl⟩
    · exact ⟨_, _, rfl, rfl⟩
  unfold BV.copyAssign at key ⊢
  rw [wpV_bind] at key ⊢
  obtain ⟨vec, h1, e1, k⟩ := key
  obtain ⟨vec', h1', e1', hs⟩ := hsz
  dsimp only at e1
  rw [e1] at e1'
  cases e1'
  obtain ⟨a, h2, e2, q1, q2⟩ := k
  cases e2
  have hl := q2.len
  refine ⟨vec, h1, e1, wpV_pure (hQ _ _ q1 ⟨⟨q2.ok, ?_, Nat.le_refl _, q2.bits⟩, hr.len, hr.fit⟩)⟩
  dsimp only at hl ⊢
  rw [hs]
  exact hl

end BitLib
