import Verif.Lemmas.BVecAlg
import Verif.Props.Vacated
/-
C64: the algorithms on the elements of a `bit_vector`, as operations on lists.
`IsPos v it a` says that `it` is `begin() + a`. The source of a copy is any range holding the bits `s`: of another vector, of the same
vector, or of memory that belongs to no vector. Every theorem gives the new elements, the returned position and that nothing outside
the storage of the vector changes (`VStep`).
-/
namespace BitLib
variable {w : Nat}

/-- C64: `copy` to position `k` overwrites the elements from there on with the source. -/
theorem C64_copy (S : ShiftSem w) (h : Heap w) (v : BV) (l s : List Bool) (first last d : BitIter w) (k : Nat) (hwf : h.WF)
    (hr : Rep h v l) (hs : HoldsSeq h first last s) (hd : IsPos v d k) (hk : k + s.length ≤ l.length)
    (hov : d.addr ≤ first.addr ∨ last.addr ≤ d.addr) :
    ∃ it h', onMem (copy S first last d) h = .ok (it, h') ∧ IsPos v it (k + s.length) ∧ VStep h v.vec h' v.vec ∧ Rep h' v (splice l k s) := by
  have hl := hs.lenEq
  have ha := hd.2
  refine wpV_onMem (Q := fun it h' => IsPos v it (k + s.length) ∧ VStep h v.vec h' v.vec ∧ Rep h' v (splice l k s)) ?_
  obtain ⟨it, m', e, h1, h2, h3⟩ := C06_copy S h.mem first last d hs.range (hr.dest hd (by omega)) hov
  refine ⟨it, m', e, ⟨h1, by omega⟩, hr.wrote hwf hk fun i => ?_⟩
  rw [h3 i, hl, ha]
  split_ifs with hc
  · exact hs.source _ _ hc.1 hc.2
  · rfl

/-- Elements 2 to 6 of a vector of 11 elements, and position 0 of the same vector. -/
theorem exPart : HoldsSeq exH (exV.begin.add 2) (exV.begin.add 6) [true, false, false, true] ∧ IsPos exV (exV.begin.add 0 : BitIter 8) 0 ∧
    IsPos exV (exV.begin.add 2 : BitIter 8) 2 ∧ IsPos exV (exV.begin.add 6 : BitIter 8) 6 ∧ IsPos exV (exV.begin.add 7 : BitIter 8) 7 ∧
    IsPos exV (exV.begin.add 11 : BitIter 8) 11 := by
  have p := fun d => IsPos.begin_add (w := 8) (by decide) exV d
  exact ⟨exRep.holds (p 2) (p 6) (by decide) (by decide), p 0, p 2, p 6, p 7, p 11⟩

example : exH.WF ∧ Rep exH exV exL ∧ HoldsSeq exH (exV.begin.add 2) (exV.begin.add 6) [true, false, false, true] ∧
    IsPos exV (exV.begin.add 0 : BitIter 8) 0 ∧ 0 + 4 ≤ exL.length ∧ (exV.begin.add 0 : BitIter 8).addr ≤ (exV.begin.add 2 : BitIter 8).addr :=
  ⟨exH_wf, exRep, exPart.1, exPart.2.1, by decide, by decide⟩

example : splice exL 0 [true, false, false, true] = [true, false, false, true, false, true, false, true, true, true, false] := by decide

/-- C64: `move` does the same as `copy`. -/
theorem C64_move (S : ShiftSem w) (h : Heap w) (v : BV) (l s : List Bool) (first last d : BitIter w) (k : Nat) (hwf : h.WF)
    (hr : Rep h v l) (hs : HoldsSeq h first last s) (hd : IsPos v d k) (hk : k + s.length ≤ l.length)
    (hov : d.addr ≤ first.addr ∨ last.addr ≤ d.addr) :
    ∃ it h', onMem (move S first last d) h = .ok (it, h') ∧ IsPos v it (k + s.length) ∧ VStep h v.vec h' v.vec ∧ Rep h' v (splice l k s) := by
  have e : move S first last d h.mem = copy S first last d h.mem :=
    C08_move_eq_copy S h.mem first last d hs.range (hr.dest hd (by rw [hs.lenEq]; omega)) hov
  have e' : onMem (move S first last d) h = onMem (copy S first last d) h := by unfold onMem; rw [e]
  rw [e']
  exact C64_copy S h v l s first last d k hwf hr hs hd hk hov

example : exH.WF ∧ Rep exH exV exL ∧ HoldsSeq exH (exV.begin.add 2) (exV.begin.add 6) [true, false, false, true] ∧
    IsPos exV (exV.begin.add 7 : BitIter 8) 7 ∧ 7 + 4 ≤ exL.length ∧ (exV.begin.add 6 : BitIter 8).addr ≤ (exV.begin.add 7 : BitIter 8).addr :=
  ⟨exH_wf, exRep, exPart.1, exPart.2.2.2.2.1, by decide, by decide⟩

/-- C64: `copy_backward` ending at position `k`. `hS` is the limit of C18. -/
theorem C64_copy_backward_partial (S : ShiftSem w) (h : Heap w) (v : BV) (l s : List Bool) (first last d : BitIter w) (k : Nat)
    (hwf : h.WF) (hr : Rep h v l) (hs : HoldsSeq h first last s) (hd : IsPos v d (k + s.length)) (hk : k + s.length ≤ l.length)
    (hov : last.addr ≤ d.addr ∨ d.addr ≤ first.addr)
    (hS : ¬ (first.pos = 0 ∧ last.pos = d.pos ∧ first.base + 2 ≤ last.base) ∨ S.FullShiftOk) :
    ∃ it h', onMem (copyBackward S first last d) h = .ok (it, h') ∧ IsPos v it k ∧ VStep h v.vec h' v.vec ∧ Rep h' v (splice l k s) := by
  have hl := hs.lenEq
  have ha := hd.2
  have hf := hr.fitInt
  refine wpV_onMem (Q := fun it h' => IsPos v it k ∧ VStep h v.vec h' v.vec ∧ Rep h' v (splice l k s)) ?_
  obtain ⟨it, m', e, h1, h2, h3⟩ := C09_copy_backward S h.mem first last d hs.range hd.1
    (fun i h3 h4 => hr.ok.mapped i (by omega) (by omega)) hov hS
  refine ⟨it, m', e, ⟨h1, by omega⟩, hr.wrote hwf hk fun i => ?_⟩
  rw [h3 i, hl, show d.addr - (s.length : Int) = v.vec.ptr * (w : Int) + (k : Int) by omega]
  split_ifs with hc
  · exact hs.source _ _ hc.1 hc.2
  · rfl

example : exH.WF ∧ Rep exH exV exL ∧ HoldsSeq exH (exV.begin.add 2) (exV.begin.add 6) [true, false, false, true] ∧
    IsPos exV (exV.begin.add 7 : BitIter 8) (3 + 4) ∧ 3 + 4 ≤ exL.length ∧
    (exV.begin.add 6 : BitIter 8).addr ≤ (exV.begin.add 7 : BitIter 8).addr ∧ ¬ ((exV.begin.add 2 : BitIter 8).pos = 0) :=
  ⟨exH_wf, exRep, exPart.1, exPart.2.2.2.2.1, by decide, by decide, by decide⟩

/-- C64: `transform` with a bitwise operation. -/
theorem C64_transform (S : ShiftSem w) (op : BitVec w → BitVec w) (f : Bool → Bool)
    (hop : ∀ x i, i < w → (op x).getLsbD i = f (x.getLsbD i)) (h : Heap w) (v : BV) (l s : List Bool) (first last d : BitIter w) (k : Nat)
    (hwf : h.WF) (hr : Rep h v l) (hs : HoldsSeq h first last s) (hd : IsPos v d k) (hk : k + s.length ≤ l.length)
    (hov : d.addr ≤ first.addr ∨ last.addr ≤ d.addr) :
    ∃ it h', onMem (transform S op first last d) h = .ok (it, h') ∧ IsPos v it (k + s.length) ∧ VStep h v.vec h' v.vec ∧
      Rep h' v (splice l k (s.map f)) := by
  have hl := hs.lenEq
  have ha := hd.2
  refine wpV_onMem (Q := fun it h' => IsPos v it (k + s.length) ∧ VStep h v.vec h' v.vec ∧ Rep h' v (splice l k (s.map f))) ?_
  obtain ⟨it, m', e, h1, h2, h3⟩ := C23_transform S op f hop h.mem first last d hs.range (hr.dest hd (by omega)) hov
  refine ⟨it, m', e, ⟨h1, by omega⟩, hr.wrote hwf (by simpa using hk) fun i => ?_⟩
  rw [h3 i, hl, ha, List.length_map]
  split_ifs with hc
  · beta_reduce
    rw [hs.source _ _ hc.1 hc.2, List.getElem?_map]
  · rfl

example : (∀ (x : BitVec 8) (i : Nat), i < 8 → (~~~ x).getLsbD i = !(x.getLsbD i)) ∧ exH.WF ∧ Rep exH exV exL ∧
    HoldsSeq exH (exV.begin.add 2) (exV.begin.add 6) [true, false, false, true] ∧ IsPos exV (exV.begin.add 2 : BitIter 8) 2 ∧ 2 + 4 ≤ exL.length ∧
    (exV.begin.add 2 : BitIter 8).addr ≤ (exV.begin.add 2 : BitIter 8).addr :=
  ⟨fun x i hi => by simp [hi], exH_wf, exRep, exPart.1, exPart.2.2.1, by decide, by decide⟩

/-- C64: `transform` with a bitwise operation of two sources. -/
theorem C64_transform2 (S : ShiftSem w) (op : BitVec w → BitVec w → BitVec w) (f : Bool → Bool → Bool)
    (hop : ∀ x y i, i < w → (op x y).getLsbD i = f (x.getLsbD i) (y.getLsbD i)) (h : Heap w) (v : BV) (l s t : List Bool)
    (first last first2 last2 d : BitIter w) (k : Nat) (hwf : h.WF) (hr : Rep h v l) (hs : HoldsSeq h first last s)
    (ht : HoldsSeq h first2 last2 t) (hlen : s.length = t.length) (hd : IsPos v d k) (hk : k + s.length ≤ l.length)
    (hov : d.addr ≤ first.addr ∨ last.addr ≤ d.addr) (hov2 : d.addr ≤ first2.addr ∨ last2.addr ≤ d.addr) :
    ∃ it h', onMem (transform2 S op first last first2 d) h = .ok (it, h') ∧ IsPos v it (k + s.length) ∧ VStep h v.vec h' v.vec ∧
      Rep h' v (splice l k (List.zipWith f s t)) := by
  have hl := hs.lenEq
  have hl2 := ht.len
  have ha := hd.2
  have hz : (List.zipWith f s t).length = s.length := by simp [hlen]
  refine wpV_onMem (Q := fun it h' => IsPos v it (k + s.length) ∧ VStep h v.vec h' v.vec ∧ Rep h' v (splice l k (List.zipWith f s t))) ?_
  obtain ⟨it, m', e, h1, h2, h3⟩ := C24_transform2 S op f hop h.mem first last first2 d hs.range
    ⟨ht.validFirst, fun i h1 h2 => ht.range.mapped i (by omega) (by omega)⟩ (hr.dest hd (by omega)) hov (by omega)
  refine ⟨it, m', e, ⟨h1, by omega⟩, hr.wrote hwf (by omega) fun i => ?_⟩
  rw [h3 i, hl, ha, hz]
  split_ifs with hc
  · beta_reduce
    rw [hs.source _ _ hc.1 hc.2, ht.source _ _ hc.1 (by omega), List.getElem?_zipWith,
      List.getElem?_eq_getElem (by omega), List.getElem?_eq_getElem (by omega)]
    rfl
  · rfl

example : (∀ (x y : BitVec 8) (i : Nat), i < 8 → (x &&& y).getLsbD i = (x.getLsbD i && y.getLsbD i)) ∧ exH.WF ∧ Rep exH exV exL ∧
    HoldsSeq exH (exV.begin.add 2) (exV.begin.add 6) [true, false, false, true] ∧
    HoldsSeq exH (exV.begin.add 7) (exV.begin.add 11) [true, true, true, false] ∧ IsPos exV (exV.begin.add 2 : BitIter 8) 2 ∧ 2 + 4 ≤ exL.length ∧
    (exV.begin.add 2 : BitIter 8).addr ≤ (exV.begin.add 7 : BitIter 8).addr :=
  ⟨fun x y i hi => by simp, exH_wf, exRep, exPart.1, exRep.holds exPart.2.2.2.2.1 exPart.2.2.2.2.2 (by decide) (by decide), exPart.2.2.1,
    by decide, by decide⟩

/-- C64: `fill`. -/
theorem C64_fill (S : ShiftSem w) (h : Heap w) (v : BV) (l : List Bool) (first last : BitIter w) (a b : Nat) (x : Bool)
    (hwf : h.WF) (hr : Rep h v l) (hf : IsPos v first a) (hl : IsPos v last b) (hab : a ≤ b) (hb : b ≤ l.length) :
    ∃ h', onMem (fill S first last x) h = .ok ((), h') ∧ VStep h v.vec h' v.vec ∧ Rep h' v (splice l a (List.replicate (b - a) x)) := by
  have h1 := hf.2
  have h2 := hl.2
  obtain ⟨m', e, h3⟩ := C10_fill S h.mem first last x (hr.holds hf hl hab hb).range
  refine ⟨{ h with mem := m' }, by unfold onMem; rw [e], hr.wrote hwf (by simp; omega) fun i => ?_⟩
  rw [h3 i, List.length_replicate, List.getElem?_replicate]
  by_cases hc : first.addr ≤ i ∧ i < last.addr
  · rw [if_pos hc, if_pos (by omega), if_pos (by omega)]
  · rw [if_neg hc, if_neg (by omega)]

example : exH.WF ∧ Rep exH exV exL ∧ IsPos exV (exV.begin.add 2 : BitIter 8) 2 ∧ IsPos exV (exV.begin.add 11 : BitIter 8) 11 ∧ 2 ≤ 11 ∧
    11 ≤ exL.length ∧ splice exL 2 (List.replicate (11 - 2) true) = [true, false, true, true, true, true, true, true, true, true, true] :=
  ⟨exH_wf, exRep, exPart.2.2.1, exPart.2.2.2.2.2, by decide, by decide, by decide⟩

/-- C64: `find` returns the position of the first `x`, or the end of the range. -/
theorem C64_find (S : ShiftSem w) (h : Heap w) (v : BV) (l : List Bool) (first last : BitIter w) (a b : Nat) (x : Bool)
    (hr : Rep h v l) (hf : IsPos v first a) (hl : IsPos v last b) (hab : a ≤ b) (hb : b ≤ l.length) :
    ∃ it, onMem (find S first last x) h = .ok (it, h) ∧ IsPos v it (a + (slice l a b).findIdx (· == x)) := by
  have h1 := hf.2
  have h2 := hl.2
  have hs := hr.holds hf hl hab hb
  have hn := slice_length l (a := a) hb
  obtain ⟨it, e, h3, h4, h5, h6, h7⟩ := C11_find S h.mem first last x hs.range (.inr (hr.word hf (by omega)))
  refine ⟨it, by unfold onMem; rw [e], h3, ?_⟩
  have key : (slice l a b).findIdx (· == x) = (it.addr - first.addr).toNat := by
    rcases Nat.lt_or_ge (it.addr - first.addr).toNat (slice l a b).length with hc | hc
    · rw [List.findIdx_eq hc]
      refine ⟨?_, fun j hj => ?_⟩
      · have := hs.bits _ hc
        rw [show first.addr + (((it.addr - first.addr).toNat : Nat) : Int) = it.addr by omega, h7 (by omega)] at this
        simp at this ⊢
        exact this.symm
      · have := hs.bits j (by omega)
        rw [h6 _ (by omega) (by omega)] at this
        rw [← Option.some.inj this]
        cases x <;> rfl
    · rw [List.findIdx_eq_length.2, hn]
      · omega
      · intro y hy
        obtain ⟨j, hj, rfl⟩ := List.mem_iff_getElem.1 hy
        have := hs.bits j hj
        rw [h6 _ (by omega) (by omega)] at this
        rw [← Option.some.inj this]
        cases x <;> rfl
  rw [key]
  omega

example : Rep exH exV exL ∧ IsPos exV (exV.begin.add 6 : BitIter 8) 6 ∧ IsPos exV (exV.begin.add 11 : BitIter 8) 11 ∧ 6 ≤ 11 ∧ 11 ≤ exL.length ∧
    6 + (slice exL 6 11).findIdx (· == true) = 7 :=
  ⟨exRep, exPart.2.2.2.1, exPart.2.2.2.2.2, by decide, by decide, by decide⟩

/-- C64: `equal` compares two ranges of the same length. -/
theorem C64_equal (S : ShiftSem w) (h : Heap w) (s t : List Bool) (first last first2 last2 : BitIter w)
    (hs : HoldsSeq h first last s) (ht : HoldsSeq h first2 last2 t) (hlen : s.length = t.length) :
    onMem (equal S first last first2) h = .ok (decide (s = t), h) := by
  have hl := hs.lenEq
  have hl2 := ht.len
  obtain ⟨r, e, h1⟩ := C12_equal S h.mem first last first2 hs.range ⟨ht.validFirst, fun i h1 h2 => ht.range.mapped i (by omega) (by omega)⟩
  have key : EqBits h.mem first.addr first2.addr (len first last) ↔ s = t := by
    rw [hl]
    constructor
    · intro hq
      refine List.ext_getElem hlen fun i h3 h4 => ?_
      have := hq (i : Int) (by omega) (by omega)
      rw [hs.bits i h3, ht.bits i h4] at this
      exact Option.some.inj this
    · rintro rfl i h3 h4
      rw [hs.bit h3 h4, ht.bit h3 h4]
  have : r = decide (s = t) := by
    rw [Bool.eq_iff_iff, h1, key, decide_eq_true_iff]
  unfold onMem
  rw [e, this]

example : HoldsSeq exH (exV.begin.add 2) (exV.begin.add 6) [true, false, false, true] ∧
    HoldsSeq exH (exV.begin.add 7) (exV.begin.add 11) [true, true, true, false] :=
  ⟨exPart.1, exRep.holds exPart.2.2.2.2.1 exPart.2.2.2.2.2 (by decide) (by decide)⟩

theorem countIn_slice {h : Heap w} {first last : BitIter w} {s : List Bool} (hs : HoldsSeq h first last s) (x : Bool) :
    countIn h.mem x first.addr s.length = s.count x := by
  have e : s = (List.range s.length).map fun i : Nat => (bitAt h.mem (first.addr + (i : Int))).getD false := by
    refine List.ext_getElem (by simp) fun i h1 h2 => ?_
    rw [List.getElem_map, List.getElem_range, hs.bits i h1]; rfl
  conv_rhs => rw [e]
  unfold countIn
  rw [List.count_eq_countP, List.countP_map]
  apply List.countP_congr
  intro i hi
  rw [List.mem_range] at hi
  simp [hs.bits i hi]

/-- C64: `count` of a range that is not empty, or of an empty one that does not lie at the end of the storage. -/
theorem C64_count_partial (S : ShiftSem w) (h : Heap w) (v : BV) (l : List Bool) (first last : BitIter w) (a b : Nat) (x : Bool)
    (hr : Rep h v l) (hf : IsPos v first a) (hl : IsPos v last b) (hab : a ≤ b) (hb : b ≤ l.length) (hne : a < b ∨ a < v.vec.size * w) :
    onMem (count S first last x) h = .ok (((slice l a b).count x : Int), h) := by
  have h1 := hf.2
  have h2 := hl.2
  have hs := hr.holds hf hl hab hb
  have hlen := hs.lenEq
  have hm : (bitAt h.mem first.addr).isSome := by
    rw [h1]
    refine hr.mappedBit (by omega) ?_
    have : a < v.vec.size * w := by
      rcases hne with hne | hne
      · have := hr.fit; have := hr.len; omega
      · exact hne
    exact_mod_cast this
  obtain ⟨r, m', e, rfl, rfl⟩ := wp_count S (v := x) hs.range.1 hs.range.2 hs.range.3 hs.range.4
    (by by_cases hc : first.addr < last.addr
        · exact .inl hc
        · exact .inr hm)
    (Q := fun r m' => r = (countIn h.mem x first.addr (len first last).toNat : Int) ∧ m' = h.mem) ⟨rfl, rfl⟩
  unfold onMem
  rw [e, hlen, Int.toNat_natCast, countIn_slice hs]

example : Rep exH exV exL ∧ IsPos exV (exV.begin.add 2 : BitIter 8) 2 ∧ IsPos exV (exV.begin.add 11 : BitIter 8) 11 ∧ 2 < 11 ∧ 11 ≤ exL.length ∧
    (slice exL 2 11).count true = 5 :=
  ⟨exRep, exPart.2.2.1, exPart.2.2.2.2.2, by decide, by decide, by decide⟩

/-- C64: `count` of an empty vector reads storage that does not exist (count.hpp:103-107 reads the word before looking at the length). -/
theorem C64_count_empty_refuted (hw : 0 < w) (S : ShiftSem w) (x : Bool) :
    Rep (emptyHeap : Heap w) BV.default [] ∧
    onMem (count S (BV.default.begin : BitIter w) BV.default.end x) (emptyHeap : Heap w) = .error (.ub .outOfBounds) := by
  have he : (BV.default.end : BitIter w) = BV.default.begin := by
    have := (IsPos.begin_add hw BV.default 0).eq hw
    exact this.trans (by simp [BV.begin])
  refine ⟨(wpV_default emptyHeap_wf).2, ?_⟩
  rw [he]
  unfold onMem count assertViable assertM
  rw [if_pos (by rw [BitIter.diff_eq]; omega)]
  rfl

/-- C64 exactly, for every range: `count` gives the number of elements if the range is not empty or the word at its start exists, and reads
outside memory otherwise. -/
theorem C64_count_exact (S : ShiftSem w) (h : Heap w) (v : BV) (l : List Bool) (first last : BitIter w) (a b : Nat) (x : Bool)
    (hr : Rep h v l) (hf : IsPos v first a) (hl : IsPos v last b) (hab : a ≤ b) (hb : b ≤ l.length) :
    onMem (count S first last x) h = if a < b ∨ (bitAt h.mem first.addr).isSome then .ok (((slice l a b).count x : Int), h)
      else .error (.ub .outOfBounds) := by
  by_cases hlt : a < b
  · rw [if_pos (.inl hlt), C64_count_partial S h v l first last a b x hr hf hl hab hb (.inl hlt)]
  · have hab' : a = b := by omega
    subst hab'
    have he : last = first := BitIter.addr_inj hl.1 hf.1 (by rw [hl.2, hf.2])
    subst he
    have hz : slice l a a = [] := List.length_eq_zero_iff.1 (by rw [slice_length l hb]; omega)
    unfold onMem
    rw [C14_exact S h.mem last x hl.1, hz]
    by_cases hm : (bitAt h.mem last.addr).isSome
    · rw [if_pos hm, if_pos (.inr hm)]; rfl
    · rw [if_neg hm, if_neg (by simp only [not_or]; exact ⟨hlt, hm⟩)]

/-- Both cases of an empty range occur: inside the storage, and at its end. -/
example : Rep exH exV exL ∧ IsPos exV (exV.begin.add 11 : BitIter 8) 11 ∧ (bitAt exH.mem (exV.begin.add 11 : BitIter 8).addr).isSome ∧
    ¬ (bitAt exH.mem (exV.begin.add 16 : BitIter 8).addr).isSome :=
  ⟨exRep, exPart.2.2.2.2.2, by decide, by decide⟩

/-- C64: `reverse`. `hfull` is the limit of C18. -/
theorem C64_reverse_partial (hw : 0 < w) (S : ShiftSem w) (h : Heap w) (v : BV) (l : List Bool) (first last : BitIter w) (a b : Nat)
    (hwf : h.WF) (hr : Rep h v l) (hf : IsPos v first a) (hl : IsPos v last b) (hab : a ≤ b) (hb : b ≤ l.length)
    (hfull : ¬ (a % w ≠ 0 ∧ b = (a / w + 1) * w) ∨ S.FullShiftOk) :
    ∃ h', onMem (reverse S first last) h = .ok ((), h') ∧ VStep h v.vec h' v.vec ∧ Rep h' v (splice l a (slice l a b).reverse) := by
  have h1 := hf.2
  have h2 := hl.2
  have hs := hr.holds hf hl hab hb
  have hn := slice_length l (a := a) hb
  obtain ⟨m', e, h3⟩ := C15_reverse S h.mem first last hs.range (.inr (hr.word hf (by omega))) (by
    refine hfull.imp (fun hc => ?_) id
    rintro ⟨h4, h5⟩
    refine hc ⟨fun h6 => h4 (hf.pos_zero.2 h6), ?_⟩
    rw [hf.eq hw] at h5
    have h6 : (v.vec.ptr + ((a / w : Nat) : Int) + 1) * (w : Int) = v.vec.ptr * (w : Int) + (((a / w + 1) * w : Nat) : Int) := by
      push_cast; ring
    dsimp only at h5
    omega)
  refine ⟨{ h with mem := m' }, by unfold onMem; rw [e], hr.wrote hwf (by simp; omega) fun i => ?_⟩
  rw [h3 i, List.length_reverse, hn]
  by_cases hc : first.addr ≤ i ∧ i < last.addr
  · rw [if_pos hc, if_pos (by omega), List.getElem?_reverse (by omega),
      show first.addr + last.addr - 1 - i = first.addr + (last.addr - 1 - i) by omega, hs.bit (by omega) (by omega)]
    congr 1; omega
  · rw [if_neg hc, if_neg (by omega)]

example : exH.WF ∧ Rep exH exV exL ∧ IsPos exV (exV.begin.add 0 : BitIter 8) 0 ∧ IsPos exV (exV.begin.add 11 : BitIter 8) 11 ∧ 0 ≤ 11 ∧
    11 ≤ exL.length ∧ ¬ (0 % 8 ≠ 0 ∧ 11 = (0 / 8 + 1) * 8) ∧
    splice exL 0 (slice exL 0 11).reverse = [false, true, true, true, false, true, false, false, true, false, true] :=
  ⟨exH_wf, exRep, exPart.2.1, exPart.2.2.2.2.2, by decide, by decide, by decide, by decide⟩

/-- C64: `rotate` below the limit of C19. -/
theorem C64_rotate_partial (S : ShiftSem w) (h : Heap w) (v : BV) (l : List Bool) (first mid last : BitIter w) (a k b : Nat)
    (hwf : h.WF) (hr : Rep h v l) (hf : IsPos v first a) (hm : IsPos v mid k) (hl : IsPos v last b) (hak : a ≤ k) (hkb : k < b)
    (hb : b ≤ l.length) (hlim : RotFits w ((k : Int) - a) ((b : Int) - k)) :
    ∃ it h', onMem (rotate S first mid last) h = .ok (it, h') ∧ IsPos v it (a + (b - k)) ∧ VStep h v.vec h' v.vec ∧
      Rep h' v (splice l a (slice l k b ++ slice l a k)) := by
  have h1 := hf.2
  have h2 := hl.2
  have h0 := hm.2
  have hs := hr.holds hf hl (by omega) hb
  have hn1 := slice_length l (a := k) hb
  have hn2 := slice_length l (a := a) (b := k) (by omega)
  refine wpV_onMem (Q := fun it h' => IsPos v it (a + (b - k)) ∧ VStep h v.vec h' v.vec ∧
      Rep h' v (splice l a (slice l k b ++ slice l a k))) ?_
  obtain ⟨it, m', e, h3, h4, h5⟩ := C19_rotate_partial S h.mem first mid last hs.range hm.1 (by omega) (by omega) (by
    rwa [show len first mid = (k : Int) - a by unfold len; omega, show len mid last = (b : Int) - k by unfold len; omega])
  refine ⟨it, m', e, ⟨h3, by omega⟩, hr.wrote hwf (by simp; omega) fun i => ?_⟩
  rw [h5 i, List.length_append, hn1, hn2]
  by_cases hc : first.addr ≤ i ∧ i < last.addr
  · by_cases hc2 : i < first.addr + (last.addr - mid.addr)
    · rw [if_pos ⟨hc.1, hc2⟩, if_pos (by omega), List.getElem?_append, if_pos (by omega), slice_get, if_pos (by omega),
        show i + (mid.addr - first.addr) = v.vec.ptr * (w : Int) + (i + (mid.addr - first.addr) - v.vec.ptr * (w : Int)) by omega,
        hr.bit (by omega) (by omega)]
      congr 1; omega
    · rw [if_neg (by omega), if_pos (by omega), if_pos (by omega), List.getElem?_append, if_neg (by omega), slice_get, if_pos (by omega),
        show i - (last.addr - mid.addr) = v.vec.ptr * (w : Int) + (i - (last.addr - mid.addr) - v.vec.ptr * (w : Int)) by omega,
        hr.bit (by omega) (by omega)]
      congr 1; omega
  · rw [if_neg (by omega), if_neg (by omega), if_neg (by omega)]

example : exH.WF ∧ Rep exH exV exL ∧ IsPos exV (exV.begin.add 0 : BitIter 8) 0 ∧ IsPos exV (exV.begin.add 6 : BitIter 8) 6 ∧
    IsPos exV (exV.begin.add 11 : BitIter 8) 11 ∧ 0 ≤ 6 ∧ 6 < 11 ∧ 11 ≤ exL.length ∧ RotFits 8 (((6 : Nat) : Int) - (0 : Nat)) (((11 : Nat) : Int) - (6 : Nat)) ∧
    splice exL 0 (slice exL 6 11 ++ slice exL 0 6) = [false, true, true, true, false, true, false, true, false, false, true] :=
  ⟨exH_wf, exRep, exPart.2.1, exPart.2.2.2.1, exPart.2.2.2.2.2, by decide, by decide, by decide, RotFits.of_len (by decide), by decide⟩

/-- The word of element `a`, relative to the start of the vector. -/
theorem elem_ediv (hw : 0 < w) (p : Int) (a : Nat) : (p * (w : Int) + (a : Int)) / (w : Int) = p + ((a / w : Nat) : Int) := by
  rw [Int.add_comm, Int.add_mul_ediv_right _ _ (by omega), Int.natCast_ediv]
  omega

theorem elem_emod (p : Int) (a : Nat) : (p * (w : Int) + (a : Int)) % (w : Int) = ((a % w : Nat) : Int) := by
  rw [Int.add_comm, Int.add_mul_emod_self_right, Int.natCast_emod]

theorem elem_word_iff (hw : 0 < w) (p : Int) {a b : Nat} (hab : a < b) :
    (p * (w : Int) + (a : Int)) / (w : Int) = (p * (w : Int) + (b : Int) - 1) / (w : Int) ↔ a / w = (b - 1) / w := by
  rw [show p * (w : Int) + (b : Int) - 1 = p * (w : Int) + ((b - 1 : Nat) : Int) by omega, elem_ediv hw, elem_ediv hw]
  omega

theorem leaked_elems (hw : 0 < w) (p : Int) {a b n : Nat} (h0 : 0 < n) (hn : n ≤ b) :
    leaked w (p * (w : Int) + (a : Int)) (p * (w : Int) + (b : Int)) (n : Int) = (leakedElems w a b n : Int) := by
  unfold leaked leakedElems
  rw [show p * (w : Int) + (b : Int) - (n : Int) = p * (w : Int) + ((b - n : Nat) : Int) by omega, elem_ediv hw, elem_ediv hw, elem_emod]
  by_cases hc : n % w = 0 ∧ a / w < (b - n) / w
  · rw [if_pos hc, if_pos ⟨by omega, by have := hc.1; rw [← Int.natCast_emod, this]; rfl, by omega⟩]
  · rw [if_neg hc, if_neg]
    · rfl
    · rintro ⟨_, h1, h2⟩
      rw [← Int.natCast_emod] at h1
      exact hc ⟨by omega, by omega⟩

theorem leakedElems_le (hw : 0 < w) (a b n : Nat) (h0 : 0 < n) : leakedElems w a b n ≤ a ∧ leakedElems w a b n ≤ n := by
  unfold leakedElems
  split_ifs with h
  · have h1 := Nat.mod_le a w
    have h2 := Nat.mod_lt a hw
    have h3 := Nat.le_of_dvd h0 (Nat.dvd_of_mod_eq_zero h.1)
    omega
  · omega

theorem vacatedL_length (l : List Bool) {a b n : Nat} (hn : n ≤ b) (hb : b ≤ l.length) : (vacatedL w l a b n).length = n := by
  unfold vacatedL
  split_ifs
  · simp
  · rw [slice_length _ hb]; omega

theorem vacatedR_length (hw : 0 < w) (l : List Bool) {a b n : Nat} (h0 : 0 < n) (hn : a + n ≤ l.length) : (vacatedR w l a b n).length = n := by
  have h := leakedElems_le hw a b n h0
  unfold vacatedR
  split_ifs
  · simp
  · rw [List.length_append, slice_length _ (by omega), slice_length _ (by omega)]; omega

/-- C64: `shift_left` by `n`, vacated elements included. -/
theorem C64_shift_left_partial (S : ShiftSem w) (h : Heap w) (v : BV) (l : List Bool) (first last : BitIter w) (a b n : Nat)
    (hwf : h.WF) (hr : Rep h v l) (hf : IsPos v first a) (hl : IsPos v last b) (h0 : 0 < n) (hn : a + n < b) (hb : b ≤ l.length)
    (hfull : ¬ (a % w = 0 ∧ b - a = w) ∨ S.FullShiftOk) :
    ∃ it h', onMem (shiftLeft S first last (n : Int)) h = .ok (it, h') ∧ IsPos v it (b - n) ∧ VStep h v.vec h' v.vec ∧
      Rep h' v (splice l a (slice l (a + n) b ++ vacatedL w l a b n)) := by
  have hw : 0 < w := Nat.lt_of_le_of_lt (Nat.zero_le _) hf.1
  have h1 := hf.2
  have h2 := hl.2
  have hs := hr.holds hf hl (by omega) hb
  have hn1 := slice_length l (a := a + n) hb
  have hn2 := vacatedL_length (w := w) l (a := a) (b := b) (n := n) (by omega) hb
  obtain ⟨it, m', e, h3, h4, h5⟩ := C77_shift_left S h.mem first last (n : Int) hs.range (by omega) (by unfold len; omega)
    (hfull.imp (fun hc h => hc ⟨hf.pos_zero.1 h.1, by have := h.2; unfold len at this; omega⟩) id)
  refine ⟨it, { h with mem := m' }, by unfold onMem; rw [e], ⟨h3, by omega⟩, ?_⟩
  refine hr.wrote hwf (by rw [List.length_append, hn1, hn2]; omega) fun i => ?_
  rw [List.length_append, hn1, hn2, h5 i, h1, h2]
  by_cases hc : v.vec.ptr * (w : Int) + (a : Int) ≤ i ∧ i < v.vec.ptr * (w : Int) + (b : Int)
  · rw [if_pos (c := _ ∧ i < v.vec.ptr * (w : Int) + (a : Int) + _) (by omega)]
    by_cases hc2 : i < v.vec.ptr * (w : Int) + (b : Int) - (n : Int)
    · rw [if_pos ⟨hc.1, hc2⟩, List.getElem?_append, if_pos (by omega), slice_get, if_pos (by omega),
        show i + (n : Int) = v.vec.ptr * (w : Int) + (i + (n : Int) - v.vec.ptr * (w : Int)) by omega, hr.bit (by omega) (by omega)]
      congr 1; omega
    · rw [if_neg (fun hx => hc2 hx.2), List.getElem?_append (l₁ := slice l (a + n) b), if_neg (c := _ < (slice l (a + n) b).length) (by omega), hn1]
      unfold vacatedL
      by_cases hc3 : a / w = (b - 1) / w
      · rw [if_pos ⟨by omega, hc.2, (elem_word_iff hw _ (by omega)).2 hc3⟩, if_pos hc3, List.getElem?_replicate, if_pos (by omega)]
      · rw [if_neg (fun hx => hc3 ((elem_word_iff hw _ (by omega)).1 hx.2.2)), if_neg hc3, slice_get, if_pos (by omega),
          show i = v.vec.ptr * (w : Int) + (i - v.vec.ptr * (w : Int)) by omega, hr.bit (by omega) (by omega)]
        congr 1; omega
  · rw [if_neg (by omega), if_neg (by omega), if_neg (by omega)]

example : exH.WF ∧ Rep exH exV exL ∧ IsPos exV (exV.begin.add 2 : BitIter 8) 2 ∧ IsPos exV (exV.begin.add 11 : BitIter 8) 11 ∧ 0 < 5 ∧ 2 + 5 < 11 ∧
    11 ≤ exL.length ∧ ¬ (2 % 8 = 0 ∧ 11 - 2 = 8) :=
  ⟨exH_wf, exRep, exPart.2.2.1, exPart.2.2.2.2.2, by decide, by decide, by decide, by decide⟩

/-- The vacated elements keep their values, and are cleared when the elements lie in one word. -/
example : vacatedL 8 exL 2 11 5 = slice exL 6 11 ∧ vacatedL 8 exL 0 7 2 = [false, false] := by decide

/-- C64: `shift_right` by `n`, vacated elements included. -/
theorem C64_shift_right_partial (S : ShiftSem w) (h : Heap w) (v : BV) (l : List Bool) (first last : BitIter w) (a b n : Nat)
    (hwf : h.WF) (hr : Rep h v l) (hf : IsPos v first a) (hl : IsPos v last b) (h0 : 0 < n) (hn : a + n < b) (hb : b ≤ l.length)
    (hfull : ¬ (a % w = 0 ∧ b - a = w) ∨ S.FullShiftOk) :
    ∃ it h', onMem (shiftRight S first last (n : Int)) h = .ok (it, h') ∧ IsPos v it (a + n) ∧ VStep h v.vec h' v.vec ∧
      Rep h' v (splice l a (vacatedR w l a b n ++ slice l a (b - n))) := by
  have hw : 0 < w := Nat.lt_of_le_of_lt (Nat.zero_le _) hf.1
  have h1 := hf.2
  have h2 := hl.2
  have hs := hr.holds hf hl (by omega) hb
  have hn1 := slice_length l (a := a) (b := b - n) (by omega)
  have hn2 := vacatedR_length hw l (a := a) (b := b) (n := n) h0 (by omega)
  have hle := leakedElems_le hw a b n h0
  obtain ⟨it, m', e, h3, h4, h5⟩ := C77_shift_right S h.mem first last (n : Int) hs.range (by omega) (by unfold len; omega)
    (hfull.imp (fun hc h => hc ⟨hf.pos_zero.1 h.1, by have := h.2; unfold len at this; omega⟩) id)
  refine ⟨it, { h with mem := m' }, by unfold onMem; rw [e], ⟨h3, by omega⟩, ?_⟩
  refine hr.wrote hwf (by rw [List.length_append, hn1, hn2]; omega) fun i => ?_
  rw [List.length_append, hn1, hn2, h5 i, h1, h2, leaked_elems hw _ h0 (by omega)]
  by_cases hc : v.vec.ptr * (w : Int) + (a : Int) ≤ i ∧ i < v.vec.ptr * (w : Int) + (b : Int)
  · rw [if_pos (c := _ ∧ i < v.vec.ptr * (w : Int) + (a : Int) + _) (by omega)]
    by_cases hc2 : v.vec.ptr * (w : Int) + (a : Int) + (n : Int) ≤ i
    · rw [if_pos ⟨by omega, hc.2⟩, List.getElem?_append, if_neg (by omega), hn2, slice_get, if_pos (by omega),
        show i - (n : Int) = v.vec.ptr * (w : Int) + (i - (n : Int) - v.vec.ptr * (w : Int)) by omega, hr.bit (by omega) (by omega)]
      congr 1; omega
    · rw [List.getElem?_append (l₁ := vacatedR w l a b n), if_pos (c := _ < (vacatedR w l a b n).length) (by omega)]
      unfold vacatedR
      by_cases hc3 : a / w = (b - 1) / w
      · have hz : leakedElems w a b n = 0 := by
          unfold leakedElems
          rw [if_neg]
          rintro ⟨_, hx⟩
          have := Nat.div_le_div_right (c := w) (show b - n ≤ b - 1 by omega)
          omega
        rw [if_neg (by omega), if_pos ⟨hc.1, by omega, (elem_word_iff hw _ (by omega)).2 hc3⟩, if_pos hc3, List.getElem?_replicate,
          if_pos (by omega)]
      · rw [if_neg (c := _ ∧ _ ∧ _ / _ = _) (fun hx => hc3 ((elem_word_iff hw _ (by omega)).1 hx.2.2)), if_neg hc3, List.getElem?_append,
          slice_length _ (by omega)]
        by_cases hc4 : v.vec.ptr * (w : Int) + (a : Int) + (n : Int) - (leakedElems w a b n : Int) ≤ i
        · rw [if_pos ⟨hc4, hc.2⟩, if_neg (by omega), slice_get, if_pos (by omega),
            show i - (n : Int) = v.vec.ptr * (w : Int) + (i - (n : Int) - v.vec.ptr * (w : Int)) by omega, hr.bit (by omega) (by omega)]
          congr 1; omega
        · rw [if_neg (fun hx => hc4 hx.1), if_pos (by omega), slice_get, if_pos (by omega),
            show i = v.vec.ptr * (w : Int) + (i - v.vec.ptr * (w : Int)) by omega, hr.bit (by omega) (by omega)]
          congr 1; omega
  · rw [if_neg (by omega), if_neg (by omega), if_neg (by omega)]

example : exH.WF ∧ Rep exH exV exL ∧ IsPos exV (exV.begin.add 0 : BitIter 8) 0 ∧ IsPos exV (exV.begin.add 11 : BitIter 8) 11 ∧ 0 < 9 ∧ 0 + 9 < 11 ∧
    11 ≤ exL.length ∧ ¬ (0 % 8 = 0 ∧ 11 - 0 = 8) :=
  ⟨exH_wf, exRep, exPart.2.1, exPart.2.2.2.2.2, by decide, by decide, by decide, by decide⟩

/-- The elements before the range are copied into it when the shift is by a whole word and starts inside a word. -/
example : let l := [true, true, false] ++ List.replicate 15 false
    leakedElems 8 3 18 8 = 3 ∧ vacatedR 8 l 3 18 8 = [false, false, false, false, false, true, true, false] ∧
      vacatedR 8 exL 0 7 2 = [false, false] ∧ vacatedR 8 exL 0 11 9 = slice exL 0 9 := by decide

/-- C64: `swap_ranges` between two vectors exchanges the elements; nothing else changes. -/
theorem C64_swap_ranges (S : ShiftSem w) (h : Heap w) (v o : BV) (l l2 : List Bool) (first last first2 : BitIter w) (a b k : Nat)
    (hr : Rep h v l) (hr2 : Rep h o l2) (hsep : Sep w v.vec o.vec) (hf : IsPos v first a) (hl : IsPos v last b)
    (hf2 : IsPos o first2 k) (hab : a ≤ b) (hb : b ≤ l.length) (hk : k + (b - a) ≤ l2.length) :
    ∃ it m', onMem (swapRanges S first last first2) h = .ok (it, { h with mem := m' }) ∧ IsPos o it (k + (b - a)) ∧
      Rep { h with mem := m' } v (splice l a (slice l2 k (k + (b - a)))) ∧ Rep { h with mem := m' } o (splice l2 k (slice l a b)) ∧
      SameMapped h.mem m' ∧
      (∀ i, (i < first.addr ∨ last.addr ≤ i) → (i < first2.addr ∨ it.addr ≤ i) → bitAt m' i = bitAt h.mem i) := by
  have h1 := hf.2
  have h2 := hl.2
  have h0 := hf2.2
  have f1 := hr.fitInt
  have f2 := hr2.fitInt
  have c1 := nat_mul_cast_le (w := w) hr.ok.cap
  have c2 := nat_mul_cast_le (w := w) hr2.ok.cap
  have hs := hr.holds hf hl hab hb
  have hlen := hs.lenEq
  have n1 := slice_length l (a := a) hb
  have n2 := slice_length l2 (a := k) hk
  have hdisj : v.vec.ptr * (w : Int) + (l.length : Int) ≤ o.vec.ptr * (w : Int) ∨ o.vec.ptr * (w : Int) + (l2.length : Int) ≤ v.vec.ptr * (w : Int) ∨
      l.length = 0 ∨ l2.length = 0 := by
    rcases hsep with hc | hc | hc | hc
    · rw [hc, Int.natCast_zero, Int.zero_mul] at c1; right; right; left; omega
    · rw [hc, Int.natCast_zero, Int.zero_mul] at c2; right; right; right; omega
    · left; omega
    · right; left; omega
  obtain ⟨it, m', e, h3, h4, h5⟩ := C22_swap_ranges S h.mem first last first2 hs.range (hr2.dest hf2 (by omega)) (by omega)
  rw [hlen] at h4 h5
  have hb1 : ∀ j : Nat, j < l.length → bitAt m' (v.vec.ptr * (w : Int) + (j : Int)) = (splice l a (slice l2 k (k + (b - a))))[j]? := by
    intro j hj
    rw [h5, splice_get _ _ (by omega), n2]
    by_cases hc : a ≤ j ∧ j < a + (b - a)
    · rw [if_pos (by omega), if_pos (by omega), slice_get, if_pos (by omega),
        show first2.addr + (v.vec.ptr * (w : Int) + (j : Int) - first.addr) = o.vec.ptr * (w : Int) + ((k + (j - a) : Nat) : Int) by omega,
        hr2.bit (by omega) (by omega)]
      congr 1
    · rw [if_neg (by omega), if_neg (by omega), if_neg (by omega), hr.bit (by omega) (by omega)]
      congr 1
  have hb2 : ∀ j : Nat, j < l2.length → bitAt m' (o.vec.ptr * (w : Int) + (j : Int)) = (splice l2 k (slice l a b))[j]? := by
    intro j hj
    rw [h5, splice_get _ _ (by omega), n1]
    by_cases hc : k ≤ j ∧ j < k + (b - a)
    · rw [if_neg (by omega), if_pos (by omega), if_pos (by omega), slice_get, if_pos (by omega),
        show first.addr + (o.vec.ptr * (w : Int) + (j : Int) - first2.addr) = v.vec.ptr * (w : Int) + ((a + (j - k) : Nat) : Int) by omega,
        hr.bit (by omega) (by omega)]
      congr 1
    · rw [if_neg (by omega), if_neg (by omega), if_neg (by omega), hr2.bit (by omega) (by omega)]
      congr 1
  have hsm : SameMapped h.mem m' := by
    intro i
    rw [h5 i]
    split_ifs with g1 g2
    · rw [hr2.dest hf2 (n := ((b - a : Nat) : Int)) (by omega) |>.mapped _ (by omega) (by omega), hs.range.mapped i (by omega) (by omega)]
    · rw [hs.range.mapped _ (by omega) (by omega), hr2.dest hf2 (n := ((b - a : Nat) : Int)) (by omega) |>.mapped _ (by omega) (by omega)]
    · rfl
  refine ⟨it, m', by unfold onMem; rw [e], ⟨h3, by omega⟩, ?_, ?_, hsm, fun i g1 g2 => ?_⟩
  · refine ⟨hr.ok.ofMem hsm, by rw [splice_length _ _ (by omega), hr.len], hr.fit, fun i hi => ?_⟩
    rw [splice_length _ _ (by omega)] at hi
    dsimp only
    rw [hb1 i hi, List.getElem?_eq_getElem]
  · refine ⟨hr2.ok.ofMem hsm, by rw [splice_length _ _ (by omega), hr2.len], hr2.fit, fun i hi => ?_⟩
    rw [splice_length _ _ (by omega)] at hi
    dsimp only
    rw [hb2 i hi, List.getElem?_eq_getElem]
  · rw [h5 i, if_neg (by omega), if_neg (by omega)]

/-- Two vectors in one heap. -/
def exH2 : Heap 8 := ⟨memOf [0xA5#8, 0x03#8, 0x0F#8], 3⟩
def exW : BV := ⟨⟨2, 1, 1⟩, 6⟩

theorem exRep2 : Rep exH2 exV exL ∧ Rep exH2 exW [true, true, true, true, false, false] := by
  refine ⟨⟨⟨by decide, by decide, ?_⟩, rfl, by decide, by decide⟩, ⟨⟨by decide, by decide, ?_⟩, rfl, by decide, by decide⟩⟩
  · exact mapped_memOf (by decide) (by decide) (by decide)
  · exact mapped_memOf (by decide) (by decide) (by decide)

example : Rep exH2 exV exL ∧ Rep exH2 exW [true, true, true, true, false, false] ∧ Sep 8 exV.vec exW.vec ∧
    IsPos exV (exV.begin.add 6 : BitIter 8) 6 ∧ IsPos exV (exV.begin.add 11 : BitIter 8) 11 ∧ IsPos exW (exW.begin.add 1 : BitIter 8) 1 ∧ 6 ≤ 11 ∧
    11 ≤ exL.length ∧ 1 + (11 - 6) ≤ 6 :=
  ⟨exRep2.1, exRep2.2, .inr (.inr (.inl (by decide))), exPart.2.2.2.1, exPart.2.2.2.2.2, IsPos.begin_add (by decide) exW 1, by decide, by decide, by decide⟩

/-- C64: `swap_ranges` of two disjoint parts of one vector. -/
theorem C64_swap_ranges_same (S : ShiftSem w) (h : Heap w) (v : BV) (l : List Bool) (first last first2 : BitIter w) (a b k : Nat)
    (hwf : h.WF) (hr : Rep h v l) (hf : IsPos v first a) (hl : IsPos v last b) (hf2 : IsPos v first2 k) (hab : a ≤ b) (hb : b ≤ l.length)
    (hk : k + (b - a) ≤ l.length) (hdis : b ≤ k ∨ k + (b - a) ≤ a) :
    ∃ it h', onMem (swapRanges S first last first2) h = .ok (it, h') ∧ IsPos v it (k + (b - a)) ∧ VStep h v.vec h' v.vec ∧
      Rep h' v (splice (splice l a (slice l k (k + (b - a)))) k (slice l a b)) := by
  have h1 := hf.2
  have h2 := hl.2
  have h0 := hf2.2
  have hs := hr.holds hf hl hab hb
  have hlen := hs.lenEq
  have n1 := slice_length l (a := a) hb
  have n2 := slice_length l (a := k) hk
  have n3 := splice_length l (slice l k (k + (b - a))) (k := a) (by omega)
  obtain ⟨it, m', e, h3, h4, h5⟩ := C22_swap_ranges S h.mem first last first2 hs.range (hr.dest hf2 (by omega)) (by omega)
  rw [hlen] at h4 h5
  refine ⟨it, { h with mem := m' }, by unfold onMem; rw [e], ⟨h3, by omega⟩, hr.update hwf (by rw [splice_length _ _ (by omega), n3]) (fun i hi => ?_) (fun j hj => ?_)⟩
  · rw [h5 i, if_neg (by omega), if_neg (by omega)]
  · rw [h5, splice_get _ _ (by omega), n1]
    by_cases hc : k ≤ j ∧ j < k + (b - a)
    · rw [if_neg (by omega), if_pos (by omega), if_pos (by omega), slice_get, if_pos (by omega),
        show first.addr + (v.vec.ptr * (w : Int) + (j : Int) - first2.addr) = v.vec.ptr * (w : Int) + ((a + (j - k) : Nat) : Int) by omega,
        hr.bit (by omega) (by omega)]
      congr 1
    · rw [if_neg hc, splice_get _ _ (by omega), n2]
      by_cases hc2 : a ≤ j ∧ j < a + (b - a)
      · rw [if_pos (by omega), if_pos (by omega), slice_get, if_pos (by omega),
          show first2.addr + (v.vec.ptr * (w : Int) + (j : Int) - first.addr) = v.vec.ptr * (w : Int) + ((k + (j - a) : Nat) : Int) by omega,
          hr.bit (by omega) (by omega)]
        congr 1
      · rw [if_neg (by omega), if_neg (by omega), if_neg (by omega), hr.bit (by omega) (by omega)]
        congr 1

example : exH.WF ∧ Rep exH exV exL ∧ IsPos exV (exV.begin.add 2 : BitIter 8) 2 ∧ IsPos exV (exV.begin.add 6 : BitIter 8) 6 ∧
    IsPos exV (exV.begin.add 7 : BitIter 8) 7 ∧ 2 ≤ 6 ∧ 6 ≤ exL.length ∧ 7 + (6 - 2) ≤ exL.length ∧ 6 ≤ 7 ∧
    splice (splice exL 2 (slice exL 7 11)) 7 (slice exL 2 6) = [true, false, true, true, true, false, false, true, false, false, true] :=
  ⟨exH_wf, exRep, exPart.2.2.1, exPart.2.2.2.1, exPart.2.2.2.2.1, by decide, by decide, by decide, by decide, by decide⟩

end BitLib
