import Verif.Lemmas.Map2
import Verif.Lemmas.CopyBackward
import Verif.Props.Run
/-
C06 copy, C07 footprint of copy, C08 move, C09 copy_backward, C23 and C24 transform.
`S` ranges over all shift semantics, so every `ok` below also shows that no oversized shift is performed.
-/
namespace BitLib
variable {w : Nat}

/-- C06: `copy` returns `d + (last - first)`, the destination receives the old source bits, nothing else changes. -/
theorem C06_copy (S : ShiftSem w) (m : Mem w) (first last d : BitIter w) (hr : Range m first last)
    (hd : Dest m d (len first last)) (hov : d.addr ≤ first.addr ∨ last.addr ≤ d.addr) :
    ∃ r m', copy S first last d m = .ok (r, m') ∧ r.Valid ∧ r.addr = d.addr + len first last ∧
      Copied m m' first.addr d.addr (len first last) :=
  wp_copy S hr.1 hr.2 hd.1 hr.3 hr.4 hd.2 hov (Q := fun r m' => r.Valid ∧ r.addr = d.addr + len first last ∧
      Copied m m' first.addr d.addr (len first last)) (fun _ _ h1 h2 h3 => ⟨h1, h2, h3⟩)

/-- The hypotheses of C06 hold for a non-trivial case: 13 bits from bit 5 of word 1 to bit 3 of word 0 (overlapping). -/
example : Range (memOf [0xa5#8, 0x3c#8, 0x99#8, 0x0f#8]) ⟨1, 5⟩ ⟨3, 2⟩ ∧
    Dest (memOf [0xa5#8, 0x3c#8, 0x99#8, 0x0f#8]) ⟨0, 3⟩ (len (⟨1, 5⟩ : BitIter 8) ⟨3, 2⟩) ∧
    ((⟨0, 3⟩ : BitIter 8).addr ≤ (⟨1, 5⟩ : BitIter 8).addr) :=
  ⟨range_memOf (by decide) (by decide) (by decide) (by decide) (by decide), dest_memOf (by decide) (by decide) (by decide), by decide⟩

example : runOn (copy S8 ⟨1, 5⟩ ⟨3, 2⟩ ⟨0, 3⟩) [0xa5#8, 0x3c#8, 0x99#8, 0x0f#8]
    = .ok (⟨2, 0⟩, [0x4d#8, 0xe6#8, 0x99#8, 0x0f#8]) := by decide +kernel

/-- C07: `copy` runs to completion in the memory where only the words of its two ranges are accessible. -/
theorem C07_copy_footprint (S : ShiftSem w) (m : Mem w) (first last d : BitIter w) (hr : Range m first last)
    (hd : Dest m d (len first last)) (hov : d.addr ≤ first.addr ∨ last.addr ≤ d.addr) :
    ∃ r m', copy S first last d (m.only fun c => HoldsBit w first.addr last.addr c ∨
      HoldsBit w d.addr (d.addr + len first last) c) = .ok (r, m') := by
  obtain ⟨r, m', h, _⟩ := C06_copy S _ first last d (hr.only (fun c h => Or.inl h)) (hd.only (fun c h => Or.inr h)) hov
  exact ⟨r, m', h⟩

/-- C07: words that hold no bit of the destination keep their value (and stay unmapped if they were). -/
theorem C07_copy_writes (S : ShiftSem w) (m : Mem w) (first last d : BitIter w) (hr : Range m first last)
    (hd : Dest m d (len first last)) (hov : d.addr ≤ first.addr ∨ last.addr ≤ d.addr) :
    ∃ r m', copy S first last d m = .ok (r, m') ∧ ∀ c, ¬ HoldsBit w d.addr (d.addr + len first last) c → m' c = m c := by
  have hw : 0 < w := Nat.lt_of_le_of_lt (Nat.zero_le _) hr.1
  obtain ⟨r, m', h, _, _, hc⟩ := C06_copy S m first last d hr hd hov
  refine ⟨r, m', h, ?_⟩
  intro c hn
  have hb : ∀ p : Nat, p < w → bitAt m' (c * w + p) = bitAt m (c * w + p) := by
    intro p hp
    rw [hc, if_neg]
    rintro ⟨h1, h2⟩
    exact hn ⟨_, h1, h2, ediv_of_word c p hp⟩
  have h0 := hb 0 hw
  rw [bitAt_word _ _ _ hw, bitAt_word _ _ _ hw] at h0
  cases hm : m c with
  | none => rw [hm] at h0; simpa using h0
  | some x =>
    cases hm' : m' c with
    | none => rw [hm, hm'] at h0; simp at h0
    | some y =>
      congr 1
      apply BitVec.eq_of_getLsbD_eq
      intro i hi
      have := hb i hi
      rw [bitAt_word _ _ _ hi, bitAt_word _ _ _ hi, hm, hm'] at this
      simpa using this

/-- The restricted memory of C07 really forbids the neighbouring words: here word 3 is not accessible. -/
example : ¬ HoldsBit 8 (⟨0, 3⟩ : BitIter 8).addr (⟨2, 1⟩ : BitIter 8).addr 3 := by
  rintro ⟨i, h1, h2, h3⟩
  simp only [BitIter.addr] at h1 h2
  omega

/-- C08: `move` has the effect of `copy`. -/
theorem C08_move (S : ShiftSem w) (m : Mem w) (first last d : BitIter w) (hr : Range m first last)
    (hd : Dest m d (len first last)) (hov : d.addr ≤ first.addr ∨ last.addr ≤ d.addr) :
    ∃ r m', move S first last d m = .ok (r, m') ∧ r.Valid ∧ r.addr = d.addr + len first last ∧
      Copied m m' first.addr d.addr (len first last) :=
  wp_move S hr.1 hr.2 hd.1 hr.3 hr.4 hd.2 hov (Q := fun r m' => r.Valid ∧ r.addr = d.addr + len first last ∧
      Copied m m' first.addr d.addr (len first last)) (fun _ _ h1 h2 h3 => ⟨h1, h2, h3⟩)

/-- C08: `move` and `copy` are observably the same operation. -/
theorem C08_move_eq_copy (S : ShiftSem w) (m : Mem w) (first last d : BitIter w) (hr : Range m first last)
    (hd : Dest m d (len first last)) (hov : d.addr ≤ first.addr ∨ last.addr ≤ d.addr) :
    move S first last d m = copy S first last d m := by
  have hw : 0 < w := Nat.lt_of_le_of_lt (Nat.zero_le _) hr.1
  obtain ⟨r, m1, h1, v1, a1, c1⟩ := C08_move S m first last d hr hd hov
  obtain ⟨r', m2, h2, v2, a2, c2⟩ := C06_copy S m first last d hr hd hov
  rw [h1, h2]
  have hr' : r = r' := BitIter.addr_inj v1 v2 (by omega)
  have hm' : m1 = m2 := mem_ext_bitAt hw (fun i => by rw [c1 i, c2 i])
  rw [hr', hm']

/-- C09: `copy_backward`. `hS`: if the source starts at a word boundary, spans two or more word boundaries and both ends have the same
position in their word, the code shifts by the word width, which is undefined for 32/64-bit words (C18). -/
theorem C09_copy_backward (S : ShiftSem w) (m : Mem w) (first last d : BitIter w) (hr : Range m first last)
    (hd : d.Valid) (hdm : Mapped m (d.addr - len first last) d.addr) (hov : last.addr ≤ d.addr ∨ d.addr ≤ first.addr)
    (hS : ¬ (first.pos = 0 ∧ last.pos = d.pos ∧ first.base + 2 ≤ last.base) ∨ S.FullShiftOk) :
    ∃ r m', copyBackward S first last d m = .ok (r, m') ∧ r.Valid ∧ r.addr = d.addr - len first last ∧
      Copied m m' first.addr (d.addr - len first last) (len first last) :=
  wp_copyBackward S hr.1 hr.2 hd hr.3 hS hr.4 hdm hov
    (Q := fun r m' => r.Valid ∧ r.addr = d.addr - len first last ∧
      Copied m m' first.addr (d.addr - len first last) (len first last)) (fun _ _ h1 h2 h3 => ⟨h1, h2, h3⟩)

/-- C09 for the C++ machine (every oversized shift gives some word): no side condition on alignment. -/
theorem C09_copy_backward_lenient (S : ShiftSem w) (hS : S.Lenient) (m : Mem w) (first last d : BitIter w)
    (hr : Range m first last) (hd : d.Valid) (hdm : Mapped m (d.addr - len first last) d.addr)
    (hov : last.addr ≤ d.addr ∨ d.addr ≤ first.addr) :
    ∃ r m', copyBackward S first last d m = .ok (r, m') ∧ r.Valid ∧ r.addr = d.addr - len first last ∧
      Copied m m' first.addr (d.addr - len first last) (len first last) :=
  C09_copy_backward S m first last d hr hd hdm hov (Or.inr (Or.inr hS))

/-- C09: only words of the two ranges are accessed. -/
theorem C09_copy_backward_footprint (S : ShiftSem w) (m : Mem w) (first last d : BitIter w) (hr : Range m first last)
    (hd : d.Valid) (hdm : Mapped m (d.addr - len first last) d.addr) (hov : last.addr ≤ d.addr ∨ d.addr ≤ first.addr)
    (hS : ¬ (first.pos = 0 ∧ last.pos = d.pos ∧ first.base + 2 ≤ last.base) ∨ S.FullShiftOk) :
    ∃ r m', copyBackward S first last d (m.only fun c => HoldsBit w first.addr last.addr c ∨
      HoldsBit w (d.addr - len first last) d.addr c) = .ok (r, m') := by
  obtain ⟨r, m', h, _⟩ := C09_copy_backward S _ first last d (hr.only (fun c h => Or.inl h)) hd (hdm.only (fun c h => Or.inr h)) hov hS
  exact ⟨r, m', h⟩

example : Range (memOf [0xa5#8, 0x3c#8, 0x99#8, 0x0f#8]) ⟨0, 3⟩ ⟨2, 2⟩ ∧
    Mapped (memOf [0xa5#8, 0x3c#8, 0x99#8, 0x0f#8]) ((⟨3, 4⟩ : BitIter 8).addr - len (⟨0, 3⟩ : BitIter 8) ⟨2, 2⟩) (⟨3, 4⟩ : BitIter 8).addr ∧
    (⟨2, 2⟩ : BitIter 8).addr ≤ (⟨3, 4⟩ : BitIter 8).addr ∧ S8.FullShiftOk :=
  ⟨range_memOf (by decide) (by decide) (by decide) (by decide) (by decide), mapped_memOf (by decide) (by decide) (by decide), by decide,
    Or.inl (by decide)⟩

example : runOn (copyBackward S8 ⟨0, 3⟩ ⟨2, 2⟩ ⟨3, 4⟩) [0xa5#8, 0x3c#8, 0x99#8, 0x0f#8]
    = .ok (⟨1, 5⟩, [0xa5#8, 0x9c#8, 0xf2#8, 0x04#8]) := by decide +kernel

/-- C23: unary `transform` with a word operation that acts bit by bit as `f`. -/
theorem C23_transform (S : ShiftSem w) (op : BitVec w → BitVec w) (f : Bool → Bool)
    (hop : ∀ x i, i < w → (op x).getLsbD i = f (x.getLsbD i)) (m : Mem w) (first last d : BitIter w)
    (hr : Range m first last) (hd : Dest m d (len first last)) (hov : d.addr ≤ first.addr ∨ last.addr ≤ d.addr) :
    ∃ r m', transform S op first last d m = .ok (r, m') ∧ r.Valid ∧ r.addr = d.addr + len first last ∧
      Mapd f m m' first.addr d.addr (len first last) :=
  wp_transform S hop hr.1 hr.2 hd.1 hr.3 hr.4 hd.2 hov (Q := fun r m' => r.Valid ∧ r.addr = d.addr + len first last ∧
      Mapd f m m' first.addr d.addr (len first last)) (fun _ _ h1 h2 h3 => ⟨h1, h2, h3⟩)

/-- C23, the library's typical use: in-place complement flips exactly the bits of the range. -/
theorem C23_transform_not_inplace (S : ShiftSem w) (m : Mem w) (first last : BitIter w) (hr : Range m first last) :
    ∃ r m', transform S (fun x => ~~~x) first last first m = .ok (r, m') ∧ r = last ∧
      ∀ i, bitAt m' i = if first.addr ≤ i ∧ i < last.addr then (bitAt m i).map (!·) else bitAt m i := by
  obtain ⟨r, m', h, hv, ha, hm⟩ := C23_transform S (fun x => ~~~x) (!·) (by intro x i hi; simp [hi]) m first last first hr
    ⟨hr.1, by unfold len; rw [show first.addr + (last.addr - first.addr) = last.addr by omega]; exact hr.4⟩ (Or.inl (by omega))
  refine ⟨r, m', h, BitIter.addr_inj hv hr.2 (by unfold len at ha; omega), ?_⟩
  intro i
  rw [hm i]
  unfold len
  beta_reduce
  rw [show first.addr + (last.addr - first.addr) = last.addr by omega, show first.addr + (i - first.addr) = i by omega]

/-- C23: only words of the ranges are accessed. -/
theorem C23_transform_footprint (S : ShiftSem w) (op : BitVec w → BitVec w) (f : Bool → Bool)
    (hop : ∀ x i, i < w → (op x).getLsbD i = f (x.getLsbD i)) (m : Mem w) (first last d : BitIter w)
    (hr : Range m first last) (hd : Dest m d (len first last)) (hov : d.addr ≤ first.addr ∨ last.addr ≤ d.addr) :
    ∃ r m', transform S op first last d (m.only fun c => HoldsBit w first.addr last.addr c ∨
      HoldsBit w d.addr (d.addr + len first last) c) = .ok (r, m') := by
  obtain ⟨r, m', h, _⟩ := C23_transform S op f hop _ first last d (hr.only (fun c h => Or.inl h)) (hd.only (fun c h => Or.inr h)) hov
  exact ⟨r, m', h⟩

example : ∀ (x : BitVec 16) i, i < 16 → (~~~x).getLsbD i = !(x.getLsbD i) := by intro x i hi; simp [hi]

example : runOn (transform S8 (fun x => ~~~x) ⟨0, 5⟩ ⟨1, 4⟩ ⟨0, 5⟩) [0xa5#8, 0x3c#8]
    = .ok (⟨1, 4⟩, [0x45#8, 0x33#8]) := by decide +kernel

/-- C24: binary `transform` with a word operation that acts bit by bit as `f`. -/
theorem C24_transform2 (S : ShiftSem w) (op : BitVec w → BitVec w → BitVec w) (f : Bool → Bool → Bool)
    (hop : ∀ x y i, i < w → (op x y).getLsbD i = f (x.getLsbD i) (y.getLsbD i)) (m : Mem w)
    (first1 last1 first2 d : BitIter w) (hr : Range m first1 last1) (h2 : Dest m first2 (len first1 last1))
    (hd : Dest m d (len first1 last1)) (hov : d.addr ≤ first1.addr ∨ last1.addr ≤ d.addr)
    (hov2 : d.addr ≤ first2.addr ∨ first2.addr + len first1 last1 ≤ d.addr) :
    ∃ r m', transform2 S op first1 last1 first2 d m = .ok (r, m') ∧ r.Valid ∧ r.addr = d.addr + len first1 last1 ∧
      Mapd2 f m m' first1.addr first2.addr d.addr (len first1 last1) :=
  wp_transform2 S hop hr.1 hr.2 h2.1 hd.1 hr.3 hr.4 h2.2 hd.2 hov hov2
    (Q := fun r m' => r.Valid ∧ r.addr = d.addr + len first1 last1 ∧
      Mapd2 f m m' first1.addr first2.addr d.addr (len first1 last1)) (fun _ _ h1 h2 h3 => ⟨h1, h2, h3⟩)

/-- C24: only words of the ranges are accessed. -/
theorem C24_transform2_footprint (S : ShiftSem w) (op : BitVec w → BitVec w → BitVec w) (f : Bool → Bool → Bool)
    (hop : ∀ x y i, i < w → (op x y).getLsbD i = f (x.getLsbD i) (y.getLsbD i)) (m : Mem w)
    (first1 last1 first2 d : BitIter w) (hr : Range m first1 last1) (h2 : Dest m first2 (len first1 last1))
    (hd : Dest m d (len first1 last1)) (hov : d.addr ≤ first1.addr ∨ last1.addr ≤ d.addr)
    (hov2 : d.addr ≤ first2.addr ∨ first2.addr + len first1 last1 ≤ d.addr) :
    ∃ r m', transform2 S op first1 last1 first2 d (m.only fun c => HoldsBit w first1.addr last1.addr c ∨
      HoldsBit w first2.addr (first2.addr + len first1 last1) c ∨
      HoldsBit w d.addr (d.addr + len first1 last1) c) = .ok (r, m') := by
  obtain ⟨r, m', h, _⟩ := C24_transform2 S op f hop _ first1 last1 first2 d (hr.only (fun c h => Or.inl h))
    (h2.only (fun c h => Or.inr (Or.inl h))) (hd.only (fun c h => Or.inr (Or.inr h))) hov hov2
  exact ⟨r, m', h⟩

example : (∀ (x y : BitVec 8) i, i < 8 → (x ^^^ y).getLsbD i = (x.getLsbD i ^^ y.getLsbD i)) ∧
    Range (memOf [0xa5#8, 0x3c#8, 0x99#8, 0x0f#8]) ⟨0, 3⟩ ⟨1, 5⟩ ∧
    Dest (memOf [0xa5#8, 0x3c#8, 0x99#8, 0x0f#8]) ⟨2, 1⟩ (len (⟨0, 3⟩ : BitIter 8) ⟨1, 5⟩) ∧
    Dest (memOf [0xa5#8, 0x3c#8, 0x99#8, 0x0f#8]) ⟨0, 3⟩ (len (⟨0, 3⟩ : BitIter 8) ⟨1, 5⟩) :=
  ⟨by intro x y i _; simp, range_memOf (by decide) (by decide) (by decide) (by decide) (by decide),
    dest_memOf (by decide) (by decide) (by decide), dest_memOf (by decide) (by decide) (by decide)⟩

example : runOn (transform2 S8 (fun x y => x ^^^ y) ⟨0, 3⟩ ⟨1, 5⟩ ⟨2, 1⟩ ⟨0, 3⟩) [0xa5#8, 0x3c#8, 0x99#8, 0x0f#8]
    = .ok (⟨1, 5⟩, [0xc5#8, 0x22#8, 0x99#8, 0x0f#8]) := by decide +kernel

end BitLib
