import Verif.Lemmas.Cpp20Rot
import Verif.Lemmas.BVec2
/-
C96 for `bit_vector`: `insert` and `erase` in a C++20 build.
-/
namespace BitLib
variable {w : Nat}

/-- What a right shift in a C++20 build may do to the bits `l` of a vector when it opens a gap of `n` bits at `d`: only bits before `d` in the
word of `d` may change, and only when the insertion moves whole words from inside a word. -/
structure Gapped (J : Vacated w) (d n : Nat) (l l' : List Bool) : Prop where
  len : l'.length = l.length
  after : l'.drop d = l.drop d
  before : l'.take (d / w * w) = l.take (d / w * w)
  same : ¬ InsertSpoils w d n l.length → l' = l
  flip : J = Vacated.flip → InsertSpoils w d n l.length → l' ≠ l

theorem Gapped.refl {J : Vacated w} {d n : Nat} {l : List Bool} (h : ¬ InsertSpoils w d n l.length) : Gapped J d n l l :=
  ⟨rfl, rfl, rfl, fun _ => rfl, fun _ h' => absurd h' h⟩

/-- The list read from memory. -/
theorem exists_list {m : Mem w} {a : Int} (n : Nat) (hm : Mapped m a (a + n)) : ∃ l : List Bool, l.length = n ∧
    ∀ j : Int, 0 ≤ j → j < n → bitAt m (a + j) = l[j.toNat]? := by
  refine ⟨List.ofFn fun i : Fin n => (bitAt m (a + (i : Nat))).getD false, by simp, ?_⟩
  intro j h0 h1
  rw [List.getElem?_ofFn, dif_pos (by omega)]
  have h2 := hm (a + j) (by omega) (by omega)
  have h3 : a + (((⟨j.toNat, by omega⟩ : Fin n) : Nat) : Int) = a + j := by simp; omega
  rw [h3]
  cases hb : bitAt m (a + j) with
  | none => rw [hb] at h2; cases h2
  | some b => rfl

theorem insertSpoils_iff (hw : 0 < w) {p : Int} {d n len : Nat} (hn : 0 < n) :
    InsertSpoils w d n len ↔ d % w ≠ 0 ∧ WordMove w (p * w + d) (p * w + (len + n : Nat)) n := by
  unfold InsertSpoils WordMove
  have e1 : (p * (w : Int) + d) / w = p + (d / w : Nat) := by
    rw [Int.add_comm, Int.add_mul_ediv_right _ _ (by omega)]; push_cast; omega
  have e2 : (p * (w : Int) + (len + n : Nat) - n) / w = p + (len / w : Nat) := by
    rw [show p * (w : Int) + (len + n : Nat) - n = len + p * w by push_cast; omega, Int.add_mul_ediv_right _ _ (by omega)]; push_cast; omega
  rw [e1, e2]
  have e3 : ((n : Int) % w = 0) ↔ n % w = 0 := by exact_mod_cast Iff.rfl
  rw [e3]
  omega

/-- The shift that opens a gap of `n` bits at position `d`, in a C++20 build. -/
theorem wp_gap20 (J : Vacated w) (S : ShiftSem w) (hw : 0 < w) {v : BV} {h : Heap w} {l : List Bool} {d n : Nat} {Q : BitIter w → Mem w → Prop}
    (ok : VecOk h v.vec) (hd : d ≤ l.length) (hlen : v.length = l.length + n) (hn : 0 < n) (hfit : v.length ≤ v.vec.size * w)
    (hb : ∀ j, 0 ≤ j → j < (l.length : Int) → bitAt h.mem (v.vec.ptr * (w : Int) + j) = l[j.toNat]?)
    (hfull : ¬ (d % w = 0 ∧ v.length - d = w ∧ n < w) ∨ S.FullShiftOk)
    (hQ : ∀ r m' l', Gapped J d n l l' → SameMapped h.mem m' →
      (∀ i, (i < v.vec.ptr * (w : Int) ∨ v.vec.ptr * (w : Int) + v.length ≤ i) → bitAt m' i = bitAt h.mem i) →
      (∀ j : Int, 0 ≤ j → j < (d : Int) → bitAt m' (v.vec.ptr * (w : Int) + j) = l'[j.toNat]?) →
      (∀ j : Int, (d : Int) + n ≤ j → j < v.length → bitAt m' (v.vec.ptr * (w : Int) + j) = l'[(j - n).toNat]?) → Q r m') :
    wp (shiftRight20 J S (v.begin.add (d : Int)) (v.begin.add (v.length : Int)) (n : Int)) h.mem Q := by
  have hfi : (v.length : Int) ≤ (v.vec.size : Int) * (w : Int) := by exact_mod_cast hfit
  obtain ⟨p1, p2⟩ := IsPos.begin_add hw v d
  obtain ⟨q1, q2⟩ := IsPos.begin_add hw v v.length
  have hz := (IsPos.begin_add hw v d).pos_zero
  have hiff := insertSpoils_iff (w := w) (p := v.vec.ptr) (d := d) (len := l.length) hw hn
  rw [← hlen, ← p2, ← q2] at hiff
  have hsp : InsertSpoils w d n l.length → d < l.length := by
    rintro ⟨_, _, h3, h4⟩
    have h5 := Nat.div_mul_le_self l.length w
    have h6 := Nat.div_add_mod d w
    rw [Nat.mul_comm] at h6
    have h7 : (d / w + 1) * w ≤ l.length / w * w := Nat.mul_le_mul_right _ h4
    rw [Nat.add_mul] at h7
    have h8 := Nat.mod_lt d hw
    omega
  refine wp_shiftRight20_any J S p1 q1 (by omega) ?_ ?_ (by omega) ?_ ?_
  · intro i h1 h2
    exact ok.mapped i (by omega) (by omega)
  · refine hfull.imp (fun hc h' => hc ⟨hz.1 h'.1, ?_, ?_⟩) id
    · omega
    · omega
  · intro _ h2
    refine hQ _ _ l (Gapped.refl fun hc => ?_) (fun _ => rfl) (fun _ _ => rfl) ?_ ?_
    · have := hsp hc
      omega
    · intro j hj1 hj2
      exact hb j hj1 (by omega)
    · intro j hj1 hj2
      omega
  · intro _ h2 m1 hs
    obtain ⟨s1, s2, s3⟩ := hs
    rw [p2, q2] at s1 s2
    have hmoved : ∀ j : Int, (d : Int) + n ≤ j → j < v.length → bitAt m1 (v.vec.ptr * (w : Int) + j) = l[(j - n).toNat]? := by
      intro j hj1 hj2
      rw [s1 _ (by omega) (by omega)]
      rw [← hb (j - n) (by omega) (by omega)]
      congr 1
      omega
    by_cases hwm : WordMove w ((v.begin : BitIter w).add (d : Int)).addr ((v.begin : BitIter w).add (v.length : Int)).addr n
    · rw [if_pos hwm]
      have hsc := hwm.scale
      generalize hX : J.right ((v.begin : BitIter w).add (d : Int)).base ((v.begin : BitIter w).add (v.length : Int)).base ((n : Int) / w) = X
      have hbase : ((v.begin : BitIter w).add (d : Int)).base = v.vec.ptr + (d / w : Nat) := by
        have h3 : ((v.begin : BitIter w).add (d : Int)).addr / (w : Int) = ((v.begin : BitIter w).add (d : Int)).base :=
          mul_add_ediv hw (by omega) (by have : ((v.begin : BitIter w).add (d : Int)).pos < w := p1; omega)
        rw [p2, Int.add_comm, Int.add_mul_ediv_right _ _ (by omega)] at h3
        rw [← h3]; push_cast; omega
      rw [hbase]
      have hdd : d / w * w ≤ d := Nat.div_mul_le_self d w
      have e1 : (v.vec.ptr + (d / w : Nat)) * (w : Int) = v.vec.ptr * w + (d / w * w : Nat) := by rw [Int.add_mul]; push_cast; rfl
      have e2 : (v.vec.ptr + (d / w : Nat) + (n : Int) / w) * (w : Int) = v.vec.ptr * w + (d / w * w : Nat) + n := by
        rw [Int.add_mul, e1, hsc]
      have hoff : ∀ i, (i < v.vec.ptr * (w : Int) + (d / w * w : Nat) ∨ v.vec.ptr * (w : Int) + (d / w * w : Nat) + n ≤ i) →
          bitAt (scribbled (v.vec.ptr + (d / w : Nat)) (v.vec.ptr + (d / w : Nat) + (n : Int) / w) X m1) i = bitAt m1 i := by
        intro i hi
        exact scribbled_off hw (by rw [e1, e2]; omega)
      have hsame := scribbled_same (a := v.vec.ptr + (d / w : Nat)) (b := v.vec.ptr + (d / w : Nat) + (n : Int) / w) (f := X) (m := m1)
      generalize hm2 : scribbled (v.vec.ptr + (d / w : Nat)) (v.vec.ptr + (d / w : Nat) + (n : Int) / w) X m1 = m2 at hoff hsame ⊢
      have hmap2 : Mapped m2 (v.vec.ptr * (w : Int)) (v.vec.ptr * (w : Int) + d) := by
        intro i h3 h4
        rw [hsame, s3]
        exact ok.mapped i (by omega) (by omega)
      obtain ⟨p, hpl, hpb⟩ := exists_list d hmap2
      have hpl' : p.length = d := hpl
      have hpt : ∀ j, j < d / w * w → p[j]? = l[j]? := by
        intro j hj
        have h3 := hpb j (by omega) (by omega)
        rw [hoff _ (by omega), s2 _ (by omega), hb j (by omega) (by omega)] at h3
        simpa using h3.symm
      refine hQ _ m2 (p ++ l.drop d) ⟨?_, ?_, ?_, ?_, ?_⟩ (fun i => by rw [hsame i, s3 i]) ?_ ?_ ?_
      · simp; omega
      · rw [List.drop_append_of_le_length (by omega), List.drop_eq_nil_of_le (by omega)]; rfl
      · refine List.ext_getElem? fun j => ?_
        rw [List.getElem?_take, List.getElem?_take]
        split_ifs with hj
        · rw [List.getElem?_append_left (by omega)]
          exact hpt j hj
        · rfl
      · intro hno
        have hd0 : d % w = 0 := by
          by_contra hc
          exact hno (hiff.2 ⟨hc, hwm⟩)
        have hdd2 : d / w * w = d := by
          have := Nat.div_add_mod d w
          rw [Nat.mul_comm] at this
          omega
        rw [hdd2] at hpt
        have : p = l.take d := by
          refine List.ext_getElem? fun j => ?_
          rw [List.getElem?_take]
          split_ifs with hj
          · exact hpt j hj
          · exact List.getElem?_eq_none (by omega)
        rw [this, List.take_append_drop]
      · rintro rfl hyes heq
        have h6 := Nat.div_add_mod d w
        rw [Nat.mul_comm] at h6
        have h7 := (hiff.1 hyes).1
        have h3 := hpb (d / w * w : Nat) (by omega) (by omega)
        have h4 : p[(((d / w * w : Nat) : Int)).toNat]? = l[(((d / w * w : Nat) : Int)).toNat]? := by
          rw [← List.getElem?_append_left (l₂ := l.drop d) (by omega), heq]
        rw [h4, ← hb _ (by omega) (by omega), ← s2 _ (.inl (by omega)), ← hm2] at h3
        unfold scribbled at h3
        have e3 : (v.vec.ptr * (w : Int) + (d / w * w : Nat)) / w = v.vec.ptr + (d / w : Nat) := by
          rw [← e1, Int.mul_ediv_cancel _ (by omega)]
        have e4 : (v.vec.ptr * (w : Int) + (d / w * w : Nat)) % w = 0 := by
          rw [← e1]; exact Int.mul_emod_left _ _
        have hpos : 0 < (n : Int) / w := by
          by_contra hc
          have := Int.mul_le_mul_of_nonneg_right (show (n : Int) / (w : Int) ≤ 0 by omega) (show (0 : Int) ≤ w by omega)
          omega
        rw [bitAt_scribble, e3, if_pos (by omega), e4] at h3
        have h5 := ok.mapped (v.vec.ptr * (w : Int) + (d / w * w : Nat)) (by omega) (by omega)
        rw [← s3] at h5
        unfold bitAt at h3 h5
        rw [e3, e4] at h3
        rw [e3] at h5
        rw [← hX] at h3
        cases hc : m1 (v.vec.ptr + (d / w : Nat)) with
        | none => rw [hc] at h5; cases h5
        | some y =>
          simp only [Vacated.flip, hc] at h3
          simp [hw] at h3
      · intro i hi
        rw [hoff i (by omega), s2 i (by omega)]
      · intro j hj1 hj2
        rw [List.getElem?_append_left (by omega)]
        exact hpb j hj1 hj2
      · intro j hj1 hj2
        rw [hoff _ (by omega), hmoved j hj1 hj2, List.getElem?_append_right (by omega), List.getElem?_drop]
        congr 1; omega
    · rw [if_neg hwm]
      refine hQ _ m1 l (Gapped.refl fun hc => hwm (hiff.1 hc).2) s3 ?_ ?_ hmoved
      · intro i hi
        exact s2 i (by omega)
      · intro j hj1 hj2
        rw [s2 _ (by omega)]
        exact hb j hj1 (by omega)

theorem wpV_insert20 (J : Vacated w) (S : ShiftSem w) (hw : 0 < w) {P : Policy} {v : BV} {h : Heap w} {l : List Bool} {b : Bool} {pos : BitIter w}
    {d : Nat} {Q : BV × BitIter w → Heap w → Prop}
    (hwf : h.WF) (hr : Rep h v l) (hp : IsPos v pos d) (hd : d ≤ l.length)
    (hfull : ¬ (d % w = 0 ∧ l.length + 1 - d = w ∧ 1 < w) ∨ S.FullShiftOk)
    (hQ : ∀ v' it h' l', Gapped J d 1 l l' → VStep h v.vec h' v'.vec → Rep h' v' (l'.take d ++ [b] ++ l'.drop d) → IsPos v' it d → Q (v', it) h') :
    wpV (v.insert20 J S P pos b) h Q := by
  have hl := hr.len
  obtain ⟨hp1, hp2⟩ := hp
  unfold BV.insert20
  rw [wpV_bind]
  refine wpV_onMem ?_
  rw [wp_distance]
  refine ⟨by rw [BV.begin_addr]; omega, ?_⟩
  rw [BV.begin_addr, show pos.addr - v.vec.ptr * (w : Int) = (d : Int) by omega]
  show wpV _ h Q
  rw [wpV_bind]
  refine wpV_room hw hwf hr ?_
  intro vec h1 s1 o1 hf1 hb1
  have hfi : (v.length : Int) + 1 ≤ (vec.size : Int) * (w : Int) := by exact_mod_cast hf1
  dsimp only
  rw [wpV_bind]
  refine wpV_onMem ?_
  refine wp_gap20 (v := ⟨vec, v.length + 1⟩) (n := 1) J S hw o1 hd (by dsimp only; omega) (by omega) hf1 hb1 ?_ ?_
  · dsimp only
    rw [hl]; exact hfull
  intro r m2 l' gp hs2 hb2 hb5 hb3
  dsimp only at hb2 hb3 hb5
  have hgl := gp.len
  have s2 : VStep h1 vec { h1 with mem := m2 } vec := VStep.ofMem s1.wf o1 (fun i hi => hb2 i (by omega))
  have o2 := o1.ofMem hs2
  rw [wpV_bind_assoc]
  refine wpV_setBit (v := ⟨vec, v.length + 1⟩) S hw s2.wf o2 (by omega) (by dsimp only; omega) ?_
  intro h3 s3 o3 hb4
  refine wpV_pure (hQ _ _ h3 l' gp ((s1.trans s2).trans s3) (Rep.of o3 ?_ hf1 ?_) (IsPos.begin_add hw _ d))
  · simp [hl]; omega
  · intro j h0 h2
    simp at h2
    dsimp only at hb4 ⊢
    rw [hb4 j, getElem?_splice _ _ _ _ (by omega)]
    simp only [List.length_singleton]
    split_ifs with c1 c2 c3 c2 c3
    · omega
    · rw [show j.toNat - d = 0 by omega]; rfl
    · omega
    · exact hb5 j h0 (by omega)
    · omega
    · rw [hb3 j (by omega) (by omega)]
      congr 1; omega

theorem wpV_insertN20 (J : Vacated w) (S : ShiftSem w) (hw : 0 < w) {P : Policy} {v : BV} {h : Heap w} {l : List Bool} {b : Bool} {pos : BitIter w}
    {d n : Nat} {Q : BV × BitIter w → Heap w → Prop}
    (hwf : h.WF) (hr : Rep h v l) (hp : IsPos v pos d) (hd : d ≤ l.length) (hfl : FloatOk w v.vec.size l.length n)
    (hfull : ¬ (d % w = 0 ∧ l.length + n - d = w ∧ n < w) ∨ S.FullShiftOk)
    (hQ : ∀ v' it h' l', Gapped J d n l l' → VStep h v.vec h' v'.vec → Rep h' v' (l'.take d ++ List.replicate n b ++ l'.drop d) → IsPos v' it d → Q (v', it) h') :
    wpV (v.insertN20 J S P pos n b) h Q := by
  have hl := hr.len
  obtain ⟨hp1, hp2⟩ := hp
  unfold BV.insertN20
  rw [wpV_bind]
  refine wpV_onMem ?_
  rw [wp_distance]
  refine ⟨by rw [BV.begin_addr]; omega, ?_⟩
  rw [BV.begin_addr, show pos.addr - v.vec.ptr * (w : Int) = (d : Int) by omega]
  show wpV _ h Q
  split_ifs with hn
  · subst hn
    refine wpV_pure (hQ _ _ _ l (Gapped.refl fun hc => by have := hc.1; omega) (VStep.refl hwf _) ?_ (IsPos.begin_add hw v d))
    simpa using hr
  rw [wpV_bind]
  refine wpV_growFor hw hwf hr hfl ?_
  intro vec h1 s1 o1 hf1 hb1
  have hfi : (v.length : Int) + n ≤ (vec.size : Int) * (w : Int) := by exact_mod_cast hf1
  dsimp only
  rw [wpV_bind]
  refine wpV_onMem ?_
  refine wp_gap20 (v := ⟨vec, v.length + n⟩) (n := n) J S hw o1 hd (by dsimp only; omega) (by omega) hf1 hb1 ?_ ?_
  · dsimp only
    rw [hl]; exact hfull
  intro r m2 l' gp hs2 hb2 hb5 hb3
  dsimp only at hb2 hb3 hb5
  have hgl := gp.len
  have s2 : VStep h1 vec { h1 with mem := m2 } vec := VStep.ofMem s1.wf o1 (fun i hi => hb2 i (by omega))
  have o2 := o1.ofMem hs2
  obtain ⟨p1, p2⟩ := IsPos.begin_add hw ⟨vec, v.length + n⟩ d
  dsimp only at p2
  have hm : Mapped m2 (vec.ptr * (w : Int) + d) (vec.ptr * (w : Int) + d + n) :=
    fun i hi1 hi2 => o2.mapped i (by omega) (by omega)
  have p3 := BitIter.add_addr hw ((BV.begin ⟨vec, v.length + n⟩ : BitIter w).add (d : Int)) (n : Int)
  rw [p2] at p3
  rw [wpV_bind]
  refine wpV_onMem ?_
  refine wp_fill S p1 (BitIter.add_valid hw _ _) (by omega) ?_ ?_
  · rw [p3, p2]; exact hm
  intro m3 hw3
  rw [p3, p2] at hw3
  dsimp only at hw3
  have s3 : VStep { h1 with mem := m2 } vec { h1 with mem := m3 } vec := VStep.ofMem s2.wf o2 (fun i hi => by
    dsimp only at hi ⊢
    rw [hw3 i, if_neg (by omega)])
  have o3 : VecOk { h1 with mem := m3 } vec := o2.ofMem (hw3.sameMapped hm (fun _ _ _ => rfl))
  refine wpV_pure (hQ _ _ _ l' gp ((s1.trans s2).trans s3) (Rep.of o3 ?_ hf1 ?_) (IsPos.begin_add hw _ d))
  · simp [hl]; omega
  · intro j h0 h2
    simp at h2
    dsimp only
    rw [hw3, getElem?_splice _ _ _ _ (by omega)]
    simp only [List.length_replicate]
    split_ifs with c1 c2 c3 c2 c3
    · omega
    · rw [List.getElem?_replicate, if_pos (by omega)]
    · omega
    · exact hb5 j h0 (by omega)
    · omega
    · rw [hb3 j (by omega) (by omega)]
      congr 1; omega

theorem wpV_insertRange20 (J : Vacated w) (S : ShiftSem w) (hw : 0 < w) {P : Policy} {v : BV} {h : Heap w} {l s : List Bool} {pos first last : BitIter w}
    {d : Nat} {Q : BV × BitIter w → Heap w → Prop}
    (hwf : h.WF) (hr : Rep h v l) (hp : IsPos v pos d) (hd : d ≤ l.length) (hs : HoldsSeq h first last s)
    (hout : Outside v.vec first last) (hfl : FloatOk w v.vec.size l.length s.length)
    (hfull : ¬ (d % w = 0 ∧ l.length + s.length - d = w ∧ s.length < w) ∨ S.FullShiftOk)
    (hQ : ∀ v' it h' l', Gapped J d s.length l l' → VStep h v.vec h' v'.vec → Rep h' v' (l'.take d ++ s ++ l'.drop d) → IsPos v' it d → Q (v', it) h') :
    wpV (v.insertRange20 J S P pos first last) h Q := by
  have hl := hr.len
  obtain ⟨hp1, hp2⟩ := hp
  unfold BV.insertRange20
  rw [wpV_bind]
  refine wpV_onMem ?_
  rw [wp_distance]
  refine ⟨by rw [BV.begin_addr]; omega, ?_⟩
  rw [BV.begin_addr, show pos.addr - v.vec.ptr * (w : Int) = (d : Int) by omega]
  show wpV _ h Q
  rw [wpV_bind]
  refine wpV_onMem ?_
  rw [wp_distance]
  have hsl := hs.len
  refine ⟨by omega, ?_⟩
  rw [show last.addr - first.addr = (s.length : Int) by omega, toSize_nat]
  show wpV _ h Q
  dsimp only
  split_ifs with hn
  · have : s = [] := List.length_eq_zero_iff.1 hn
    subst this
    refine wpV_pure (hQ _ _ _ l (Gapped.refl fun hc => by have := hc.1; omega) (VStep.refl hwf _) ?_ (IsPos.begin_add hw v d))
    simpa using hr
  rw [wpV_bind]
  refine wpV_growFor hw hwf hr hfl ?_
  intro vec h1 s1 o1 hf1 hb1
  have hfi : (v.length : Int) + s.length ≤ (vec.size : Int) * (w : Int) := by exact_mod_cast hf1
  rw [wpV_bind]
  refine wpV_onMem ?_
  refine wp_gap20 (v := ⟨vec, v.length + s.length⟩) (n := s.length) J S hw o1 hd (by dsimp only; omega) (by omega) hf1 hb1 ?_ ?_
  · dsimp only
    rw [hl]; exact hfull
  intro r m2 l' gp hs2 hb2 hb5 hb3
  dsimp only at hb2 hb3 hb5
  have hgl := gp.len
  have s2 : VStep h1 vec { h1 with mem := m2 } vec := VStep.ofMem s1.wf o1 (fun i hi => hb2 i (by omega))
  have o2 := o1.ofMem hs2
  obtain ⟨p1, p2⟩ := IsPos.begin_add hw ⟨vec, v.length + s.length⟩ d
  dsimp only at p2
  have hm : Mapped m2 (vec.ptr * (w : Int) + d) (vec.ptr * (w : Int) + d + s.length) :=
    fun i hi1 hi2 => o2.mapped i (by omega) (by omega)
  -- the source lies outside the (possibly new) storage
  have hcap := nat_mul_cast_le (w := w) o1.cap
  have hsrcnext : ∀ i : Nat, i < s.length → first.addr + (i : Int) < h.next * (w : Int) := by
    intro i hi
    rcases Int.lt_or_le (first.addr + (i : Int)) (h.next * (w : Int)) with hc | hc
    · exact hc
    · have := hwf.unused _ hc
      rw [hs.bits i hi] at this
      cases this
  have hlastnext := hsrcnext (s.length - 1) (by omega)
  have hout' : last.addr ≤ vec.ptr * (w : Int) ∨ vec.ptr * (w : Int) + (vec.cap : Int) * (w : Int) ≤ first.addr := by
    rcases s1.region with ⟨e1, e2⟩ | e
    · rw [e1, e2]
      rcases hout with hc | hc | hc
      · omega
      · rw [hc] at e2
        rw [e2] at hcap
        simp only [Int.natCast_zero, Int.zero_mul] at hcap
        omega
      · exact hc
    · left; omega
  have hsrc : ∀ i : Nat, (hi : i < s.length) → bitAt m2 (first.addr + (i : Int)) = some s[i] := by
    intro i hi
    have hnx := hsrcnext i hi
    rw [hb2 _ (by omega), s1.frame _ hnx ?_]
    · exact hs.bits i hi
    · rcases hout with hc | hc | hc | hc
      · omega
      · rw [hc]; simp only [Int.natCast_zero, Int.zero_mul]; omega
      · left; omega
      · right; omega
  rw [wpV_bind]
  refine wpV_onMem ?_
  refine wp_copy S hs.validFirst hs.validLast p1 (by omega) ?_ ?_ (by omega) ?_
  · intro i hi1 hi2
    dsimp only
    rw [show i = first.addr + ((i - first.addr).toNat : Int) by omega, hsrc _ (by omega)]
    rfl
  · rw [p2]
    intro i hi1 hi2
    exact hm i (by omega) (by omega)
  intro m3 r3 _ _ hw3
  unfold Copied at hw3
  rw [p2, show last.addr - first.addr = (s.length : Int) by omega] at hw3
  dsimp only at hw3
  have s3 : VStep { h1 with mem := m2 } vec { h1 with mem := m3 } vec := VStep.ofMem s2.wf o2 (fun i hi => by
    dsimp only at hi ⊢
    rw [hw3 i, if_neg (by omega)])
  have o3 : VecOk { h1 with mem := m3 } vec := o2.ofMem (hw3.sameMapped hm (fun i hi1 hi2 => by
    rw [show first.addr + (i - (vec.ptr * (w : Int) + d)) = first.addr + ((i - (vec.ptr * (w : Int) + d)).toNat : Int) by omega,
      hsrc _ (by omega)]
    rfl))
  refine wpV_pure (hQ _ _ _ l' gp ((s1.trans s2).trans s3) (Rep.of o3 ?_ hf1 ?_) (IsPos.begin_add hw _ d))
  · simp [hl]; omega
  · intro j h0 h2
    simp at h2
    dsimp only
    rw [hw3, getElem?_splice _ _ _ _ (by omega)]
    split_ifs with c1 c2 c3 c2 c3
    · omega
    · beta_reduce
      rw [show first.addr + (vec.ptr * (w : Int) + j - (vec.ptr * (w : Int) + d)) = first.addr + ((j.toNat - d : Nat) : Int) by omega,
        hsrc _ (by omega), List.getElem?_eq_getElem]
    · omega
    · exact hb5 j h0 (by omega)
    · omega
    · rw [hb3 j (by omega) (by omega)]
      congr 1; omega

/-- The shift that closes a gap, in a C++20 build. -/
theorem wp_close20 (J : Vacated w) (S : ShiftSem w) (hw : 0 < w) {v : BV} {h : Heap w} {l : List Bool} {d n : Nat} {first last : BitIter w}
    {Q : BitIter w → Mem w → Prop} (hr : Rep h v l) (hd : d + n ≤ l.length) (hn : 0 < n)
    (hp : IsPos v first d) (hq : IsPos v last l.length)
    (hfull : ¬ (d % w = 0 ∧ l.length - d = w ∧ n < w) ∨ S.FullShiftOk)
    (hQ : ∀ r m', SameMapped h.mem m' →
      (∀ i, (i < v.vec.ptr * (w : Int) + d ∨ v.vec.ptr * (w : Int) + l.length ≤ i) → bitAt m' i = bitAt h.mem i) →
      (∀ j : Int, (d : Int) ≤ j → j < (l.length : Int) - n → bitAt m' (v.vec.ptr * (w : Int) + j) = l[(j + n).toNat]?) → Q r m') :
    wp (shiftLeft20 J S first last (n : Int)) h.mem Q := by
  have hl := hr.len
  have hfi : (v.length : Int) ≤ (v.vec.size : Int) * (w : Int) := by exact_mod_cast hr.fit
  have hz := hp.pos_zero
  obtain ⟨p1, p2⟩ := hp
  obtain ⟨q1, q2⟩ := hq
  refine wp_shiftLeft20 J S p1 q1 (by omega) ?_ ?_ (by omega) ?_ ?_
  · intro i h1 h2
    exact hr.ok.mapped i (by omega) (by omega)
  · refine hfull.imp (fun hc h' => hc ⟨hz.1 h'.1, ?_, ?_⟩) id
    · omega
    · omega
  · intro _ h2
    refine hQ _ _ (fun _ => rfl) (fun _ _ => rfl) ?_
    intro j hj1 hj2
    omega
  · intro _ h2 m' r _ _ hs
    obtain ⟨s1, s2, s3⟩ := hs
    rw [p2, q2] at s1 s2
    refine hQ _ _ s3 ?_ ?_
    · intro i hi
      exact s2 i hi
    · intro j hj1 hj2
      rw [s1 _ (by omega) (by omega)]
      rw [← hr.bit (j := j + n) (by omega) (by omega)]
      congr 1
      omega

theorem wpV_erase20 (J : Vacated w) (S : ShiftSem w) (hw : 0 < w) {v : BV} {h : Heap w} {l : List Bool} {pos : BitIter w}
    {d : Nat} {Q : BV × BitIter w → Heap w → Prop}
    (hwf : h.WF) (hr : Rep h v l) (hp : IsPos v pos d) (hd : d < l.length)
    (hfull : ¬ (d % w = 0 ∧ l.length - d = w ∧ 1 < w) ∨ S.FullShiftOk)
    (hQ : ∀ v' it h', VStep h v.vec h' v'.vec → Rep h' v' (l.take d ++ l.drop (d + 1)) → IsPos v' it d → Q (v', it) h') :
    wpV (v.erase20 J S pos) h Q := by
  have hl := hr.len
  have hf := hr.fit
  have hfi : (v.length : Int) ≤ (v.vec.size : Int) * (w : Int) := by exact_mod_cast hf
  unfold BV.erase20
  rw [wpV_bind]
  refine wpV_onMem ?_
  refine wp_close20 (n := 1) J S hw hr (by omega) (by omega) hp (by rw [← hl]; exact IsPos.begin_add hw v _) hfull ?_
  intro r m1 hs1 hb1 hb2
  have s1 : VStep h v.vec { h with mem := m1 } v.vec := VStep.ofMem hwf hr.ok (fun i hi => hb1 i (by omega))
  have o1 := hr.ok.ofMem hs1
  rw [subSize_of_le (by omega)]
  dsimp only
  rw [wpV_bind]
  refine wpV_dropWord hw s1.wf o1 (by omega) ?_
  intro vec2 h2 s2 o2 hf2 ep hb3
  refine wpV_pure (hQ _ _ _ (s1.trans s2) (Rep.of o2 ?_ hf2 ?_) ?_)
  · simp; omega
  · intro j h0 h3
    simp at h3
    dsimp only at hb3 ⊢
    rw [hb3 j (by omega), getElem?_cut _ _ _ _ (by omega) (by omega)]
    split_ifs with c1
    · rw [hb1 _ (by omega)]
      exact hr.bit h0 (by omega)
    · rw [hb2 j (by omega) (by omega)]
      congr 1; omega
  · obtain ⟨p1, p2⟩ := hp
    exact ⟨p1, by dsimp only; rw [ep]; exact p2⟩

theorem wpV_eraseRange20 (J : Vacated w) (S : ShiftSem w) (hw : 0 < w) {P : Policy} {v : BV} {h : Heap w} {l : List Bool} {first last : BitIter w}
    {a b : Nat} {Q : BV × BitIter w → Heap w → Prop}
    (hwf : h.WF) (hr : Rep h v l) (hp : IsPos v first a) (hq : IsPos v last b) (hab : a ≤ b) (hb : b ≤ l.length)
    (hlen : a = b ∨ l.length - (b - a) < 2 ^ 32)
    (hfull : ¬ (a % w = 0 ∧ l.length - a = w ∧ a < b ∧ b - a < w) ∨ S.FullShiftOk)
    (hQ : ∀ v' it h', VStep h v.vec h' v'.vec → Rep h' v' (l.take a ++ l.drop b) → IsPos v' it a → Q (v', it) h') :
    wpV (v.eraseRange20 J S P first last) h Q := by
  have hl := hr.len
  have hf := hr.fit
  have hfi : (v.length : Int) ≤ (v.vec.size : Int) * (w : Int) := by exact_mod_cast hf
  have hp2 := hp.2
  have hq2 := hq.2
  unfold BV.eraseRange20
  rw [wpV_bind]
  refine wpV_onMem ?_
  rw [wp_distance]
  refine ⟨by rw [BV.begin_addr]; omega, ?_⟩
  rw [BV.begin_addr, show first.addr - v.vec.ptr * (w : Int) = (a : Int) by omega]
  show wpV _ h Q
  rw [wpV_bind]
  refine wpV_onMem ?_
  rw [wp_distance]
  refine ⟨by omega, ?_⟩
  rw [show last.addr - first.addr = ((b - a : Nat) : Int) by omega]
  show wpV _ h Q
  split_ifs with hn
  · have : b = a := by omega
    subst this
    refine wpV_pure (hQ _ _ _ (VStep.refl hwf _) ?_ hq)
    rw [List.take_append_drop]; exact hr
  rw [wpV_bind]
  refine wpV_onMem ?_
  refine wp_close20 (n := b - a) J S hw hr (by omega) (by omega) hp (by rw [← hl]; exact IsPos.begin_add hw v _)
    (hfull.imp (fun hc h' => hc ⟨h'.1, h'.2.1, by omega, h'.2.2⟩) id) ?_
  intro r m1 hs1 hb1 hb2
  have s1 : VStep h v.vec { h with mem := m1 } v.vec := VStep.ofMem hwf hr.ok (fun i hi => hb1 i (by omega))
  have o1 := hr.ok.ofMem hs1
  rw [show (v.length : Int) - ((b - a : Nat) : Int) = ((l.length - (b - a) : Nat) : Int) by omega, toSize_nat]
  dsimp only
  rw [wpV_bind]
  refine wpV_resize hw s1.wf o1 ?_
  intro vec2 h2 s2 o2 e2 hb3 _
  have hwc := wordCount_ge hw (n := l.length - (b - a)) (by omega)
  have hwci : ((l.length - (b - a) : Nat) : Int) ≤ (wordCount w (l.length - (b - a)) : Int) * (w : Int) := by exact_mod_cast hwc
  refine wpV_pure (hQ _ _ _ (s1.trans s2) (Rep.of o2 ?_ (by rw [e2]; exact hwc) ?_) (IsPos.begin_add hw _ a))
  · simp; omega
  · intro j h0 h3
    simp at h3
    dsimp only at hb3 ⊢
    rw [hb3 j h0 (by omega) (by omega), getElem?_cut _ _ _ _ (by omega) (by omega)]
    split_ifs with c1
    · rw [hb1 _ (by omega)]
      exact hr.bit h0 (by omega)
    · rw [hb2 j (by omega) (by omega)]
      congr 1; omega

end BitLib
