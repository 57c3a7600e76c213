import Verif.Lemmas.BVec
/- `bit_vector`: insertion of several elements, erasure, resizing, capacity. -/
namespace BitLib
variable {w : Nat} {α β : Type}

theorem wordCount_ge (hw : 0 < w) {n : Nat} (hn : n < 2 ^ 32) : n ≤ wordCount w n * w := by
  unfold wordCount
  rw [Nat.mod_eq_of_lt hn]
  have h1 := Nat.div_add_mod (n + w - 1) w
  have h2 := Nat.mod_lt (n + w - 1) hw
  rw [Nat.mul_comm] at h1
  omega

theorem wordCount_lt (hw : 0 < w) {n : Nat} (hn : n < 2 ^ 32) : wordCount w n * w < n + w := by
  unfold wordCount
  rw [Nat.mod_eq_of_lt hn]
  have h1 := Nat.div_add_mod (n + w - 1) w
  rw [Nat.mul_comm] at h1
  omega

theorem f32_small {n : Nat} (h : n ≤ 2 ^ 24) : f32 n = n := by
  rcases Nat.lt_or_ge n (2 ^ 24) with h1 | h1
  · unfold f32; rw [if_pos h1]
  · have : n = 2 ^ 24 := by omega
    subst this
    decide

theorem f32_big {n : Nat} (h : 2 ^ 24 ≤ n) : 2 ^ 24 ≤ f32 n := by
  unfold f32
  rw [if_neg (by omega)]
  dsimp only
  have hl : 24 ≤ n.log2 := (Nat.le_log2 (by omega)).2 h
  have h1 : 2 ^ n.log2 ≤ n := Nat.log2_self_le (by omega)
  have h2 : 2 ^ 23 ≤ n / 2 ^ (n.log2 - 23) := by
    rw [Nat.le_div_iff_mul_le (Nat.two_pow_pos _), ← Nat.pow_add, show 23 + (n.log2 - 23) = n.log2 by omega]
    exact h1
  have h3 : 2 ^ 1 ≤ 2 ^ (n.log2 - 23) := Nat.pow_le_pow_right (by omega) (by omega)
  have h4 : 2 ^ 23 * 2 ^ 1 ≤ n / 2 ^ (n.log2 - 23) * 2 ^ (n.log2 - 23) := Nat.mul_le_mul h2 h3
  split_ifs
  · rw [Nat.add_mul]; omega
  · omega

theorem floatOk_small (hw : 0 < w) {size length n : Nat} (hn : length + n ≤ 2 ^ 24) : FloatOk w size length n := by
  unfold FloatOk
  rw [f32_small hn]
  rcases Nat.lt_or_ge (size * w) (2 ^ 24) with h1 | h1
  · rw [f32_small (Nat.le_of_lt h1)]
    split_ifs with hc
    · rw [f32_small (by omega)]
      refine ⟨by omega, ?_⟩
      rw [Nat.add_mul]
      have := wordCount_ge hw (n := length + n - size * w) (by omega)
      omega
    · omega
  · have := f32_big h1
    rw [if_neg (by omega)]
    omega

theorem wpV_growFor (hw : 0 < w) {P : Policy} {v : BV} {h : Heap w} {l : List Bool} {n : Nat} {Q : Vec → Heap w → Prop}
    (hwf : h.WF) (hr : Rep h v l) (hfl : FloatOk w v.vec.size l.length n)
    (hQ : ∀ vec h', VStep h v.vec h' vec → VecOk h' vec → v.length + n ≤ vec.size * w →
      (∀ j, 0 ≤ j → j < (l.length : Int) → bitAt h'.mem (vec.ptr * (w : Int) + j) = l[j.toNat]?) → Q vec h') :
    wpV (BV.growFor P v n) h Q := by
  have hf := hr.fit
  have hl := hr.len
  have hfi : (v.length : Int) ≤ (v.vec.size : Int) * (w : Int) := by exact_mod_cast hf
  unfold BV.growFor
  unfold FloatOk at hfl
  rw [← hl] at hfl
  dsimp only
  split_ifs with hc
  · rw [if_pos hc] at hfl
    rw [wpV_bind]
    refine wpV_onMem ?_
    unfold floatToU32
    rw [if_pos hfl.1, wp_lift_ok]
    refine wpV_resize hw hwf hr.ok ?_
    intro v' h' s o e hb1 hb2
    refine hQ v' h' s o (by rw [e]; exact hfl.2) ?_
    intro j h0 h1
    have h3 := nat_mul_cast_le (w := w) (Nat.le_add_right v.vec.size (wordCount w (f32 (f32 (v.length + n) - f32 (v.vec.size * w)))))
    rw [hb1 j h0 (by omega) (by omega)]
    exact hr.bit h0 h1
  · rw [if_neg hc] at hfl
    exact wpV_pure (hQ _ _ (VStep.refl hwf _) hr.ok hfl (fun j h0 h1 => hr.bit h0 h1))

theorem wpV_insertN (S : ShiftSem w) (hw : 0 < w) {P : Policy} {v : BV} {h : Heap w} {l : List Bool} {b : Bool} {pos : BitIter w}
    {d n : Nat} {Q : BV × BitIter w → Heap w → Prop}
    (hwf : h.WF) (hr : Rep h v l) (hp : IsPos v pos d) (hd : d ≤ l.length) (hfl : FloatOk w v.vec.size l.length n)
    (hfull : ¬ (d % w = 0 ∧ l.length + n - d = w ∧ n < w) ∨ S.FullShiftOk)
    (hQ : ∀ v' it h', VStep h v.vec h' v'.vec → Rep h' v' (l.take d ++ List.replicate n b ++ l.drop d) → IsPos v' it d → Q (v', it) h') :
    wpV (v.insertN S P pos n b) h Q := by
  have hl := hr.len
  obtain ⟨hp1, hp2⟩ := hp
  unfold BV.insertN
  rw [wpV_bind]
  refine wpV_onMem ?_
  rw [wp_distance]
  refine ⟨by rw [BV.begin_addr]; omega, ?_⟩
  rw [BV.begin_addr, show pos.addr - v.vec.ptr * (w : Int) = (d : Int) by omega]
  show wpV _ h Q
  split_ifs with hn
  · subst hn
    refine wpV_pure (hQ _ _ _ (VStep.refl hwf _) ?_ (IsPos.begin_add hw v d))
    simpa using hr
  rw [wpV_bind]
  refine wpV_growFor hw hwf hr hfl ?_
  intro vec h1 s1 o1 hf1 hb1
  have hfi : (v.length : Int) + n ≤ (vec.size : Int) * (w : Int) := by exact_mod_cast hf1
  dsimp only
  rw [wpV_bind]
  refine wpV_onMem ?_
  refine wp_gap (v := ⟨vec, v.length + n⟩) (n := n) S hw o1 hd (by dsimp only; omega) (by omega) hf1 hb1 ?_ ?_
  · dsimp only
    rw [hl]; exact hfull
  intro r m2 hs2 hb2 hb3
  dsimp only at hb2 hb3
  have s2 : VStep h1 vec { h1 with mem := m2 } vec := VStep.ofMem s1.wf o1 (fun i hi => hb2 i (by omega))
  have o2 := o1.ofMem hs2
  obtain ⟨p1, p2⟩ := IsPos.begin_add hw ⟨vec, v.length + n⟩ d
  dsimp only at p2
  have hm : Mapped m2 (vec.ptr * (w : Int) + d) (vec.ptr * (w : Int) + d + n) :=
    fun i hi1 hi2 => o2.mapped i (by omega) (by omega)
  have p3 := BitIter.add_addr hw ((BV.begin ⟨vec, v.length + n⟩ : BitIter w).add (d : Int)) (n : Int)
  rw [p2] at p3
  rw [wpV_bind]
  refine wpV_onMem ?_
  refine wp_fill S p1 (BitIter.add_valid hw _ _) (by omega) ?_ ?_
  · rw [p3, p2]; exact hm
  intro m3 hw3
  rw [p3, p2] at hw3
  dsimp only at hw3
  have s3 : VStep { h1 with mem := m2 } vec { h1 with mem := m3 } vec := VStep.ofMem s2.wf o2 (fun i hi => by
    dsimp only at hi ⊢
    rw [hw3 i, if_neg (by omega)])
  have o3 : VecOk { h1 with mem := m3 } vec := o2.ofMem (hw3.sameMapped hm (fun _ _ _ => rfl))
  refine wpV_pure (hQ _ _ _ ((s1.trans s2).trans s3) (Rep.of o3 ?_ hf1 ?_) (IsPos.begin_add hw _ d))
  · simp [hl]; omega
  · intro j h0 h2
    simp at h2
    dsimp only
    rw [hw3, getElem?_splice _ _ _ _ hd]
    simp only [List.length_replicate]
    split_ifs with c1 c2 c3 c2 c3
    · omega
    · rw [List.getElem?_replicate, if_pos (by omega)]
    · omega
    · rw [hb2 _ (by omega)]; exact hb1 j h0 (by omega)
    · omega
    · rw [hb3 j (by omega) (by omega)]
      congr 1; omega

theorem toSize_nat (n : Nat) : toSize (n : Int) = n := by
  unfold toSize
  rw [if_pos (by omega)]; omega

theorem wpV_insertRange (S : ShiftSem w) (hw : 0 < w) {P : Policy} {v : BV} {h : Heap w} {l s : List Bool} {pos first last : BitIter w}
    {d : Nat} {Q : BV × BitIter w → Heap w → Prop}
    (hwf : h.WF) (hr : Rep h v l) (hp : IsPos v pos d) (hd : d ≤ l.length) (hs : HoldsSeq h first last s)
    (hout : Outside v.vec first last) (hfl : FloatOk w v.vec.size l.length s.length)
    (hfull : ¬ (d % w = 0 ∧ l.length + s.length - d = w ∧ s.length < w) ∨ S.FullShiftOk)
    (hQ : ∀ v' it h', VStep h v.vec h' v'.vec → Rep h' v' (l.take d ++ s ++ l.drop d) → IsPos v' it d → Q (v', it) h') :
    wpV (v.insertRange S P pos first last) h Q := by
  have hl := hr.len
  obtain ⟨hp1, hp2⟩ := hp
  unfold BV.insertRange
  rw [wpV_bind]
  refine wpV_onMem ?_
  rw [wp_distance]
  refine ⟨by rw [BV.begin_addr]; omega, ?_⟩
  rw [BV.begin_addr, show pos.addr - v.vec.ptr * (w : Int) = (d : Int) by omega]
  show wpV _ h Q
  rw [wpV_bind]
  refine wpV_onMem ?_
  rw [wp_distance]
  have hsl := hs.len
  refine ⟨by omega, ?_⟩
  rw [show last.addr - first.addr = (s.length : Int) by omega, toSize_nat]
  show wpV _ h Q
  dsimp only
  split_ifs with hn
  · have : s = [] := List.length_eq_zero_iff.1 hn
    subst this
    refine wpV_pure (hQ _ _ _ (VStep.refl hwf _) ?_ (IsPos.begin_add hw v d))
    simpa using hr
  rw [wpV_bind]
  refine wpV_growFor hw hwf hr hfl ?_
  intro vec h1 s1 o1 hf1 hb1
  have hfi : (v.length : Int) + s.length ≤ (vec.size : Int) * (w : Int) := by exact_mod_cast hf1
  rw [wpV_bind]
  refine wpV_onMem ?_
  refine wp_gap (v := ⟨vec, v.length + s.length⟩) (n := s.length) S hw o1 hd (by dsimp only; omega) (by omega) hf1 hb1 ?_ ?_
  · dsimp only
    rw [hl]; exact hfull
  intro r m2 hs2 hb2 hb3
  dsimp only at hb2 hb3
  have s2 : VStep h1 vec { h1 with mem := m2 } vec := VStep.ofMem s1.wf o1 (fun i hi => hb2 i (by omega))
  have o2 := o1.ofMem hs2
  obtain ⟨p1, p2⟩ := IsPos.begin_add hw ⟨vec, v.length + s.length⟩ d
  dsimp only at p2
  have hm : Mapped m2 (vec.ptr * (w : Int) + d) (vec.ptr * (w : Int) + d + s.length) :=
    fun i hi1 hi2 => o2.mapped i (by omega) (by omega)
  -- the source lies outside the (possibly new) storage
  have hcap := nat_mul_cast_le (w := w) o1.cap
  have hsrcnext : ∀ i : Nat, i < s.length → first.addr + (i : Int) < h.next * (w : Int) := by
    intro i hi
    rcases Int.lt_or_le (first.addr + (i : Int)) (h.next * (w : Int)) with hc | hc
    · exact hc
    · have := hwf.unused _ hc
      rw [hs.bits i hi] at this
      cases this
  have hlastnext := hsrcnext (s.length - 1) (by omega)
  have hout' : last.addr ≤ vec.ptr * (w : Int) ∨ vec.ptr * (w : Int) + (vec.cap : Int) * (w : Int) ≤ first.addr := by
    rcases s1.region with ⟨e1, e2⟩ | e
    · rw [e1, e2]
      rcases hout with hc | hc | hc
      · omega
      · rw [hc] at e2
        rw [e2] at hcap
        simp only [Int.natCast_zero, Int.zero_mul] at hcap
        omega
      · exact hc
    · left; omega
  have hsrc : ∀ i : Nat, (hi : i < s.length) → bitAt m2 (first.addr + (i : Int)) = some s[i] := by
    intro i hi
    have hnx := hsrcnext i hi
    rw [hb2 _ (by omega), s1.frame _ hnx ?_]
    · exact hs.bits i hi
    · rcases hout with hc | hc | hc | hc
      · omega
      · rw [hc]; simp only [Int.natCast_zero, Int.zero_mul]; omega
      · left; omega
      · right; omega
  rw [wpV_bind]
  refine wpV_onMem ?_
  refine wp_copy S hs.validFirst hs.validLast p1 (by omega) ?_ ?_ (by omega) ?_
  · intro i hi1 hi2
    dsimp only
    rw [show i = first.addr + ((i - first.addr).toNat : Int) by omega, hsrc _ (by omega)]
    rfl
  · rw [p2]
    intro i hi1 hi2
    exact hm i (by omega) (by omega)
  intro m3 r3 _ _ hw3
  unfold Copied at hw3
  rw [p2, show last.addr - first.addr = (s.length : Int) by omega] at hw3
  dsimp only at hw3
  have s3 : VStep { h1 with mem := m2 } vec { h1 with mem := m3 } vec := VStep.ofMem s2.wf o2 (fun i hi => by
    dsimp only at hi ⊢
    rw [hw3 i, if_neg (by omega)])
  have o3 : VecOk { h1 with mem := m3 } vec := o2.ofMem (hw3.sameMapped hm (fun i hi1 hi2 => by
    rw [show first.addr + (i - (vec.ptr * (w : Int) + d)) = first.addr + ((i - (vec.ptr * (w : Int) + d)).toNat : Int) by omega,
      hsrc _ (by omega)]
    rfl))
  refine wpV_pure (hQ _ _ _ ((s1.trans s2).trans s3) (Rep.of o3 ?_ hf1 ?_) (IsPos.begin_add hw _ d))
  · simp [hl]; omega
  · intro j h0 h2
    simp at h2
    dsimp only
    rw [hw3, getElem?_splice _ _ _ _ hd]
    split_ifs with c1 c2 c3 c2 c3
    · omega
    · beta_reduce
      rw [show first.addr + (vec.ptr * (w : Int) + j - (vec.ptr * (w : Int) + d)) = first.addr + ((j.toNat - d : Nat) : Int) by omega,
        hsrc _ (by omega), List.getElem?_eq_getElem]
    · omega
    · rw [hb2 _ (by omega)]; exact hb1 j h0 (by omega)
    · omega
    · rw [hb3 j (by omega) (by omega)]
      congr 1; omega

/-! ### `erase` -/

/-- The shift that closes a gap of `n` bits at position `d`. -/
theorem wp_close (S : ShiftSem w) (hw : 0 < w) {v : BV} {h : Heap w} {l : List Bool} {d n : Nat} {first last : BitIter w}
    {Q : BitIter w → Mem w → Prop} (hr : Rep h v l) (hd : d + n ≤ l.length) (hn : 0 < n)
    (hp : IsPos v first d) (hq : IsPos v last l.length)
    (hfull : ¬ (d % w = 0 ∧ l.length - d = w ∧ n < w) ∨ S.FullShiftOk)
    (hQ : ∀ r m', SameMapped h.mem m' →
      (∀ i, (i < v.vec.ptr * (w : Int) + d ∨ v.vec.ptr * (w : Int) + l.length ≤ i) → bitAt m' i = bitAt h.mem i) →
      (∀ j : Int, (d : Int) ≤ j → j < (l.length : Int) - n → bitAt m' (v.vec.ptr * (w : Int) + j) = l[(j + n).toNat]?) → Q r m') :
    wp (shiftLeft S first last (n : Int)) h.mem Q := by
  have hl := hr.len
  have hfi : (v.length : Int) ≤ (v.vec.size : Int) * (w : Int) := by exact_mod_cast hr.fit
  have hz := hp.pos_zero
  obtain ⟨p1, p2⟩ := hp
  obtain ⟨q1, q2⟩ := hq
  refine wp_shiftLeft S p1 q1 (by omega) ?_ ?_ (by omega) ?_ ?_
  · intro i h1 h2
    exact hr.ok.mapped i (by omega) (by omega)
  · refine hfull.imp (fun hc h' => hc ⟨hz.1 h'.1, ?_, ?_⟩) id
    · omega
    · omega
  · intro _ h2
    refine hQ _ _ (fun _ => rfl) (fun _ _ => rfl) ?_
    intro j hj1 hj2
    omega
  · intro _ h2 m' r _ _ hs
    obtain ⟨s1, s2, s3⟩ := hs
    rw [p2, q2] at s1 s2
    refine hQ _ _ s3 ?_ ?_
    · intro i hi
      exact s2 i hi
    · intro j hj1 hj2
      rw [s1 _ (by omega) (by omega)]
      rw [← hr.bit (j := j + n) (by omega) (by omega)]
      congr 1
      omega

theorem wpV_erase (S : ShiftSem w) (hw : 0 < w) {v : BV} {h : Heap w} {l : List Bool} {pos : BitIter w}
    {d : Nat} {Q : BV × BitIter w → Heap w → Prop}
    (hwf : h.WF) (hr : Rep h v l) (hp : IsPos v pos d) (hd : d < l.length)
    (hfull : ¬ (d % w = 0 ∧ l.length - d = w ∧ 1 < w) ∨ S.FullShiftOk)
    (hQ : ∀ v' it h', VStep h v.vec h' v'.vec → Rep h' v' (l.take d ++ l.drop (d + 1)) → IsPos v' it d → Q (v', it) h') :
    wpV (v.erase S pos) h Q := by
  have hl := hr.len
  have hf := hr.fit
  have hfi : (v.length : Int) ≤ (v.vec.size : Int) * (w : Int) := by exact_mod_cast hf
  unfold BV.erase
  rw [wpV_bind]
  refine wpV_onMem ?_
  refine wp_close (n := 1) S hw hr (by omega) (by omega) hp (by rw [← hl]; exact IsPos.begin_add hw v _) hfull ?_
  intro r m1 hs1 hb1 hb2
  have s1 : VStep h v.vec { h with mem := m1 } v.vec := VStep.ofMem hwf hr.ok (fun i hi => hb1 i (by omega))
  have o1 := hr.ok.ofMem hs1
  rw [subSize_of_le (by omega)]
  dsimp only
  rw [wpV_bind]
  refine wpV_dropWord hw s1.wf o1 (by omega) ?_
  intro vec2 h2 s2 o2 hf2 ep hb3
  refine wpV_pure (hQ _ _ _ (s1.trans s2) (Rep.of o2 ?_ hf2 ?_) ?_)
  · simp; omega
  · intro j h0 h3
    simp at h3
    dsimp only at hb3 ⊢
    rw [hb3 j (by omega), getElem?_cut _ _ _ _ (by omega) (by omega)]
    split_ifs with c1
    · rw [hb1 _ (by omega)]
      exact hr.bit h0 (by omega)
    · rw [hb2 j (by omega) (by omega)]
      congr 1; omega
  · obtain ⟨p1, p2⟩ := hp
    exact ⟨p1, by dsimp only; rw [ep]; exact p2⟩

theorem wpV_eraseRange (S : ShiftSem w) (hw : 0 < w) {P : Policy} {v : BV} {h : Heap w} {l : List Bool} {first last : BitIter w}
    {a b : Nat} {Q : BV × BitIter w → Heap w → Prop}
    (hwf : h.WF) (hr : Rep h v l) (hp : IsPos v first a) (hq : IsPos v last b) (hab : a ≤ b) (hb : b ≤ l.length)
    (hlen : a = b ∨ l.length - (b - a) < 2 ^ 32)
    (hfull : ¬ (a % w = 0 ∧ l.length - a = w ∧ a < b ∧ b - a < w) ∨ S.FullShiftOk)
    (hQ : ∀ v' it h', VStep h v.vec h' v'.vec → Rep h' v' (l.take a ++ l.drop b) → IsPos v' it a → Q (v', it) h') :
    wpV (v.eraseRange S P first last) h Q := by
  have hl := hr.len
  have hf := hr.fit
  have hfi : (v.length : Int) ≤ (v.vec.size : Int) * (w : Int) := by exact_mod_cast hf
  have hp2 := hp.2
  have hq2 := hq.2
  unfold BV.eraseRange
  rw [wpV_bind]
  refine wpV_onMem ?_
  rw [wp_distance]
  refine ⟨by rw [BV.begin_addr]; omega, ?_⟩
  rw [BV.begin_addr, show first.addr - v.vec.ptr * (w : Int) = (a : Int) by omega]
  show wpV _ h Q
  rw [wpV_bind]
  refine wpV_onMem ?_
  rw [wp_distance]
  refine ⟨by omega, ?_⟩
  rw [show last.addr - first.addr = ((b - a : Nat) : Int) by omega]
  show wpV _ h Q
  split_ifs with hn
  · have : b = a := by omega
    subst this
    refine wpV_pure (hQ _ _ _ (VStep.refl hwf _) ?_ hq)
    rw [List.take_append_drop]; exact hr
  rw [wpV_bind]
  refine wpV_onMem ?_
  refine wp_close (n := b - a) S hw hr (by omega) (by omega) hp (by rw [← hl]; exact IsPos.begin_add hw v _)
    (hfull.imp (fun hc h' => hc ⟨h'.1, h'.2.1, by omega, h'.2.2⟩) id) ?_
  intro r m1 hs1 hb1 hb2
  have s1 : VStep h v.vec { h with mem := m1 } v.vec := VStep.ofMem hwf hr.ok (fun i hi => hb1 i (by omega))
  have o1 := hr.ok.ofMem hs1
  rw [show (v.length : Int) - ((b - a : Nat) : Int) = ((l.length - (b - a) : Nat) : Int) by omega, toSize_nat]
  dsimp only
  rw [wpV_bind]
  refine wpV_resize hw s1.wf o1 ?_
  intro vec2 h2 s2 o2 e2 hb3 _
  have hwc := wordCount_ge hw (n := l.length - (b - a)) (by omega)
  have hwci : ((l.length - (b - a) : Nat) : Int) ≤ (wordCount w (l.length - (b - a)) : Int) * (w : Int) := by exact_mod_cast hwc
  refine wpV_pure (hQ _ _ _ (s1.trans s2) (Rep.of o2 ?_ (by rw [e2]; exact hwc) ?_) (IsPos.begin_add hw _ a))
  · simp; omega
  · intro j h0 h3
    simp at h3
    dsimp only at hb3 ⊢
    rw [hb3 j h0 (by omega) (by omega), getElem?_cut _ _ _ _ (by omega) (by omega)]
    split_ifs with c1
    · rw [hb1 _ (by omega)]
      exact hr.bit h0 (by omega)
    · rw [hb2 j (by omega) (by omega)]
      congr 1; omega

/-! ### `resize`, `reserve`, `shrink_to_fit`, `clear` -/

theorem wpV_clear (hw : 0 < w) {v : BV} {h : Heap w} {l : List Bool} {Q : BV → Heap w → Prop}
    (hwf : h.WF) (hr : Rep h v l)
    (hQ : ∀ v' h', VStep h v.vec h' v'.vec → Rep h' v' [] → v'.vec.cap = v.vec.cap → Q v' h') : wpV v.clear h Q := by
  obtain ⟨s, o, hb⟩ := shrink_ok hw hwf hr.ok (n := 0) (by omega)
  have e : v.vec.ptr + ((0 : Nat) : Int) = v.vec.ptr := by omega
  rw [e, Nat.sub_zero] at s o
  unfold BV.clear
  rw [wpV_bind]
  refine ⟨_, _, rfl, wpV_pure (hQ _ _ s ⟨o, rfl, by simp, ?_⟩ rfl)⟩
  intro i hi
  simp at hi

theorem wpV_reserve (hw : 0 < w) {P : Policy} {v : BV} {h : Heap w} {l : List Bool} {n : Nat} {Q : BV → Heap w → Prop}
    (hwf : h.WF) (hr : Rep h v l)
    (hQ : ∀ v' h', VStep h v.vec h' v'.vec → Rep h' v' l → wordCount w n ≤ v'.vec.cap → v.vec.cap ≤ v'.vec.cap → Q v' h') :
    wpV (v.reserve P n) h Q := by
  unfold BV.reserve Vec.reserve
  rw [wpV_bind]
  split_ifs with hc
  · exact wpV_pure (wpV_pure (hQ _ _ (VStep.refl hwf _) hr hc (Nat.le_refl _)))
  · have ha := P.alloc_ok (wordCount w n)
    have hcp := hr.ok.cap
    refine wpV_realloc hw hwf hr.ok (by omega) ?_
    intro v' h' s o e1 e2 hb
    refine wpV_pure (hQ _ _ s (Rep.of o hr.len (by rw [e1]; exact hr.fit) ?_) (by rw [e2]; exact ha) (by dsimp only; omega))
    intro j h0 h1
    have hfi : (v.length : Int) ≤ (v.vec.size : Int) * (w : Int) := by exact_mod_cast hr.fit
    have hl := hr.len
    dsimp only
    rw [hb j h0 (by omega)]
    exact hr.bit h0 h1

theorem wpV_shrinkToFit (hw : 0 < w) {P : Policy} {v : BV} {h : Heap w} {l : List Bool} {Q : BV → Heap w → Prop}
    (hwf : h.WF) (hr : Rep h v l)
    (hQ : ∀ v' h', VStep h v.vec h' v'.vec → Rep h' v' l → v'.vec.cap ≤ v.vec.cap → Q v' h') :
    wpV (v.shrinkToFit P) h Q := by
  unfold BV.shrinkToFit Vec.shrinkToFit
  rw [wpV_bind]
  split_ifs with hc
  · have hcp := hr.ok.cap
    refine wpV_realloc hw hwf hr.ok (Nat.le_refl _) ?_
    intro v' h' s o e1 e2 hb
    refine wpV_pure (hQ _ _ s (Rep.of o hr.len (by rw [e1]; exact hr.fit) ?_) (by dsimp only; omega))
    intro j h0 h1
    have hfi : (v.length : Int) ≤ (v.vec.size : Int) * (w : Int) := by exact_mod_cast hr.fit
    have hl := hr.len
    dsimp only
    rw [hb j h0 (by omega)]
    exact hr.bit h0 h1
  · exact wpV_pure (wpV_pure (hQ _ _ (VStep.refl hwf _) hr (Nat.le_refl _)))

/-- The bits of the constructed words, as far as they exist; bits beyond them are 0. -/
def storedBit (h : Heap w) (v : Vec) (i : Nat) : Bool :=
  if i < v.size * w then (bitAt h.mem (v.ptr * (w : Int) + (i : Int))).getD false else false

theorem wpV_resizeBV (hw : 0 < w) {P : Policy} {v : BV} {h : Heap w} {l : List Bool} {n : Nat} {Q : BV → Heap w → Prop}
    (hwf : h.WF) (hr : Rep h v l) (hn : n < 2 ^ 32)
    (hQ : ∀ v' h', VStep h v.vec h' v'.vec → Rep h' v' ((List.range n).map (storedBit h v.vec)) → Q v' h') :
    wpV (v.resize P n) h Q := by
  unfold BV.resize
  rw [wpV_bind]
  refine wpV_resize hw hwf hr.ok ?_
  intro v' h' s o e hb1 hb2
  have hwc := wordCount_ge hw hn
  have hwci : (n : Int) ≤ (wordCount w n : Int) * (w : Int) := by exact_mod_cast hwc
  refine wpV_pure (hQ _ _ s (Rep.of o (by simp) (by rw [e]; exact hwc) ?_))
  intro j h0 h1
  simp at h1
  rw [List.getElem?_map, List.getElem?_range (by omega), Option.map_some]
  dsimp only
  unfold storedBit
  have hcast : j.toNat < v.vec.size * w ↔ j < (v.vec.size : Int) * (w : Int) := by
    have : ((v.vec.size * w : Nat) : Int) = (v.vec.size : Int) * (w : Int) := by push_cast; rfl
    omega
  simp only [hcast]
  rw [show ((j.toNat : Nat) : Int) = j by omega]
  split_ifs with hc
  · rw [hb1 j h0 hc (by omega)]
    obtain ⟨x, hx⟩ := Option.isSome_iff_exists.1 (hr.mappedBit h0 hc)
    rw [hx]; rfl
  · exact hb2 j (by omega) (by omega)

theorem storedBit_old {h : Heap w} {v : BV} {l : List Bool} (hr : Rep h v l) {i : Nat} (hi : i < l.length) :
    storedBit h v.vec i = l[i] := by
  have hf := hr.fit
  have hl := hr.len
  unfold storedBit
  rw [if_pos (by omega), hr.bits i hi]; rfl

end BitLib
