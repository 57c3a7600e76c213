import Verif.Lemmas.Vec
import Verif.Lemmas.Ref
import Verif.Lemmas.Query
import Verif.Lemmas.Map
import Verif.Lemmas.ShiftLeft
import Verif.Lemmas.ShiftRight
/- `bit_vector` operations as operations on lists. -/
namespace BitLib
variable {w : Nat} {α β : Type}

/-! ### Lists -/

theorem getElem?_splice (l s : List Bool) (d i : Nat) (hd : d ≤ l.length) :
    (l.take d ++ s ++ l.drop d)[i]? = if i < d then l[i]? else if i < d + s.length then s[i - d]? else l[i - s.length]? := by
  rw [List.append_assoc, List.getElem?_append, List.length_take, Nat.min_eq_left hd]
  split_ifs with h1 h2
  · rw [List.getElem?_take, if_pos h1]
  · rw [List.getElem?_append, if_pos (by omega)]
  · rw [List.getElem?_append, if_neg (by omega), List.getElem?_drop]
    congr 1; omega

theorem getElem?_cut (l : List Bool) (a b i : Nat) (ha : a ≤ b) (hb : b ≤ l.length) :
    (l.take a ++ l.drop b)[i]? = if i < a then l[i]? else l[i + (b - a)]? := by
  rw [List.getElem?_append, List.length_take, Nat.min_eq_left (by omega)]
  split_ifs with h1
  · rw [List.getElem?_take, if_pos h1]
  · rw [List.getElem?_drop]; congr 1; omega

/-! ### Access to a single element -/

theorem wp_index (S : ShiftSem w) (hw : 0 < w) {it : BitIter w} {n : Int} {m : Mem w} {Q : BitRef w → Mem w → Prop}
    (hQ : ∀ r : BitRef w, r.At (it.addr + n) → Q r m) : wp (lift (it.index S n)) m Q := by
  have e : it.index S n = BitRef.make S (it.add n).base (it.add n).pos := rfl
  obtain ⟨r, hr, ha, _⟩ := ref_make S (it.add n).base (it.add n).pos (BitIter.add_valid hw it n)
  rw [e, hr, wp_lift_ok]
  apply hQ
  rw [← BitIter.add_addr hw]
  exact ha

theorem wp_deref (S : ShiftSem w) {it : BitIter w} {m : Mem w} {Q : BitRef w → Mem w → Prop} (hv : it.Valid)
    (hQ : ∀ r : BitRef w, r.At it.addr → Q r m) : wp (lift (it.deref S)) m Q := by
  obtain ⟨r, hr, ha, _⟩ := ref_make S it.base it.pos hv
  unfold BitIter.deref
  rw [hr, wp_lift_ok]
  exact hQ r ha

theorem wp_assignVal {r : BitRef w} {a : Int} {m : Mem w} {b : Bool} {Q : Unit → Mem w → Prop}
    (hr : r.At a) (hb : (bitAt m a).isSome) (hQ : ∀ m', OneBit m m' a b → Q () m') : wp (r.assignVal ⟨b⟩) m Q :=
  wp_refSetTo (v := b) hr hb hQ

theorem OneBit.sameMapped {m m' : Mem w} {a : Int} {b : Bool} (h : OneBit m m' a b) (hb : (bitAt m a).isSome) :
    SameMapped m m' := by
  intro i
  rw [h i]
  split_ifs with hi
  · rw [hi, hb]; rfl
  · rfl

theorem Wrote.sameMapped {m m' : Mem w} {a b : Int} {f : Int → Option Bool} (h : Wrote m m' a b f) (hm : Mapped m a b)
    (hf : ∀ i, a ≤ i → i < b → (f i).isSome) : SameMapped m m' := by
  intro i
  rw [h i]
  split_ifs with hi
  · rw [hf i hi.1 hi.2, hm i hi.1 hi.2]
  · rfl

@[simp] theorem BV.begin_addr (v : BV) : (v.begin : BitIter w).addr = v.vec.ptr * (w : Int) := by
  show v.vec.ptr * (w : Int) + ((0 : Nat) : Int) = _
  omega

theorem BV.begin_valid (hw : 0 < w) (v : BV) : (v.begin : BitIter w).Valid := hw

theorem IsPos.begin_add (hw : 0 < w) (v : BV) (d : Nat) : IsPos v ((v.begin : BitIter w).add (d : Int)) d :=
  ⟨BitIter.add_valid hw _ _, by rw [BitIter.add_addr hw, BV.begin_addr]⟩

theorem IsPos.pos_zero {v : BV} {it : BitIter w} {d : Nat} (h : IsPos v it d) : it.pos = 0 ↔ d % w = 0 := by
  obtain ⟨h1, h2⟩ := h
  have hv : it.pos < w := h1
  unfold BitIter.addr at h2
  have h3 : (it.pos : Int) = (d : Int) + (w : Int) * (v.vec.ptr - it.base) := by
    have : (w : Int) * (v.vec.ptr - it.base) = v.vec.ptr * w - it.base * w := by ring
    omega
  have h4 : (it.pos : Int) % w = (d : Int) % w := by rw [h3, Int.add_mul_emod_self_left]
  rw [Int.emod_eq_of_lt (by omega) (by omega)] at h4
  have h5 : (d : Int) % (w : Int) = ((d % w : Nat) : Int) := by simp
  omega

/-! ### The representation -/

theorem Rep.bit {h : Heap w} {v : BV} {l : List Bool} (r : Rep h v l) {j : Int} (h0 : 0 ≤ j) (h1 : j < (l.length : Int)) :
    bitAt h.mem (v.vec.ptr * (w : Int) + j) = l[j.toNat]? := by
  have := r.bits j.toNat (by omega)
  rw [show ((j.toNat : Nat) : Int) = j by omega] at this
  rw [this, List.getElem?_eq_getElem]

theorem Rep.of {h : Heap w} {v : BV} {l : List Bool} (ok : VecOk h v.vec) (len : v.length = l.length)
    (fit : v.length ≤ v.vec.size * w)
    (bits : ∀ j : Int, 0 ≤ j → j < (l.length : Int) → bitAt h.mem (v.vec.ptr * (w : Int) + j) = l[j.toNat]?) : Rep h v l := by
  refine ⟨ok, len, fit, ?_⟩
  intro i hi
  rw [bits (i : Int) (by omega) (by omega), Int.toNat_natCast, List.getElem?_eq_getElem]

theorem Rep.mappedBit {h : Heap w} {v : BV} {l : List Bool} (r : Rep h v l) {j : Int} (h0 : 0 ≤ j)
    (h1 : j < (v.vec.size : Int) * (w : Int)) : (bitAt h.mem (v.vec.ptr * (w : Int) + j)).isSome :=
  r.ok.mapped _ (by omega) (by omega)

theorem VecOk.bit {h : Heap w} {v : Vec} (ok : VecOk h v) {j : Int} (h0 : 0 ≤ j)
    (h1 : j < (v.size : Int) * (w : Int)) : (bitAt h.mem (v.ptr * (w : Int) + j)).isSome :=
  ok.mapped _ (by omega) (by omega)

/-- Another vector is not affected. -/
theorem Rep.frame {h h' : Heap w} {v v' : Vec} {o : BV} {l : List Bool} (r : Rep h o l) (s : VStep h v h' v')
    (hs : Sep w v o.vec) : Rep h' o l ∧ Sep w v' o.vec := by
  have hn := s.next
  have hb := r.ok.below
  have hc := nat_mul_cast_le (w := w) r.ok.cap
  have hcs := r.ok.cap
  by_cases ho : o.vec.cap = 0
  · have h0 : o.vec.size = 0 := by omega
    have hl : l.length = 0 := by
      have := r.fit
      rw [h0, Nat.zero_mul] at this
      have := r.len
      omega
    refine ⟨⟨⟨r.ok.cap, by omega, ?_⟩, r.len, r.fit, ?_⟩, Or.inr (Or.inl ho)⟩
    · intro i h1 h2
      rw [h0] at h2
      simp at h2
      omega
    · intro i hi
      omega
  · have hfr : ∀ i, o.vec.ptr * (w : Int) ≤ i → i < o.vec.ptr * (w : Int) + (o.vec.cap : Int) * (w : Int) →
        bitAt h'.mem i = bitAt h.mem i := by
      intro i h1 h2
      refine s.frame i (by omega) ?_
      rcases hs with h | h | h | h
      · rw [h]; simp only [Int.natCast_zero, Int.zero_mul]; omega
      · exact absurd h ho
      · right; omega
      · left; omega
    have hf := r.fit
    have hl := r.len
    refine ⟨⟨⟨r.ok.cap, by omega, ?_⟩, r.len, r.fit, ?_⟩, ?_⟩
    · intro i h1 h2
      rw [hfr i h1 (by omega)]
      exact r.ok.mapped i h1 h2
    · intro i hi
      have : ((l.length : Nat) : Int) ≤ (o.vec.size : Int) * (w : Int) := by
        rw [← hl]; exact_mod_cast hf
      rw [hfr _ (by omega) (by omega)]
      exact r.bits i hi
    · rcases s.region with ⟨e1, e2⟩ | e
      · unfold Sep at *; rw [e1, e2]; exact hs
      · right; right; right; omega

theorem Rep.uniq {h : Heap w} {v : BV} {l l' : List Bool} (r : Rep h v l) (r' : Rep h v l') : l = l' := by
  have h1 := r.len
  have h2 := r'.len
  refine List.ext_getElem (by omega) ?_
  intro i hi hi'
  have := r.bits i hi
  rw [r'.bits i hi'] at this
  exact (Option.some.inj this).symm

/-! ### Growing and shrinking by one word -/

theorem wpV_room (hw : 0 < w) {P : Policy} {v : BV} {h : Heap w} {l : List Bool} {Q : Vec → Heap w → Prop}
    (hwf : h.WF) (hr : Rep h v l)
    (hQ : ∀ vec h', VStep h v.vec h' vec → VecOk h' vec → v.length + 1 ≤ vec.size * w →
      (∀ j, 0 ≤ j → j < (l.length : Int) → bitAt h'.mem (vec.ptr * (w : Int) + j) = l[j.toNat]?) → Q vec h') :
    wpV (v.room P) h Q := by
  have hf := hr.fit
  have hl := hr.len
  have hfi : (v.length : Int) ≤ (v.vec.size : Int) * (w : Int) := by exact_mod_cast hf
  unfold BV.room
  split_ifs with he
  · refine wpV_pushBack hw hwf hr.ok ?_
    intro v' h' s o e hb
    refine hQ v' h' s o ?_ ?_
    · rw [e, Nat.add_mul]; omega
    · intro j h0 h1
      rw [hb j h0 (by omega)]
      exact hr.bit h0 h1
  · exact wpV_pure (hQ _ _ (VStep.refl hwf _) hr.ok (by omega) (fun j h0 h1 => hr.bit h0 h1))

theorem wpV_dropWord (hw : 0 < w) {vec : Vec} {n : Nat} {h : Heap w} {Q : Vec → Heap w → Prop}
    (hwf : h.WF) (ok : VecOk h vec) (hfit : n + 1 ≤ vec.size * w)
    (hQ : ∀ vec' h', VStep h vec h' vec' → VecOk h' vec' → n ≤ vec'.size * w → vec'.ptr = vec.ptr →
      (∀ j, j < (n : Int) → bitAt h'.mem (vec'.ptr * (w : Int) + j) = bitAt h.mem (vec.ptr * (w : Int) + j)) → Q vec' h') :
    wpV (BV.dropWord vec n) h Q := by
  unfold BV.dropWord
  split_ifs with he
  · have hs : 0 < vec.size := by
      rcases Nat.eq_zero_or_pos vec.size with h0 | h0
      · rw [h0, Nat.zero_mul] at hfit; omega
      · exact h0
    have hn : n ≤ (vec.size - 1) * w := by
      obtain ⟨k, hk⟩ := Nat.dvd_of_mod_eq_zero he
      have h1 : w * k < w * vec.size := by rw [Nat.mul_comm w vec.size]; omega
      have h2 : k < vec.size := Nat.lt_of_mul_lt_mul_left h1
      rw [hk, Nat.mul_comm]
      exact Nat.mul_le_mul_right w (by omega)
    have hni : (n : Int) ≤ ((vec.size - 1 : Nat) : Int) * (w : Int) := by exact_mod_cast hn
    refine wpV_popBack hw hwf ok hs ?_
    intro v' h' s o e ep hb
    exact hQ v' h' s o (by rw [e]; exact hn) ep (fun j hj => hb j (by omega))
  · exact wpV_pure (hQ _ _ (VStep.refl hwf _) ok (by omega) rfl (fun _ _ => rfl))

/-! ### Access -/

theorem wpV_get (S : ShiftSem w) (hw : 0 < w) {v : BV} {h : Heap w} {l : List Bool} {i : Nat} {Q : Bool → Heap w → Prop}
    (hr : Rep h v l) (hi : i < l.length) (hQ : Q l[i] h) : wpV (v.get S i) h Q := by
  unfold BV.get BV.index
  rw [wpV_bind]
  refine wpV_onMem (wp_index S hw ?_)
  intro r ha
  rw [BV.begin_addr] at ha
  refine wpV_onMem ?_
  exact wp_refRead ha (hr.bits i hi) hQ

theorem wpV_setBit (S : ShiftSem w) (hw : 0 < w) {v : BV} {h : Heap w} {i : Int} {b : Bool} {Q : Unit → Heap w → Prop}
    (hwf : h.WF) (ok : VecOk h v.vec) (h0 : 0 ≤ i) (h1 : i < (v.vec.size : Int) * (w : Int))
    (hQ : ∀ h', VStep h v.vec h' v.vec → VecOk h' v.vec →
      (∀ j, bitAt h'.mem (v.vec.ptr * (w : Int) + j) = if j = i then some b else bitAt h.mem (v.vec.ptr * (w : Int) + j)) →
      Q () h') :
    wpV (onMem (lift ((v.begin : BitIter w).index S i)) >>= fun r => onMem (r.assignVal ⟨b⟩)) h Q := by
  rw [wpV_bind]
  refine wpV_onMem (wp_index S hw ?_)
  intro r ha
  rw [BV.begin_addr] at ha
  refine wpV_onMem ?_
  refine wp_assignVal ha (ok.bit h0 h1) ?_
  intro m' hm
  refine hQ _ (VStep.ofMem hwf ok ?_) (ok.ofMem (hm.sameMapped (ok.bit h0 h1))) ?_
  · intro j hj
    dsimp only at *
    rw [hm j, if_neg (by omega)]
  · intro j
    dsimp only
    rw [hm]
    split_ifs <;> first | rfl | (exfalso; omega)

theorem wpV_bind_assoc {x : V w α} {f : α → V w β} {γ : Type} {g : β → V w γ} {h : Heap w} {Q : γ → Heap w → Prop} :
    wpV (x >>= fun a => f a >>= g) h Q ↔ wpV (x >>= f) h (fun b h' => wpV (g b) h' Q) := by
  rw [wpV_bind, wpV_bind]
  simp only [wpV_bind]

theorem wpV_set (S : ShiftSem w) (hw : 0 < w) {v : BV} {h : Heap w} {l : List Bool} {i : Nat} {b : Bool} {Q : BV → Heap w → Prop}
    (hwf : h.WF) (hr : Rep h v l) (hi : i < l.length)
    (hQ : ∀ h', VStep h v.vec h' v.vec → Rep h' v (l.set i b) → Q v h') : wpV (v.set S i b) h Q := by
  have hf := hr.fit
  have hl := hr.len
  have hfi : (v.length : Int) ≤ (v.vec.size : Int) * (w : Int) := by exact_mod_cast hf
  unfold BV.set BV.index
  rw [wpV_bind_assoc]
  refine wpV_setBit S hw hwf hr.ok (by omega) (by omega) ?_
  intro h' s o hb
  refine wpV_pure (hQ h' s (Rep.of o (by rw [List.length_set]; exact hl) hf ?_))
  intro j h0 h1
  rw [List.length_set] at h1
  rw [hb j, List.getElem?_set]
  split_ifs <;> first | rfl | (exfalso; omega) | exact hr.bit h0 h1

/-! ### `push_back`, `pop_back` -/

theorem wpV_push (S : ShiftSem w) (hw : 0 < w) {P : Policy} {v : BV} {h : Heap w} {l : List Bool} {b : Bool} {Q : BV → Heap w → Prop}
    (hwf : h.WF) (hr : Rep h v l)
    (hQ : ∀ v' h', VStep h v.vec h' v'.vec → Rep h' v' (l ++ [b]) → Q v' h') : wpV (v.pushBack S P b) h Q := by
  have hl := hr.len
  unfold BV.pushBack
  rw [wpV_bind]
  refine wpV_room hw hwf hr ?_
  intro vec h1 s1 o1 hf1 hb1
  have hfi : (v.length : Int) + 1 ≤ (vec.size : Int) * (w : Int) := by exact_mod_cast hf1
  dsimp only
  rw [wpV_bind_assoc]
  refine wpV_setBit (v := ⟨vec, v.length⟩) S hw s1.wf o1 (by omega) (by dsimp only; omega) ?_
  intro h' s o hb
  refine wpV_pure (hQ _ h' (s1.trans s) (Rep.of o (by simp [hl]) hf1 ?_))
  intro j h0 h2
  rw [List.length_append, List.length_singleton] at h2
  rw [hb j, List.getElem?_append]
  split_ifs with h3 h4 h4
  · omega
  · rw [show j.toNat - l.length = 0 by omega]; rfl
  · exact hb1 j h0 (by omega)
  · omega

theorem subSize_of_le {a b : Nat} (h : b ≤ a) : subSize a b = a - b := by
  unfold subSize toSize
  rw [if_pos (by omega)]; omega

theorem wpV_pop (hw : 0 < w) {v : BV} {h : Heap w} {l : List Bool} {Q : BV → Heap w → Prop}
    (hwf : h.WF) (hr : Rep h v l) (hne : l ≠ [])
    (hQ : ∀ v' h', VStep h v.vec h' v'.vec → Rep h' v' l.dropLast → Q v' h') : wpV v.popBack h Q := by
  have hl := hr.len
  have hf := hr.fit
  have hpos : 0 < l.length := List.length_pos_iff.2 hne
  unfold BV.popBack
  rw [subSize_of_le (by omega)]
  dsimp only
  rw [wpV_bind]
  refine wpV_dropWord hw hwf hr.ok (by omega) ?_
  intro vec' h' s o hf' ep hb
  refine wpV_pure (hQ _ h' s (Rep.of o (by simp [hl]) hf' ?_))
  intro j h0 h1
  rw [List.length_dropLast] at h1
  rw [hb j (by omega), hr.bit h0 (by omega), List.getElem?_dropLast, if_pos (by omega)]

/-! ### `insert` -/

/-- The shift that opens a gap of `n` bits at position `d`. -/
theorem wp_gap (S : ShiftSem w) (hw : 0 < w) {v : BV} {h : Heap w} {l : List Bool} {d n : Nat} {Q : BitIter w → Mem w → Prop}
    (ok : VecOk h v.vec) (hd : d ≤ l.length) (hlen : v.length = l.length + n) (hn : 0 < n) (hfit : v.length ≤ v.vec.size * w)
    (hb : ∀ j, 0 ≤ j → j < (l.length : Int) → bitAt h.mem (v.vec.ptr * (w : Int) + j) = l[j.toNat]?)
    (hfull : ¬ (d % w = 0 ∧ v.length - d = w ∧ n < w) ∨ S.FullShiftOk)
    (hQ : ∀ r m', SameMapped h.mem m' →
      (∀ i, (i < v.vec.ptr * (w : Int) + d ∨ v.vec.ptr * (w : Int) + v.length ≤ i) → bitAt m' i = bitAt h.mem i) →
      (∀ j : Int, (d : Int) + n ≤ j → j < v.length → bitAt m' (v.vec.ptr * (w : Int) + j) = l[(j - n).toNat]?) → Q r m') :
    wp (shiftRight S (v.begin.add (d : Int)) (v.begin.add (v.length : Int)) (n : Int)) h.mem Q := by
  have hfi : (v.length : Int) ≤ (v.vec.size : Int) * (w : Int) := by exact_mod_cast hfit
  obtain ⟨p1, p2⟩ := IsPos.begin_add hw v d
  obtain ⟨q1, q2⟩ := IsPos.begin_add hw v v.length
  have hz := (IsPos.begin_add hw v d).pos_zero
  refine wp_shiftRight S p1 q1 (by omega) ?_ ?_ (by omega) ?_ ?_
  · intro i h1 h2
    exact ok.mapped i (by omega) (by omega)
  · refine hfull.imp (fun hc h' => hc ⟨hz.1 h'.1, ?_, ?_⟩) id
    · omega
    · omega
  · intro _ h2
    refine hQ _ _ (fun _ => rfl) (fun _ _ => rfl) ?_
    intro j hj1 hj2
    omega
  · intro _ h2 m' hs
    obtain ⟨s1, s2, s3⟩ := hs
    rw [p2, q2] at s1 s2
    refine hQ _ _ s3 ?_ ?_
    · intro i hi
      exact s2 i hi
    · intro j hj1 hj2
      rw [s1 _ (by omega) (by omega)]
      rw [← hb (j - n) (by omega) (by omega)]
      congr 1
      omega

theorem wpV_insert (S : ShiftSem w) (hw : 0 < w) {P : Policy} {v : BV} {h : Heap w} {l : List Bool} {b : Bool} {pos : BitIter w}
    {d : Nat} {Q : BV × BitIter w → Heap w → Prop}
    (hwf : h.WF) (hr : Rep h v l) (hp : IsPos v pos d) (hd : d ≤ l.length)
    (hfull : ¬ (d % w = 0 ∧ l.length + 1 - d = w ∧ 1 < w) ∨ S.FullShiftOk)
    (hQ : ∀ v' it h', VStep h v.vec h' v'.vec → Rep h' v' (l.take d ++ [b] ++ l.drop d) → IsPos v' it d → Q (v', it) h') :
    wpV (v.insert S P pos b) h Q := by
  have hl := hr.len
  obtain ⟨hp1, hp2⟩ := hp
  unfold BV.insert
  rw [wpV_bind]
  refine wpV_onMem ?_
  rw [wp_distance]
  refine ⟨by rw [BV.begin_addr]; omega, ?_⟩
  rw [BV.begin_addr, show pos.addr - v.vec.ptr * (w : Int) = (d : Int) by omega]
  show wpV _ h Q
  rw [wpV_bind]
  refine wpV_room hw hwf hr ?_
  intro vec h1 s1 o1 hf1 hb1
  have hfi : (v.length : Int) + 1 ≤ (vec.size : Int) * (w : Int) := by exact_mod_cast hf1
  dsimp only
  rw [wpV_bind]
  refine wpV_onMem ?_
  refine wp_gap (v := ⟨vec, v.length + 1⟩) (n := 1) S hw o1 hd (by dsimp only; omega) (by omega) hf1 hb1 ?_ ?_
  · dsimp only
    rw [hl]; exact hfull
  intro r m2 hs2 hb2 hb3
  dsimp only at hb2 hb3
  have s2 : VStep h1 vec { h1 with mem := m2 } vec := VStep.ofMem s1.wf o1 (fun i hi => hb2 i (by omega))
  have o2 := o1.ofMem hs2
  rw [wpV_bind_assoc]
  refine wpV_setBit (v := ⟨vec, v.length + 1⟩) S hw s2.wf o2 (by omega) (by dsimp only; omega) ?_
  intro h3 s3 o3 hb4
  refine wpV_pure (hQ _ _ h3 ((s1.trans s2).trans s3) (Rep.of o3 ?_ hf1 ?_) (IsPos.begin_add hw _ d))
  · simp [hl]; omega
  · intro j h0 h2
    simp at h2
    dsimp only at hb4 ⊢
    rw [hb4 j, getElem?_splice _ _ _ _ hd]
    simp only [List.length_singleton]
    split_ifs with c1 c2 c3 c2 c3
    · omega
    · rw [show j.toNat - d = 0 by omega]; rfl
    · omega
    · rw [hb2 _ (by omega)]; exact hb1 j h0 (by omega)
    · omega
    · rw [hb3 j (by omega) (by omega)]
      congr 1; omega

end BitLib
