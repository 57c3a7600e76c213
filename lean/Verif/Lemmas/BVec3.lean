import Verif.Lemmas.BVec2
/- `bit_vector`: constructors, copies, moves, `debug_string`. -/
namespace BitLib
variable {w : Nat} {α β : Type}

theorem wpV_freshBits (hw : 0 < w) {P : Policy} {n : Nat} {f : Nat → Option (BitVec w)} {h : Heap w} {Q : Vec → Heap w → Prop}
    (hwf : h.WF) (hf : ∀ k, k < n → (f k).isSome)
    (hQ : ∀ v h', VStep h Vec.empty h' v → VecOk h' v → v.size = n → h.next * (w : Int) ≤ v.ptr * (w : Int) →
      (∀ i, i < h.next * (w : Int) → bitAt h'.mem i = bitAt h.mem i) →
      (∀ j : Nat, j < n * w → bitAt h'.mem (v.ptr * (w : Int) + (j : Int)) = (f (j / w)).map (·.getLsbD (j % w))) → Q v h') :
    wpV (Vec.fresh P n f) h Q := by
  refine wpV_fresh hw hwf ?_
  intro v h' s hp hc hb e hbit hlow
  have hbit' : ∀ j : Nat, j < n * w → bitAt h'.mem (v.ptr * (w : Int) + (j : Int)) = (f (j / w)).map (·.getLsbD (j % w)) := by
    intro j hj
    have h1 := Nat.div_add_mod j w
    rw [Nat.mul_comm] at h1
    have := hbit (j / w) (j % w) ((Nat.div_lt_iff_lt_mul hw).2 hj) (Nat.mod_lt _ hw)
    rw [h1] at this
    exact this
  refine hQ v h' s ⟨hc, hb, ?_⟩ e hp hlow hbit'
  intro i h1 h2
  have hcast : ((n * w : Nat) : Int) = (n : Int) * (w : Int) := by push_cast; rfl
  rw [e] at h2
  have := hbit' (i - v.ptr * (w : Int)).toNat (by omega)
  rw [show v.ptr * (w : Int) + ((i - v.ptr * (w : Int)).toNat : Int) = i by omega] at this
  rw [this, Option.isSome_map]
  exact hf _ ((Nat.div_lt_iff_lt_mul hw).2 (by omega))

theorem wpV_freshConst (hw : 0 < w) {P : Policy} {n : Nat} (b : Bool) {x : BitVec w} (hx : ∀ k, k < w → x.getLsbD k = b) {h : Heap w}
    {Q : Vec → Heap w → Prop} (hwf : h.WF)
    (hQ : ∀ v h', VStep h Vec.empty h' v → VecOk h' v → v.size = n → h.next * (w : Int) ≤ v.ptr * (w : Int) →
      (∀ i, i < h.next * (w : Int) → bitAt h'.mem i = bitAt h.mem i) →
      (∀ j : Int, 0 ≤ j → j < (n : Int) * (w : Int) → bitAt h'.mem (v.ptr * (w : Int) + j) = some b) → Q v h') :
    wpV (Vec.fresh P n fun _ => some x) h Q := by
  refine wpV_freshBits hw hwf (fun _ _ => rfl) ?_
  intro v h' s o e hp hlow hb
  refine hQ v h' s o e hp hlow ?_
  intro j h0 h1
  have hcast : ((n * w : Nat) : Int) = (n : Int) * (w : Int) := by push_cast; rfl
  have := hb j.toNat (by omega)
  rw [show ((j.toNat : Nat) : Int) = j by omega] at this
  rw [this, Option.map_some, hx _ (Nat.mod_lt _ hw)]

theorem wpV_ofCountVal (hw : 0 < w) {P : Policy} {n : Nat} {b : Bool} {h : Heap w} {Q : BV → Heap w → Prop}
    (hwf : h.WF) (hn : n < 2 ^ 32)
    (hQ : ∀ v h', VStep h Vec.empty h' v.vec → Rep h' v (List.replicate n b) → Q v h') : wpV (BV.ofCountVal P n b) h Q := by
  have hwc := wordCount_ge hw hn
  have hwci : (n : Int) ≤ (wordCount w n : Int) * (w : Int) := by exact_mod_cast hwc
  unfold BV.ofCountVal
  rw [wpV_bind]
  refine wpV_freshConst hw b ?_ hwf ?_
  · intro k hk
    cases b
    · simp
    · simp [hk]
  intro v h' s o e _ _ hb
  refine wpV_pure (hQ _ _ s (Rep.of o (by simp) (by rw [e]; exact hwc) ?_))
  intro j h0 h1
  rw [List.length_replicate] at h1
  rw [List.getElem?_replicate, if_pos (by omega)]
  exact hb j h0 (by omega)

theorem wpV_ofCount (hw : 0 < w) {P : Policy} {n : Nat} {h : Heap w} {Q : BV → Heap w → Prop}
    (hwf : h.WF) (hn : n < 2 ^ 32)
    (hQ : ∀ v h', VStep h Vec.empty h' v.vec → Rep h' v (List.replicate n false) → Q v h') : wpV (BV.ofCount P n) h Q := by
  have := wpV_ofCountVal (b := false) hw (P := P) hwf hn hQ
  exact this

theorem le_mul_self (hw : 0 < w) (n : Nat) : n ≤ n * w := Nat.le_mul_of_pos_right n hw

theorem wp_writeBools (S : ShiftSem w) (hw : 0 < w) (l : List Bool) {d : BitIter w} {m : Mem w} {Q : Unit → Mem w → Prop} (hd : d.Valid)
    (hm : Mapped m d.addr (d.addr + l.length))
    (hQ : ∀ m', Wrote m m' d.addr (d.addr + l.length) (fun i => l[(i - d.addr).toNat]?) → Q () m') :
    wp (BV.writeBools S l d) m Q := by
  induction l generalizing d m with
  | nil =>
    unfold BV.writeBools
    rw [wp_pure]
    apply hQ
    intro i
    rw [List.length_nil]
    exact (if_neg (by omega)).symm
  | cons b l ih =>
    rw [List.length_cons] at hm
    unfold BV.writeBools
    rw [wp_bind]
    refine wp_deref S hd ?_
    intro r hr
    rw [wp_bind]
    refine wp_assignVal hr (hm _ (by omega) (by omega)) ?_
    intro m1 h1
    have hs := h1.sameMapped (hm _ (by omega) (by omega))
    have hi : d.inc.addr = d.addr + 1 := by rw [BitIter.inc_eq_add hd, BitIter.add_addr hw]
    have hiv : d.inc.Valid := by rw [BitIter.inc_eq_add hd]; exact BitIter.add_valid hw _ _
    refine ih hiv ?_ ?_
    · intro i ha hb
      rw [hs i]
      exact hm i (by omega) (by omega)
    · intro m2 h2
      apply hQ
      intro i
      rw [h2 i, h1 i, hi, List.length_cons]
      beta_reduce
      split_ifs with c1 c2 c3 c2
      · rw [show (i - d.addr).toNat = (i - (d.addr + 1)).toNat + 1 by omega, List.getElem?_cons_succ]
      · omega
      · rw [show (i - d.addr).toNat = 0 by omega]; rfl
      · omega
      · omega
      · rfl

theorem digitsOf_cons (c : Char) (s : List Char) :
    digitsOf (c :: s) = if c = '0' then false :: digitsOf s else if c = '1' then true :: digitsOf s else digitsOf s := by
  unfold digitsOf
  rw [List.filterMap_cons]
  split_ifs <;> rfl

theorem digitsOf_append (s t : List Char) : digitsOf (s ++ t) = digitsOf s ++ digitsOf t := by
  unfold digitsOf
  rw [List.filterMap_append]

theorem length_digitsOf (s : List Char) : (digitsOf s).length = s.count '0' + s.count '1' := by
  induction s with
  | nil => rfl
  | cons c s ih =>
    rw [digitsOf_cons, List.count_cons, List.count_cons]
    split_ifs with h1 h2 h2 h3 h3
    all_goals first
      | (simp_all; done)
      | (rw [List.length_cons]; simp_all; omega)

theorem wp_writeChars (S : ShiftSem w) (hw : 0 < w) (s : List Char) {it : BitIter w} {k : Nat} {m : Mem w} {Q : Unit → Mem w → Prop}
    (hm : Mapped m (it.addr + k) (it.addr + k + (digitsOf s).length))
    (hQ : ∀ m', Wrote m m' (it.addr + k) (it.addr + k + (digitsOf s).length) (fun i => (digitsOf s)[(i - it.addr - k).toNat]?) → Q () m') :
    wp (BV.writeChars S it s k) m Q := by
  induction s generalizing k m with
  | nil =>
    unfold BV.writeChars
    rw [wp_pure]
    apply hQ
    intro i
    have e : (digitsOf ([] : List Char)).length = 0 := rfl
    rw [e]
    exact (if_neg (by omega)).symm
  | cons c s ih =>
    unfold BV.writeChars
    have key : ∀ b : Bool, digitsOf (c :: s) = b :: digitsOf s →
        wp (do let r ← lift (it.index S (k : Int)); r.assignVal ⟨b⟩; BV.writeChars S it s (k + 1)) m Q := by
      intro b hb
      rw [hb, List.length_cons] at hm
      rw [wp_bind]
      refine wp_index S hw ?_
      intro r hr
      rw [wp_bind]
      refine wp_assignVal hr (hm _ (by omega) (by omega)) ?_
      intro m1 h1
      have hs := h1.sameMapped (hm _ (by omega) (by omega))
      refine ih ?_ ?_
      · intro i ha hb
        rw [hs i]
        exact hm i (by omega) (by omega)
      · intro m2 h2
        apply hQ
        rw [hb]
        intro i
        rw [h2 i, h1 i, List.length_cons]
        beta_reduce
        split_ifs with c1 c2 c3 c2
        · rw [show (i - it.addr - k).toNat = (i - it.addr - (k + 1 : Nat)).toNat + 1 by omega, List.getElem?_cons_succ]
        · omega
        · rw [show (i - it.addr - k).toNat = 0 by omega]; rfl
        · omega
        · omega
        · rfl
    split_ifs with h1 h2
    · exact key false (by rw [digitsOf_cons, if_pos h1])
    · exact key true (by rw [digitsOf_cons, if_neg h1, if_pos h2])
    · have e : digitsOf (c :: s) = digitsOf s := by rw [digitsOf_cons, if_neg h1, if_neg h2]
      rw [e] at hm hQ
      exact ih hm hQ

/-- A vector whose first `s.length` bits have just been written. -/
theorem wrote_rep {h : Heap w} {vec : Vec} {n : Nat} {m' : Mem w} {s : List Bool} (hwf : h.WF) (ok : VecOk h vec) (hn : n = s.length)
    (hfit : n ≤ vec.size * w) {f : Int → Option Bool}
    (hw3 : Wrote h.mem m' (vec.ptr * (w : Int)) (vec.ptr * (w : Int) + s.length) f)
    (hf : ∀ j : Nat, (hj : j < s.length) → f (vec.ptr * (w : Int) + j) = some s[j]) :
    VStep h vec { h with mem := m' } vec ∧ Rep { h with mem := m' } ⟨vec, n⟩ s := by
  have hfi : (n : Int) ≤ (vec.size : Int) * (w : Int) := by exact_mod_cast hfit
  have hfs : ∀ i, vec.ptr * (w : Int) ≤ i → i < vec.ptr * (w : Int) + s.length → (f i).isSome := by
    intro i h1 h2
    have := hf (i - vec.ptr * (w : Int)).toNat (by omega)
    rw [show vec.ptr * (w : Int) + ((i - vec.ptr * (w : Int)).toNat : Int) = i by omega] at this
    rw [this]; rfl
  refine ⟨VStep.ofMem hwf ok ?_, ok.ofMem (hw3.sameMapped ?_ hfs), hn, hfit, ?_⟩
  · intro i hi
    rw [hw3 i, if_neg (by omega)]
  · intro i h1 h2
    exact ok.mapped i h1 (by omega)
  · intro j hj
    dsimp only
    rw [hw3, if_pos (by omega)]
    exact hf j hj

theorem wpV_ofBoolRange (S : ShiftSem w) (hw : 0 < w) {P : Policy} {l : List Bool} {h : Heap w} {Q : BV → Heap w → Prop}
    (hwf : h.WF) (hQ : ∀ v h', VStep h Vec.empty h' v.vec → Rep h' v l → Q v h') : wpV (BV.ofBoolRange S P l) h Q := by
  have hle := le_mul_self hw l.length
  have hlei : (l.length : Int) ≤ (l.length : Int) * (w : Int) := by exact_mod_cast hle
  unfold BV.ofBoolRange
  rw [wpV_bind]
  refine wpV_freshConst hw false (fun _ _ => by simp) hwf ?_
  intro vec h1 s1 o1 e _ _ hb
  dsimp only
  rw [wpV_bind]
  refine wpV_onMem ?_
  refine wp_writeBools S hw l (BV.begin_valid hw _) ?_ ?_
  · rw [BV.begin_addr]
    intro i hi1 hi2
    exact o1.mapped i hi1 (by rw [e]; dsimp only at hi2; omega)
  intro m' hw3
  rw [BV.begin_addr] at hw3
  obtain ⟨s2, r2⟩ := wrote_rep (n := l.length) s1.wf o1 rfl (by rw [e]; exact hle) hw3 (fun j hj => by
    dsimp only
    rw [show (vec.ptr * (w : Int) + j - vec.ptr * (w : Int)).toNat = j by omega, List.getElem?_eq_getElem])
  exact wpV_pure (hQ _ _ (s1.trans s2) r2)

theorem wpV_ofString (S : ShiftSem w) (hw : 0 < w) {P : Policy} {s : List Char} {h : Heap w} {Q : BV → Heap w → Prop}
    (hwf : h.WF) (hQ : ∀ v h', VStep h Vec.empty h' v.vec → Rep h' v (digitsOf s) → Q v h') : wpV (BV.ofString S P s) h Q := by
  unfold BV.ofString
  rw [← length_digitsOf]
  have hle := le_mul_self hw (digitsOf s).length
  have hlei : ((digitsOf s).length : Int) ≤ ((digitsOf s).length : Int) * (w : Int) := by exact_mod_cast hle
  dsimp only
  rw [wpV_bind]
  refine wpV_freshConst hw false (fun _ _ => by simp) hwf ?_
  intro vec h1 s1 o1 e _ _ hb
  rw [wpV_bind]
  refine wpV_onMem ?_
  refine wp_writeChars S hw s ?_ ?_
  · rw [BV.begin_addr]
    intro i hi1 hi2
    dsimp only at hi1 hi2
    exact o1.mapped i (by omega) (by rw [e]; omega)
  intro m' hw3
  rw [BV.begin_addr] at hw3
  dsimp only at hw3
  rw [show vec.ptr * (w : Int) + ((0 : Nat) : Int) = vec.ptr * (w : Int) by omega] at hw3
  obtain ⟨s2, r2⟩ := wrote_rep (n := (digitsOf s).length) s1.wf o1 rfl (by rw [e]; exact hle) hw3 (fun j hj => by
    rw [show (vec.ptr * (w : Int) + j - vec.ptr * (w : Int) - ((0 : Nat) : Int)).toNat = j by omega, List.getElem?_eq_getElem])
  exact wpV_pure (hQ _ _ (s1.trans s2) r2)

theorem wpV_default {h : Heap w} (hwf : h.WF) : VStep h Vec.empty h BV.default.vec ∧ Rep h BV.default [] := by
  refine ⟨VStep.refl hwf _, ⟨Nat.le_refl _, ?_, ?_⟩, rfl, Nat.zero_le _, fun i hi => by simp at hi⟩
  · show (-1 : Int) * (w : Int) + ((0 : Nat) : Int) * (w : Int) ≤ _
    have := hwf.nonneg
    have : 0 ≤ h.next * (w : Int) := Int.mul_nonneg this (by omega)
    simp only [Int.natCast_zero, Int.zero_mul]; omega
  · intro i h1 h2
    have h1' : (-1 : Int) * (w : Int) ≤ i := h1
    have h2' : i < (-1 : Int) * (w : Int) + ((0 : Nat) : Int) * (w : Int) := h2
    simp only [Int.natCast_zero, Int.zero_mul] at h1' h2'
    omega

theorem wpV_pushAll (S : ShiftSem w) (hw : 0 < w) {P : Policy} {v0 : Vec} {h0 : Heap w} (bs : List Bool) {v : BV} {l : List Bool} {h : Heap w}
    {Q : BV → Heap w → Prop} (s0 : VStep h0 v0 h v.vec) (hr : Rep h v l)
    (hQ : ∀ v h', VStep h0 v0 h' v.vec → Rep h' v (l ++ bs) → Q v h') :
    wpV (bs.foldlM (fun v b => v.pushBack S P b) v) h Q := by
  induction bs generalizing v l h with
  | nil => exact wpV_pure (hQ _ _ s0 (by rw [List.append_nil]; exact hr))
  | cons b bs ih =>
    rw [List.foldlM_cons, wpV_bind]
    refine wpV_push S hw s0.wf hr ?_
    intro v' h' s' r'
    refine ih (s0.trans s') r' ?_
    intro v2 h2 s2 r2
    refine hQ v2 h2 s2 ?_
    rw [List.append_assoc] at r2
    exact r2

theorem wpV_ofBoolList (S : ShiftSem w) (hw : 0 < w) {P : Policy} {l : List Bool} {h : Heap w} {Q : BV → Heap w → Prop}
    (hwf : h.WF) (hQ : ∀ v h', VStep h Vec.empty h' v.vec → Rep h' v l → Q v h') : wpV (BV.ofBoolList S P l) h Q := by
  obtain ⟨s, r⟩ := wpV_default hwf
  exact wpV_pushAll S hw l s r hQ

theorem bitsOfWords_length (l : List (BitVec w)) : (bitsOfWords l).length = l.length * w := by
  induction l with
  | nil => simp [bitsOfWords]
  | cons x l ih =>
    unfold bitsOfWords at *
    rw [List.flatMap_cons, List.length_append, ih, List.length_map, List.length_range, List.length_cons, Nat.add_mul]
    omega

theorem bitsOfWords_get (hw : 0 < w) (l : List (BitVec w)) (j : Nat) :
    (bitsOfWords l)[j]? = l[j / w]?.map (·.getLsbD (j % w)) := by
  induction l generalizing j with
  | nil => simp [bitsOfWords]
  | cons x l ih =>
    unfold bitsOfWords at *
    rw [List.flatMap_cons, List.getElem?_append, List.length_map, List.length_range]
    split_ifs with h
    · rw [Nat.div_eq_of_lt h, Nat.mod_eq_of_lt h]
      simp [h]
    · rw [ih]
      have h1 : j = (j - w) + w := by omega
      have h2 : j / w = (j - w) / w + 1 := by
        conv_lhs => rw [h1]
        exact Nat.add_div_right _ hw
      have h3 : j % w = (j - w) % w := by
        conv_lhs => rw [h1]
        exact Nat.add_mod_right _ _
      rw [h2, h3, List.getElem?_cons_succ]

theorem wpV_ofWords (hw : 0 < w) {P : Policy} {l : List (BitVec w)} {h : Heap w} {Q : BV → Heap w → Prop}
    (hwf : h.WF) (hQ : ∀ v h', VStep h Vec.empty h' v.vec → Rep h' v (bitsOfWords l) → Q v h') : wpV (BV.ofWords P l) h Q := by
  unfold BV.ofWords
  rw [wpV_bind]
  refine wpV_freshBits hw hwf (fun k hk => by rw [List.getElem?_eq_getElem hk]; rfl) ?_
  intro v h' s o e _ _ hb
  refine wpV_pure (hQ _ _ s ⟨o, by rw [bitsOfWords_length, e], Nat.le_refl _, ?_⟩)
  intro i hi
  have hi' := hi
  rw [bitsOfWords_length] at hi'
  dsimp only
  rw [hb i hi', ← bitsOfWords_get hw, List.getElem?_eq_getElem]

theorem wpV_ofBits (S : ShiftSem w) (hw : 0 < w) {P : Policy} {first last : BitIter w} {s : List Bool} {h : Heap w} {Q : BV → Heap w → Prop}
    (hwf : h.WF) (hs : HoldsSeq h first last s)
    (hQ : ∀ v h', VStep h Vec.empty h' v.vec → Rep h' v s → Q v h') : wpV (BV.ofBits S P first last) h Q := by
  have hsl := hs.len
  have hle := le_mul_self hw s.length
  have hlei : (s.length : Int) ≤ (s.length : Int) * (w : Int) := by exact_mod_cast hle
  unfold BV.ofBits
  rw [wpV_bind]
  refine wpV_onMem ?_
  rw [wp_distance]
  refine ⟨by omega, ?_⟩
  rw [show last.addr - first.addr = (s.length : Int) by omega, toSize_nat]
  show wpV _ h Q
  rw [wpV_bind]
  refine wpV_freshConst hw false (fun _ _ => by simp) hwf ?_
  intro vec h1 s1 o1 e hp hlow hb
  rw [wpV_bind]
  refine wpV_onMem ?_
  rw [wp_distance]
  refine ⟨by omega, ?_⟩
  rw [show last.addr - first.addr = (s.length : Int) by omega, toSize_nat]
  show wpV _ h1 Q
  dsimp only
  rw [wpV_bind]
  refine wpV_onMem ?_
  have hsrcnext : ∀ i : Nat, i < s.length → first.addr + (i : Int) < h.next * (w : Int) := by
    intro i hi
    rcases Int.lt_or_le (first.addr + (i : Int)) (h.next * (w : Int)) with hc | hc
    · exact hc
    · have := hwf.unused _ hc
      rw [hs.bits i hi] at this
      cases this
  have hsrc : ∀ i : Nat, (hi : i < s.length) → bitAt h1.mem (first.addr + (i : Int)) = some s[i] := by
    intro i hi
    rw [hlow _ (hsrcnext i hi)]
    exact hs.bits i hi
  have hov : vec.ptr * (w : Int) ≤ first.addr ∨ last.addr ≤ vec.ptr * (w : Int) := by
    rcases Nat.eq_zero_or_pos s.length with hz | hz
    · omega
    · have := hsrcnext (s.length - 1) (by omega)
      omega
  refine wp_copy S hs.validFirst hs.validLast (BV.begin_valid hw _) (by omega) ?_ ?_ (by rw [BV.begin_addr]; exact hov) ?_
  · intro i hi1 hi2
    rw [show i = first.addr + ((i - first.addr).toNat : Int) by omega, hsrc _ (by omega)]
    rfl
  · rw [BV.begin_addr]
    intro i hi1 hi2
    dsimp only at hi1 hi2
    exact o1.mapped i hi1 (by rw [e]; omega)
  intro m' r _ _ hw3
  unfold Copied at hw3
  rw [BV.begin_addr, show last.addr - first.addr = (s.length : Int) by omega] at hw3
  obtain ⟨s2, r2⟩ := wrote_rep (n := s.length) s1.wf o1 rfl (by rw [e]; exact hle) hw3 (fun j hj => by
    dsimp only
    rw [show first.addr + (vec.ptr * (w : Int) + j - vec.ptr * (w : Int)) = first.addr + (j : Int) by omega]
    exact hsrc j hj)
  exact wpV_pure (hQ _ _ (s1.trans s2) r2)

/-! ### Copies and moves -/

theorem bitAt_shifted (hw : 0 < w) (m : Mem w) (p : Int) (j : Nat) :
    (m (p + ((j / w : Nat) : Int))).map (·.getLsbD (j % w)) = bitAt m (p * (w : Int) + (j : Int)) := by
  have h1 : (j : Int) = ((j / w : Nat) : Int) * (w : Int) + ((j % w : Nat) : Int) := by
    have := Nat.div_add_mod j w
    rw [Nat.mul_comm] at this
    exact_mod_cast this.symm
  have h2 : p * (w : Int) + (j : Int) = (p + ((j / w : Nat) : Int)) * (w : Int) + ((j % w : Nat) : Int) := by
    rw [Int.add_mul]; omega
  rw [h2, bitAt_word _ _ _ (Nat.mod_lt _ hw)]

theorem wpV_copyVec (hw : 0 < w) {P : Policy} {o : Vec} {h : Heap w} {Q : Vec → Heap w → Prop}
    (hwf : h.WF) (ok : VecOk h o)
    (hQ : ∀ v h', VStep h Vec.empty h' v → VecOk h' v → v.size = o.size → h.next * (w : Int) ≤ v.ptr * (w : Int) →
      (∀ i, i < h.next * (w : Int) → bitAt h'.mem i = bitAt h.mem i) →
      (∀ j : Int, 0 ≤ j → j < (o.size : Int) * (w : Int) →
        bitAt h'.mem (v.ptr * (w : Int) + j) = bitAt h.mem (o.ptr * (w : Int) + j)) → Q v h') :
    wpV (Vec.copyOf P o) h Q := by
  show wpV (Vec.fresh P o.size fun i => h.mem (o.ptr + (i : Int))) h Q
  have hcast : ((o.size * w : Nat) : Int) = (o.size : Int) * (w : Int) := by push_cast; rfl
  refine wpV_freshBits hw hwf ?_ ?_
  · intro k hk
    have h1 : (k : Int) * (w : Int) + w ≤ (o.size : Int) * (w : Int) := base_lt_mul (by omega)
    have h2 : 0 ≤ (k : Int) * (w : Int) := Int.mul_nonneg (by omega) (by omega)
    have := ok.mapped ((o.ptr + k) * (w : Int) + ((0 : Nat) : Int)) (by rw [Int.add_mul]; omega) (by rw [Int.add_mul]; omega)
    rw [bitAt_word _ _ _ hw, Option.isSome_map] at this
    exact this
  intro v h' s okv e hp hlow hb
  refine hQ v h' s okv e hp hlow ?_
  intro j h0 h1
  have := hb j.toNat (by omega)
  rw [bitAt_shifted hw] at this
  rw [show ((j.toNat : Nat) : Int) = j by omega] at this
  exact this

theorem wpV_copyOf (hw : 0 < w) {P : Policy} {o : BV} {l : List Bool} {h : Heap w} {Q : BV → Heap w → Prop}
    (hwf : h.WF) (hr : Rep h o l)
    (hQ : ∀ v h', VStep h Vec.empty h' v.vec → Rep h' v l → Q v h') : wpV (BV.copyOf P o) h Q := by
  have hl := hr.len
  have hfi : (o.length : Int) ≤ (o.vec.size : Int) * (w : Int) := by exact_mod_cast hr.fit
  unfold BV.copyOf
  rw [wpV_bind]
  refine wpV_copyVec hw hwf hr.ok ?_
  intro v h' s okv e _ _ hb
  refine wpV_pure (hQ _ _ s (Rep.of okv hl (by rw [e]; exact hr.fit) ?_))
  intro j h0 h1
  dsimp only
  rw [hb j h0 (by omega)]
  exact hr.bit h0 h1

theorem release_ok (hw : 0 < w) {v : Vec} {h : Heap w} (hwf : h.WF) :
    VStep h v { h with mem := h.mem.place v.ptr v.cap fun _ => none } v := by
  refine ⟨⟨hwf.nonneg, ?_⟩, Int.le_refl _, ?_, Or.inl ⟨rfl, rfl⟩⟩
  · intro i hi
    dsimp only at hi ⊢
    rw [bitAt_place_none hw]
    split_ifs
    · rfl
    · exact hwf.unused i hi
  · intro i hi ho
    dsimp only
    rw [bitAt_place_none hw, if_neg (by omega)]

theorem wpV_copyAssign (hw : 0 < w) {P : Policy} {v o : BV} {l l' : List Bool} {h : Heap w} {Q : BV → Heap w → Prop}
    (hwf : h.WF) (hv : Rep h v l') (hr : Rep h o l)
    (hQ : ∀ v' h', VStep h v.vec h' v'.vec → Rep h' v' l → Q v' h') : wpV (BV.copyAssign P v o) h Q := by
  have hl := hr.len
  have hfi : (o.length : Int) ≤ (o.vec.size : Int) * (w : Int) := by exact_mod_cast hr.fit
  have hvb := hv.ok.below
  unfold BV.copyAssign Vec.copyAssign
  rw [wpV_bind]
  split_ifs with hc
  · have hci := nat_mul_cast_le (w := w) hc
    have hbit : ∀ j, 0 ≤ j → j < (o.vec.size : Int) * (w : Int) →
        bitAt ((h.mem.place v.vec.ptr v.vec.cap fun _ => none).place v.vec.ptr o.vec.size fun i => h.mem (o.vec.ptr + (i : Int)))
          (v.vec.ptr * (w : Int) + j) = bitAt h.mem (o.vec.ptr * (w : Int) + j) := by
      intro j h0 h1
      rw [bitAt_place_move hw, if_pos (by omega)]
      congr 1; omega
    refine ⟨_, _, rfl, wpV_pure (hQ _ _ ⟨⟨hwf.nonneg, ?_⟩, Int.le_refl _, ?_, Or.inl ⟨rfl, rfl⟩⟩ (Rep.of ⟨hc, hvb, ?_⟩ hl hr.fit ?_))⟩
    · intro i hi
      dsimp only at hi ⊢
      rw [bitAt_place_move hw, if_neg (by omega), bitAt_place_none hw]
      split_ifs
      · rfl
      · exact hwf.unused i hi
    · intro i hi ho
      dsimp only
      rw [bitAt_place_move hw, if_neg (by omega), bitAt_place_none hw, if_neg (by omega)]
    · intro i h1 h2
      dsimp only at h1 h2 ⊢
      have := hbit (i - v.vec.ptr * (w : Int)) (by omega) (by omega)
      rw [show v.vec.ptr * (w : Int) + (i - v.vec.ptr * (w : Int)) = i by omega] at this
      rw [this]
      exact hr.mappedBit (by omega) (by omega)
    · intro j h0 h1
      dsimp only
      rw [hbit j h0 (by omega)]
      exact hr.bit h0 h1
  · rw [wpV_bind]
    refine wpV_copyVec hw hwf hr.ok ?_
    intro n h1 s1 ok1 e hp hlow hb
    rw [wpV_bind]
    have hs2 := release_ok hw (v := v.vec) s1.wf
    have hnext := s1.next
    have hout : ∀ i, n.ptr * (w : Int) ≤ i →
        bitAt (h1.mem.place v.vec.ptr v.vec.cap fun _ => none) i = bitAt h1.mem i := by
      intro i hi
      rw [bitAt_place_none hw, if_neg (by omega)]
    refine ⟨_, _, rfl, wpV_pure (wpV_pure (hQ _ _ ⟨hs2.wf, hnext, ?_, Or.inr hp⟩ (Rep.of ⟨ok1.cap, ok1.below, ?_⟩ hl ?_ ?_)))⟩
    · intro i hi ho
      rw [hs2.frame i (by omega) ho]
      exact hlow i hi
    · intro i h1 h2
      dsimp only at h1 h2 ⊢
      rw [hout i h1]
      exact ok1.mapped i h1 h2
    · rw [e]; exact hr.fit
    · intro j h0 h1
      dsimp only
      rw [hout _ (by omega), hb j h0 (by omega)]
      exact hr.bit h0 h1

theorem wpV_moveAssign (hw : 0 < w) {v o : BV} {l : List Bool} {h : Heap w} {Q : BV × BV → Heap w → Prop}
    (hwf : h.WF) (hr : Rep h o l) (hs : Sep w v.vec o.vec)
    (hQ : ∀ h', VStep h v.vec h' v.vec → Rep h' o l → Rep h' BV.default [] → Q (o, BV.default) h') :
    wpV (BV.moveAssign v o) h Q := by
  unfold BV.moveAssign Vec.moveAssign
  rw [wpV_bind, wpV_bind]
  have hst := release_ok hw (v := v.vec) hwf
  refine ⟨_, _, rfl, wpV_pure (wpV_pure (hQ _ hst (hr.frame hst hs).1 (wpV_default hst.wf).2))⟩

/-! ### `debug_string` -/

theorem wp_debugLoop (S : ShiftSem w) (hw : 0 < w) {m : Mem w} (rest : List Bool) {fuel pos : Nat} {it last : BitIter w} {acc : List Char}
    {Q : List Char → Mem w → Prop} (hit : it.Valid) (hla : last.Valid) (hlen : last.addr = it.addr + rest.length)
    (hfuel : rest.length < fuel) (hpos : pos + rest.length < 2 ^ 31)
    (hb : ∀ (i : Nat) (hi : i < rest.length), bitAt m (it.addr + (i : Int)) = some rest[i])
    (hQ : Q (acc ++ grouped w pos rest) m) : wp (BV.debugLoop S fuel it last pos acc) m Q := by
  induction rest generalizing fuel pos it acc with
  | nil =>
    obtain ⟨fuel, rfl⟩ : ∃ k, fuel = k + 1 := ⟨fuel - 1, by simp at hfuel; omega⟩
    unfold BV.debugLoop
    have : it = last := BitIter.addr_inj hit hla (by simp at hlen; omega)
    subst this
    rw [if_neg (by unfold BitIter.bne; simp), wp_pure]
    rw [grouped, List.append_nil] at hQ
    exact hQ
  | cons b rest ih =>
    rw [List.length_cons] at hlen hfuel hpos
    obtain ⟨fuel, rfl⟩ : ∃ k, fuel = k + 1 := ⟨fuel - 1, by omega⟩
    unfold BV.debugLoop
    have hne : it.bne last = true := by
      have hb := BitIter.beq_iff hit hla
      unfold BitIter.beq at hb
      unfold BitIter.bne
      rw [decide_eq_true_iff]
      by_contra hc
      have h1 : it.base = last.base ∧ it.pos = last.pos := by omega
      have := hb.1 (decide_eq_true h1)
      omega
    rw [if_pos hne]
    dsimp only
    rw [wp_bind]
    refine wp_deref S hit ?_
    intro r hr
    rw [wp_bind]
    have hb0 := hb 0 (by rw [List.length_cons]; omega)
    rw [show it.addr + ((0 : Nat) : Int) = it.addr by omega] at hb0
    refine wp_refRead hr hb0 ?_
    rw [if_pos (by omega)]
    have hi : it.inc.addr = it.addr + 1 := by rw [BitIter.inc_eq_add hit, BitIter.add_addr hw]
    have hiv : it.inc.Valid := by rw [BitIter.inc_eq_add hit]; exact BitIter.add_valid hw _ _
    refine ih hiv (by omega) (by omega) (by omega) ?_ ?_
    · intro i hi'
      have := hb (i + 1) (by rw [List.length_cons]; omega)
      rw [hi, show it.addr + 1 + (i : Int) = it.addr + ((i + 1 : Nat) : Int) by omega, this]
      rfl
    · rw [grouped] at hQ
      convert hQ using 1
      rw [List.getElem_cons_zero]
      by_cases h0 : pos = 0
      · simp [h0]
      · by_cases h1 : pos % w = 0
        · simp [h0, h1]
        · by_cases h2 : pos % 8 = 0 <;> simp [h0, h1, h2]

theorem wpV_debugString (S : ShiftSem w) (hw : 0 < w) {v : BV} {l : List Bool} {h : Heap w} {Q : List Char → Heap w → Prop}
    (hr : Rep h v l) (hlen : l.length < 2 ^ 31) (hQ : Q (grouped w 0 l) h) : wpV (BV.debugString S v) h Q := by
  have hl := hr.len
  unfold BV.debugString BV.end
  refine wpV_onMem ?_
  refine wp_debugLoop S hw l (BV.begin_valid hw v) (BitIter.add_valid hw _ _) ?_ (by omega) (by omega) ?_ ?_
  · rw [BitIter.add_addr hw, hl]
  · intro i hi
    rw [BV.begin_addr]
    exact hr.bits i hi
  · exact hQ

theorem digitsOf_grouped (w n : Nat) (l : List Bool) : digitsOf (grouped w n l) = l := by
  induction l generalizing n with
  | nil => rfl
  | cons b l ih =>
    rw [grouped, digitsOf_append, digitsOf_cons, ih]
    have : digitsOf (if n = 0 then [] else if n % w = 0 then [' '] else if n % 8 = 0 then ['.'] else []) = [] := by
      split_ifs <;> rfl
    rw [this]
    cases b <;> rfl

end BitLib
