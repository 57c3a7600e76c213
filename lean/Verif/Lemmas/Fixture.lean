import Verif.Lemmas.Tests
/-
The fixtures of the test suite.
-/
namespace BitLib.Tests
open Op (at')
variable {w : Nat}

theorem wp_storeWords (l : List (BitVec w)) {a : Int} {m : Mem w} {Q : Unit → Mem w → Prop}
    (hm : ∀ k : Nat, k < l.length → ∃ y, m (a + (k : Int)) = some y) (hQ : Q () (m.place a l.length fun i => l[i]?)) :
    wp (storeWords l a) m Q := by
  induction l generalizing a m with
  | nil =>
    unfold storeWords
    have : m.place a 0 (fun i => ([] : List (BitVec w))[i]?) = m := by
      funext b
      unfold Mem.place
      rw [if_neg (by omega)]
    rw [List.length_nil, this] at hQ
    exact wp_pure.2 hQ
  | cons x l ih =>
    unfold storeWords
    rw [wp_bind, wp_store]
    refine ⟨by simpa using hm 0 (by simp), ?_⟩
    refine ih (fun k hk => ?_) ?_
    · obtain ⟨y, hy⟩ := hm (k + 1) (by simpa using hk)
      refine ⟨y, ?_⟩
      unfold Mem.set
      rw [if_neg (by omega), ← hy]
      congr 1
      push_cast
      omega
    · convert hQ using 1
      funext b
      unfold Mem.place Mem.set
      rw [List.length_cons]
      push_cast
      by_cases h0 : b = a
      · subst h0
        rw [if_neg (by omega), if_pos rfl, if_pos (by omega)]
        simp
      · by_cases h1 : a + 1 ≤ b ∧ b < a + 1 + (l.length : Int)
        · rw [if_pos h1, if_pos (by omega), show (b - a).toNat = (b - (a + 1)).toNat + 1 by omega]
          simp
        · rw [if_neg h1, if_neg h0, if_neg (by omega)]

/-- The words of a vector are replaced. -/
theorem wpV_storeWords (hw : 0 < w) {l : List (BitVec w)} {v : BV} {h : Heap w} {l0 : List Bool} {Q : Unit → Heap w → Prop} (hwf : h.WF)
    (r : Rep h v l0) (hlen : v.length = l.length * w)
    (hQ : ∀ h', VStep h v.vec h' v.vec → Rep h' v (bitsOfWords l) → Q () h') : wpV (onMem (storeWords l v.vec.ptr)) h Q := by
  have hfit := r.fit
  rw [hlen] at hfit
  have hsz : l.length ≤ v.vec.size := Nat.le_of_mul_le_mul_right hfit hw
  have hc := nat_mul_cast_le (w := w) hsz
  have hc2 := nat_mul_cast_le (w := w) r.ok.cap
  have hbelow := r.ok.below
  refine wpV_onMem (wp_storeWords l (fun k hk => ?_) (hQ _ ?_ ?_))
  · have hk' : (v.vec.ptr + (k : Int)) * (w : Int) = v.vec.ptr * w + (k : Int) * w := Int.add_mul ..
    have h2 := nat_mul_cast_le (w := w) (show k + 1 ≤ v.vec.size by omega)
    push_cast at h2
    rw [Int.add_mul] at h2
    refine mapped_word hw (i := v.vec.ptr * w + (k : Int) * w) (by omega) (by omega) (r.ok.mapped _ ?_ ?_)
    · have : 0 ≤ (k : Int) * (w : Int) := Int.mul_nonneg (by omega) (by omega)
      omega
    · omega
  · refine ⟨⟨hwf.nonneg, fun i hi => ?_⟩, Int.le_refl _, fun i hi ho => ?_, .inl ⟨rfl, rfl⟩⟩
    · dsimp only at hi ⊢
      rw [bitAt_place hw, if_neg (by omega)]
      exact hwf.unused i hi
    · dsimp only
      rw [bitAt_place hw, if_neg (by omega)]
  · have hb : ∀ j : Nat, j < l.length * w → bitAt (h.mem.place v.vec.ptr l.length fun i => l[i]?) (v.vec.ptr * (w : Int) + (j : Int)) = (bitsOfWords l)[j]? := by
      intro j hj
      have hj' : (j : Int) < (l.length : Int) * (w : Int) := by exact_mod_cast hj
      rw [bitAt_place hw, if_pos (by omega), bitsOfWords_get hw]
      have e1 : (v.vec.ptr * (w : Int) + (j : Int)) / (w : Int) - v.vec.ptr = ((j / w : Nat) : Int) := by
        rw [Int.add_comm, Int.add_mul_ediv_right _ _ (by omega)]
        push_cast
        omega
      have e2 : (v.vec.ptr * (w : Int) + (j : Int)) % (w : Int) = ((j % w : Nat) : Int) := by
        rw [Int.add_comm, Int.add_mul_emod_self_right]
        push_cast
        rfl
      rw [e1, e2]
      rfl
    refine ⟨⟨r.ok.cap, r.ok.below, fun i h1 h2 => ?_⟩, by rw [bitsOfWords_length, hlen], by rw [hlen]; exact hfit, fun i hi => ?_⟩
    · by_cases hj : i < v.vec.ptr * w + (l.length : Int) * w
      · have hj' : (i - v.vec.ptr * w).toNat < l.length * w := by
          have : ((l.length * w : Nat) : Int) = (l.length : Int) * (w : Int) := by push_cast; rfl
          omega
        have := hb _ hj'
        rw [show v.vec.ptr * (w : Int) + ((i - v.vec.ptr * w).toNat : Int) = i by omega] at this
        show (bitAt (h.mem.place v.vec.ptr l.length fun i => l[i]?) i).isSome
        rw [this, List.getElem?_eq_getElem (by rw [bitsOfWords_length]; exact hj')]
        rfl
      · show (bitAt (h.mem.place v.vec.ptr l.length fun i => l[i]?) i).isSome
        rw [bitAt_place hw, if_neg (by omega)]
        exact r.ok.mapped i h1 h2
    · have hi' := hi
      rw [bitsOfWords_length] at hi'
      rw [← List.getElem?_eq_getElem hi]
      exact hb i hi'

/-- Nothing below `n0` has changed, and `v` owns nothing there. -/
structure Low (w : Nat) (h0 h : Heap w) (v : Vec) : Prop where
  next : h0.next * (w : Int) ≤ h.next * (w : Int)
  same : ∀ i, i < h0.next * (w : Int) → bitAt h.mem i = bitAt h0.mem i
  loc : v.cap = 0 ∨ h0.next * (w : Int) ≤ v.ptr * (w : Int)

theorem Low.step {h0 h h' : Heap w} {v v' : Vec} (l : Low w h0 h v) (s : VStep h v h' v') : Low w h0 h' v' := by
  obtain ⟨n, sm, lo⟩ := l
  have := s.next
  refine ⟨by omega, fun i hi => ?_, ?_⟩
  · rw [s.frame i (by omega) ?_, sm i hi]
    rcases lo with h0 | h0
    · rw [h0]
      push_cast
      omega
    · exact .inl (by omega)
  · rcases s.region with ⟨h1, h2⟩ | h1
    · rw [h1, h2]; exact lo
    · exact .inr (by omega)

theorem low_start (h : Heap w) : Low w h h Vec.empty := ⟨Int.le_refl _, fun _ _ => rfl, .inl rfl⟩

/-- One random vector of a fixture. -/
theorem wpV_setUpOne (hw : 0 < w) {P : Policy} {words : List (BitVec w)} {n : Nat} {h : Heap w} {Q : BV → Heap w → Prop} (hwf : h.WF)
    (hs : words.length * w < 2 ^ 32) (hn : n ≤ words.length * w)
    (hQ : ∀ v h', VStep h Vec.empty h' v.vec → Rep h' v ((bitsOfWords words).take n) → Q v h') : wpV (setUpOne P words n) h Q := by
  unfold setUpOne
  rw [wpV_bind]
  refine wpV_ofCount hw hwf hs fun v h1 s1 r1 => ?_
  have hl1 : v.length = words.length * w := by rw [r1.len, List.length_replicate]
  rw [wpV_bind]
  refine wpV_storeWords hw s1.wf r1 hl1 fun h2 s2 r2 => ?_
  rw [wpV_bind]
  refine wpV_resizeBV hw s2.wf r2 (by omega) fun v' h3 s3 r3 => ?_
  have e3 : (List.range n).map (storedBit h2 v.vec) = (bitsOfWords words).take n := by
    refine List.ext_getElem? fun i => ?_
    have hlen := bitsOfWords_length words
    by_cases hi : i < n
    · rw [List.getElem?_map, List.getElem?_range hi, Option.map_some, List.getElem?_take_of_lt hi,
        storedBit_old r2 (by omega), List.getElem?_eq_getElem]
    · rw [List.getElem?_eq_none (by simp; omega), List.getElem?_eq_none (by simp; omega)]
  rw [e3] at r3
  rw [wpV_bind]
  refine wpV_copyOf hw s3.wf r3 fun r h4 s4 r4 => ?_
  rw [wpV_bind]
  have s5 := release_ok hw (v := v'.vec) s4.wf
  refine ⟨_, _, rfl, wpV_pure (hQ r _ ?_ ?_)⟩
  · have l3 : Low w h h3 v'.vec := (((low_start h).step s1).step s2).step s3
    have l4 : Low w h h4 v'.vec := by
      have := s4.next
      refine ⟨by have := l3.next; omega, fun i hi => ?_, l3.loc⟩
      rw [s4.frame i (by have := l3.next; omega) (by show i < -1 * (w : Int) ∨ -1 * (w : Int) + ((0 : Nat) : Int) * _ ≤ i; push_cast; omega), l3.same i hi]
    have l5 := l4.step s5
    refine ⟨s5.wf, l5.next, fun i hi _ => l5.same i hi, ?_⟩
    rcases s4.region with h1 | h1
    · exact .inl h1
    · exact .inr (by have := l3.next; omega)
  · have hsep := (r3.frame s4 (.inl rfl)).2
    exact (r4.frame s5 hsep.symm).1

theorem wpV_setUp (hw : 0 < w) {P : Policy} (xs : List (List (BitVec w) × Nat)) {vs : List BV} {ls : List (List Bool)} {h : Heap w}
    {Q : List BV → Heap w → Prop} (e : EnvOk h vs ls) (hx : ∀ x ∈ xs, x.1.length * w < 2 ^ 32 ∧ x.2 ≤ x.1.length * w)
    (hQ : ∀ vs' h', EnvOk h' vs' (ls ++ xs.map fun x => (bitsOfWords x.1).take x.2) → Q vs' h') : wpV (setUp P xs vs) h Q := by
  induction xs generalizing vs ls h with
  | nil =>
    refine wpV_pure (hQ _ _ ?_)
    simpa using e
  | cons x xs ih =>
    unfold setUp
    rw [wpV_bind]
    obtain ⟨h1, h2⟩ := hx x List.mem_cons_self
    refine wpV_setUpOne hw e.wf h1 h2 fun v h' s r => ih (e.push s r) (fun y hy => hx y (List.mem_cons_of_mem _ hy)) fun vs' h' e' => hQ vs' h' ?_
    simpa using e'

end BitLib.Tests
