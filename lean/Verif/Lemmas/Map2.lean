import Verif.Lemmas.Map
/- Proofs for the binary `transform`. -/
namespace BitLib
variable {w : Nat}

theorem Mapd2.zero {f : Bool → Bool → Bool} {m : Mem w} {s t d : Int} : Mapd2 f m m s t d 0 := by
  intro i
  rw [if_neg (by omega)]

theorem Mapd2.comp {f : Bool → Bool → Bool} {m m1 m2 : Mem w} {s t d n k : Int} (hn : 0 ≤ n) (hk : 0 ≤ k)
    (h1 : Mapd2 f m m1 s t d n) (h2 : Mapd2 f m1 m2 (s + n) (t + n) (d + n) k)
    (hov : d ≤ s ∨ s + n + k ≤ d) (hov2 : d ≤ t ∨ t + n + k ≤ d) : Mapd2 f m m2 s t d (n + k) := by
  intro i
  rw [h2 i]
  beta_reduce
  by_cases hi : d + n ≤ i ∧ i < d + n + k
  · rw [if_pos hi, if_pos (by omega), h1 (s + n + (i - (d + n))), if_neg (by omega), h1 (t + n + (i - (d + n))),
      if_neg (by omega), show s + n + (i - (d + n)) = s + (i - d) by omega,
      show t + n + (i - (d + n)) = t + (i - d) by omega]
  · rw [if_neg hi, h1 i]
    beta_reduce
    split_ifs <;> first | rfl | (exfalso; omega)

theorem zipBit_isSome {f : Bool → Bool → Bool} {a b : Option Bool} (ha : a.isSome) (hb : b.isSome) :
    (zipBit f a b).isSome := by
  cases a <;> cases b <;> simp_all [zipBit]

theorem Mapd2.mapped {f : Bool → Bool → Bool} {m m' : Mem w} {s t d n a b : Int} (h : Mapd2 f m m' s t d n)
    (hs : Mapped m s (s + n)) (ht : Mapped m t (t + n)) (hm : Mapped m a b) : Mapped m' a b := by
  refine Wrote.mapped h ?_ hm
  intro i h1 h2
  exact zipBit_isSome (hs _ (by omega) (by omega)) (ht _ (by omega) (by omega))

theorem bitwise2_shl_get {op : BitVec w → BitVec w → BitVec w} {f : Bool → Bool → Bool}
    (hop : ∀ x y i, i < w → (op x y).getLsbD i = f (x.getLsbD i) (y.getLsbD i)) {x y : BitVec w} {p i : Nat}
    (hi : i < w) (hp : p ≤ i) :
    (op (x <<< p) (y <<< p)).getLsbD i = f (x.getLsbD (i - p)) (y.getLsbD (i - p)) := by
  rw [hop _ _ _ hi, BitVec.getLsbD_shiftLeft, BitVec.getLsbD_shiftLeft]
  simp [hi, show ¬ i < p by omega]

theorem mapd2_of_wrote {op : BitVec w → BitVec w → BitVec w} {f : Bool → Bool → Bool}
    (hop : ∀ x y i, i < w → (op x y).getLsbD i = f (x.getLsbD i) (y.getLsbD i)) {m m' : Mem w} {x y : BitVec w}
    {s t a : Int} {p n : Nat} (hpn : p + n ≤ w)
    (hx : ∀ i : Nat, i < n → bitAt m (s + i) = some (x.getLsbD i))
    (hy : ∀ i : Nat, i < n → bitAt m (t + i) = some (y.getLsbD i))
    (hw' : Wrote m m' (a * w + p) (a * w + p + n)
      fun i => some ((op (x <<< p) (y <<< p)).getLsbD (i - a * (w : Int)).toNat)) :
    Mapd2 f m m' s t (a * w + p) n := by
  intro i
  rw [hw' i]
  beta_reduce
  split_ifs with h
  · obtain ⟨k, hk⟩ : ∃ k : Nat, i = a * w + p + k := ⟨(i - (a * w + p)).toNat, by omega⟩
    subst hk
    rw [show s + (a * (w : Int) + p + k - (a * w + p)) = s + k by omega, hx k (by omega),
      show t + (a * (w : Int) + p + k - (a * w + p)) = t + k by omega, hy k (by omega),
      show (a * (w : Int) + p + k - a * w).toNat = p + k by omega, bitwise2_shl_get hop (by omega) (by omega)]
    simp [zipBit]
  · rfl

variable {op : BitVec w → BitVec w → BitVec w} {f : Bool → Bool → Bool}

theorem wp_transform2Head (S : ShiftSem w)
    (hop : ∀ x y i, i < w → (op x y).getLsbD i = f (x.getLsbD i) (y.getLsbD i)) {first1 first2 d : BitIter w} {total : Nat}
    {m : Mem w} {Q : Nat × BitIter w × BitIter w × Int → Mem w → Prop}
    (hf : first1.Valid) (hf2 : first2.Valid) (hd : d.Valid) (ht : 0 < total)
    (hm1 : Mapped m first1.addr (first1.addr + total)) (hm3 : Mapped m first2.addr (first2.addr + total))
    (hm2 : Mapped m d.addr (d.addr + total))
    (hQ : ∀ m' (k : Nat) (first1' first2' : BitIter w) (it : Int), k ≤ total →
      first1'.Valid → first1'.addr = first1.addr + k → first2'.Valid → first2'.addr = first2.addr + k →
      (k < total → it * (w : Int) = d.addr + k) → Mapd2 f m m' first1.addr first2.addr d.addr k →
      Q (total - k, first1', first2', it) m') :
    wp (transform2Head S op first1 first2 d total) m Q := by
  have hd' : d.pos < w := hd
  have hw : 0 < w := by omega
  unfold transform2Head
  by_cases hp : d.pos ≠ 0
  · rw [if_pos hp, wp_bind]
    generalize hk : min total (w - d.pos) = k
    have hk1 : k ≤ total := by omega
    have hk2 : k ≤ w - d.pos := by omega
    have hk3 : 0 < k := by omega
    have hda : d.addr = d.base * w + d.pos := rfl
    refine wp_getWord S hf (by omega) hk3 (hm1.sub (by omega) (by omega)) ?_
    intro x hx
    rw [wp_bind, wp_shl S hd', wp_bind]
    refine wp_getWord S hf2 (by omega) hk3 (hm3.sub (by omega) (by omega)) ?_
    intro y hy
    rw [wp_bind, wp_shl S hd', wp_bind]
    refine wp_blendAt S (by omega) hk3 (Or.inl (by omega)) (hm2 _ (by omega) (by omega)) ?_
    intro m' hm'
    rw [wp_pure]
    refine hQ m' k _ _ _ hk1 (BitIter.add_valid hw _ _) (BitIter.add_addr hw _ _)
      (BitIter.add_valid hw _ _) (BitIter.add_addr hw _ _) ?_ ?_
    · intro h; rw [Int.add_mul]; omega
    · rw [hda]
      exact mapd2_of_wrote hop (by omega) hx hy hm'
  · rw [if_neg hp, wp_pure]
    have := hQ m 0 first1 first2 d.base (by omega) hf (by omega) hf2 (by omega) (by
      intro _; show d.base * (w : Int) = d.base * w + d.pos + 0; omega) Mapd2.zero
    simpa using this

theorem wp_transform2Tail (S : ShiftSem w)
    (hop : ∀ x y i, i < w → (op x y).getLsbD i = f (x.getLsbD i) (y.getLsbD i)) {first1 first2 : BitIter w} {it : Int}
    {rem : Nat} {m : Mem w} {Q : Unit → Mem w → Prop} (hf : first1.Valid) (hf2 : first2.Valid) (hr : rem < w)
    (hm1 : Mapped m first1.addr (first1.addr + rem)) (hm3 : Mapped m first2.addr (first2.addr + rem))
    (hm2 : Mapped m (it * w) (it * w + rem))
    (hQ : ∀ m', Mapd2 f m m' first1.addr first2.addr (it * w) rem → Q () m') :
    wp (transform2Tail S op rem first1 first2 it) m Q := by
  unfold transform2Tail
  by_cases h0 : rem > 0
  · rw [if_pos h0, wp_bind]
    refine wp_getWord S hf (by omega) h0 hm1 ?_
    intro x hx
    rw [wp_bind]
    refine wp_getWord S hf2 (by omega) h0 hm3 ?_
    intro y hy
    refine wp_blendLowAt S hr h0 (hm2 _ (by omega) (by omega)) ?_
    intro m' hm'
    apply hQ
    have := mapd2_of_wrote (m := m) (m' := m') (p := 0) (n := rem) (a := it) (s := first1.addr) (t := first2.addr)
      (x := x) (y := y) hop (by omega) hx hy (by simpa using hm')
    simpa using this
  · rw [if_neg h0, wp_pure]
    apply hQ
    rw [show rem = 0 by omega]
    exact Mapd2.zero

theorem wp_transform2Loop (S : ShiftSem w)
    (hop : ∀ x y i, i < w → (op x y).getLsbD i = f (x.getLsbD i) (y.getLsbD i)) :
    ∀ (fuel rem : Nat) {first1 first2 : BitIter w} {it : Int} {m : Mem w}
    {Q : Unit → Mem w → Prop}, first1.Valid → first2.Valid → rem < fuel →
    Mapped m first1.addr (first1.addr + rem) → Mapped m first2.addr (first2.addr + rem) →
    Mapped m (it * w) (it * w + rem) →
    (it * w ≤ first1.addr ∨ first1.addr + rem ≤ it * w) →
    (it * w ≤ first2.addr ∨ first2.addr + rem ≤ it * w) →
    (∀ m', Mapd2 f m m' first1.addr first2.addr (it * w) rem → Q () m') →
    wp (transform2Loop S op fuel rem first1 first2 it) m Q := by
  intro fuel
  induction fuel with
  | zero => intro rem first1 first2 it m Q hf hf2 h; omega
  | succ fuel ih =>
    intro rem first1 first2 it m Q hf hf2 hfu hm1 hm3 hm2 hov hov2 hQ
    have hw : 0 < w := Nat.lt_of_le_of_lt (Nat.zero_le _) hf
    unfold transform2Loop
    by_cases h : rem ≥ w
    · rw [if_pos h, wp_bind]
      refine wp_getWord S hf (by omega) hw (hm1.sub (by omega) (by omega)) ?_
      intro x hx
      rw [wp_bind]
      refine wp_getWord S hf2 (by omega) hw (hm3.sub (by omega) (by omega)) ?_
      intro y hy
      rw [wp_bind]
      refine wp_store_bits hw (it * w) (by omega) (by omega) (hm2 _ (by omega) (by omega)) ?_
      intro m1 hm1'
      have hmd : Mapd2 f m m1 first1.addr first2.addr (it * w) w := by
        have := mapd2_of_wrote (m := m) (m' := m1) (p := 0) (n := w) (a := it) (s := first1.addr) (t := first2.addr)
          (x := x) (y := y) hop (by omega) hx hy (by simpa using hm1')
        simpa using this
      have hsub : Mapped m first1.addr (first1.addr + w) := hm1.sub (by omega) (by omega)
      have hsub2 : Mapped m first2.addr (first2.addr + w) := hm3.sub (by omega) (by omega)
      have e1 : (first1.add w).addr = first1.addr + w := BitIter.add_addr hw _ _
      have e3 : (first2.add w).addr = first2.addr + w := BitIter.add_addr hw _ _
      have e2 : (it + 1) * (w : Int) = it * w + w := by rw [Int.add_mul]; omega
      refine ih (rem - w) (BitIter.add_valid hw _ _) (BitIter.add_valid hw _ _) (by omega) ?_ ?_ ?_ ?_ ?_ ?_
      · rw [e1]; exact (hmd.mapped hsub hsub2 hm1).sub (by omega) (by omega)
      · rw [e3]; exact (hmd.mapped hsub hsub2 hm3).sub (by omega) (by omega)
      · rw [e2]; exact (hmd.mapped hsub hsub2 hm2).sub (by omega) (by omega)
      · rw [e1, e2]; omega
      · rw [e3, e2]; omega
      · intro m2 hm2'
        apply hQ
        rw [e1, e3, e2] at hm2'
        have := Mapd2.comp (by omega) (by omega) hmd hm2' (by omega) (by omega)
        rwa [show (w : Int) + ((rem - w : Nat) : Int) = rem by omega] at this
    · rw [if_neg h]
      exact wp_transform2Tail S hop hf hf2 (by omega) hm1 hm3 hm2 hQ

theorem wp_stdTransform2N (hw : 0 < w)
    (hop : ∀ x y i, i < w → (op x y).getLsbD i = f (x.getLsbD i) (y.getLsbD i)) :
    ∀ (n : Nat) {s t d : Int} {m : Mem w} {Q : Int → Mem w → Prop},
    Mapped m (s * w) (s * w + n * w) → Mapped m (t * w) (t * w + n * w) → Mapped m (d * w) (d * w + n * w) →
    (d * w ≤ s * w ∨ s * w + n * w ≤ d * w) → (d * w ≤ t * w ∨ t * w + n * w ≤ d * w) →
    (∀ m', Mapd2 f m m' (s * w) (t * w) (d * w) (n * w) → Q (d + n) m') →
    wp (stdTransform2N op n s t d) m Q := by
  intro n
  induction n with
  | zero =>
    intro s t d m Q hm1 hm3 hm2 hov hov2 hQ
    unfold stdTransform2N
    rw [wp_pure]
    have := hQ m (by simpa using Mapd2.zero)
    simpa using this
  | succ n ih =>
    intro s t d m Q hm1 hm3 hm2 hov hov2 hQ
    have en : ((n + 1 : Nat) : Int) * (w : Int) = n * w + w := by push_cast; ring
    rw [en] at hm1 hm2 hm3 hov hov2 hQ
    have hnw : 0 ≤ (n : Int) * w := Int.mul_nonneg (by omega) (by omega)
    unfold stdTransform2N
    rw [wp_bind]
    refine wp_load_bits hw (s * w) (by omega) (by omega) (hm1 _ (by omega) (by omega)) ?_
    intro x hx
    rw [wp_bind]
    refine wp_load_bits hw (t * w) (by omega) (by omega) (hm3 _ (by omega) (by omega)) ?_
    intro y hy
    rw [wp_bind]
    refine wp_store_bits hw (d * w) (by omega) (by omega) (hm2 _ (by omega) (by omega)) ?_
    intro m1 hm1'
    have hmd : Mapd2 f m m1 (s * w) (t * w) (d * w) w := by
      have := mapd2_of_wrote (m := m) (m' := m1) (p := 0) (n := w) (a := d) (s := s * w) (t := t * w) (x := x)
        (y := y) hop (by omega) hx hy (by simpa using hm1')
      simpa using this
    have e1 : (s + 1) * (w : Int) = s * w + w := by ring
    have e3 : (t + 1) * (w : Int) = t * w + w := by ring
    have e2 : (d + 1) * (w : Int) = d * w + w := by ring
    have hsub : Mapped m (s * w) (s * w + w) := hm1.sub (by omega) (by omega)
    have hsub2 : Mapped m (t * w) (t * w + w) := hm3.sub (by omega) (by omega)
    refine ih ?_ ?_ ?_ ?_ ?_ ?_
    · rw [e1]; exact (hmd.mapped hsub hsub2 hm1).sub (by omega) (by omega)
    · rw [e3]; exact (hmd.mapped hsub hsub2 hm3).sub (by omega) (by omega)
    · rw [e2]; exact (hmd.mapped hsub hsub2 hm2).sub (by omega) (by omega)
    · rw [e1, e2]; omega
    · rw [e3, e2]; omega
    · intro m2 hm2'
      rw [e1, e2, e3] at hm2'
      have h3 := Mapd2.comp (by omega) (by omega) hmd hm2' (by omega) (by omega)
      rw [show (w : Int) + (n : Int) * w = n * w + w by omega] at h3
      have h4 := hQ m2 h3
      rwa [show d + 1 + (n : Int) = d + ((n + 1 : Nat) : Int) by omega]

/-- What remains after the destination has been aligned. -/
def transform2Body (S : ShiftSem w) (op : BitVec w → BitVec w → BitVec w) (remaining : Nat)
    (first1 last1 first2 : BitIter w) (it : Int) : M w Unit :=
  if remaining > 0 then
    if first1.pos = 0 ∧ first2.pos = 0 ∧ remaining > w then do
      let N ← wordDist first1.base last1.base
      let it ← stdTransform2 first1.base last1.base first2.base it op
      transform2Tail S op (subSize remaining (w * N)) (first1.add ((w : Int) * N)) (first2.add ((w : Int) * N)) it
    else transform2Loop S op (remaining + 1) remaining first1 first2 it
  else pure ()

theorem wp_transform2Body (S : ShiftSem w)
    (hop : ∀ x y i, i < w → (op x y).getLsbD i = f (x.getLsbD i) (y.getLsbD i)) {first1 last1 first2 : BitIter w} {it : Int}
    {rem : Nat} {m : Mem w} {Q : Unit → Mem w → Prop} (hf : first1.Valid) (hl : last1.Valid) (hf2 : first2.Valid)
    (hlast : 0 < rem → last1.addr = first1.addr + rem)
    (hm1 : Mapped m first1.addr (first1.addr + rem)) (hm3 : Mapped m first2.addr (first2.addr + rem))
    (hm2 : 0 < rem → Mapped m (it * w) (it * w + rem))
    (hov : 0 < rem → it * w ≤ first1.addr ∨ first1.addr + rem ≤ it * w)
    (hov2 : 0 < rem → it * w ≤ first2.addr ∨ first2.addr + rem ≤ it * w)
    (hQ : ∀ m', Mapd2 f m m' first1.addr first2.addr (it * w) rem → Q () m') :
    wp (transform2Body S op rem first1 last1 first2 it) m Q := by
  have hw : 0 < w := Nat.lt_of_le_of_lt (Nat.zero_le _) hf
  unfold transform2Body
  by_cases h0 : rem > 0
  · rw [if_pos h0]
    replace hm2 := hm2 h0
    replace hov := hov h0
    replace hov2 := hov2 h0
    replace hlast := hlast h0
    by_cases h1 : first1.pos = 0 ∧ first2.pos = 0 ∧ rem > w
    · rw [if_pos h1, wp_bind, wp_wordDist]
      have hfa : first1.addr = first1.base * w := by
        show first1.base * (w : Int) + first1.pos = _
        omega
      have hfa2 : first2.addr = first2.base * w := by
        show first2.base * (w : Int) + first2.pos = _
        omega
      have hla : last1.addr = last1.base * w + last1.pos := rfl
      have hl' : last1.pos < w := hl
      have hbase : first1.base ≤ last1.base := by
        by_contra hc
        have := base_lt_mul (w := w) (a := last1.base) (b := first1.base) (by omega)
        omega
      obtain ⟨N, hN⟩ : ∃ N : Nat, last1.base = first1.base + N := ⟨(last1.base - first1.base).toNat, by omega⟩
      have eN : (last1.base - first1.base).toNat = N := by omega
      have hNw : last1.base * (w : Int) = first1.base * w + N * w := by rw [hN]; ring
      have hNN : ((w * N : Nat) : Int) = N * w := by push_cast; ring
      have hNpos : 0 ≤ (N : Int) * w := Int.mul_nonneg (by omega) (by omega)
      refine ⟨hbase, ?_⟩
      rw [eN, wp_bind]
      unfold stdTransform2
      rw [wp_bind, wp_wordDist, eN]
      refine ⟨hbase, ?_⟩
      refine wp_stdTransform2N hw hop N ?_ ?_ ?_ ?_ ?_ ?_
      · exact hm1.sub (by omega) (by omega)
      · exact hm3.sub (by omega) (by omega)
      · exact hm2.sub (by omega) (by omega)
      · omega
      · omega
      · intro m1 hm1'
        have hsub : Mapped m (first1.base * w) (first1.base * w + N * w) := hm1.sub (by omega) (by omega)
        have hsub2 : Mapped m (first2.base * w) (first2.base * w + N * w) := hm3.sub (by omega) (by omega)
        have hsz : subSize rem (w * N) = last1.pos := by
          rw [subSize_le (by omega)]; omega
        rw [hsz]
        have e1 : (first1.add ((w : Int) * N)).addr = first1.base * w + N * w := by
          rw [BitIter.add_addr hw, hfa]; ring
        have e3 : (first2.add ((w : Int) * N)).addr = first2.base * w + N * w := by
          rw [BitIter.add_addr hw, hfa2]; ring
        have e2 : (it + N) * (w : Int) = it * w + N * w := by ring
        refine wp_transform2Tail S hop (BitIter.add_valid hw _ _) (BitIter.add_valid hw _ _) hl' ?_ ?_ ?_ ?_
        · rw [e1]; exact (hm1'.mapped hsub hsub2 hm1).sub (by omega) (by omega)
        · rw [e3]; exact (hm1'.mapped hsub hsub2 hm3).sub (by omega) (by omega)
        · rw [e2]; exact (hm1'.mapped hsub hsub2 hm2).sub (by omega) (by omega)
        · intro m2 hm2'
          apply hQ
          rw [e1, e2, e3] at hm2'
          have := Mapd2.comp (by omega) (by omega) hm1' hm2' (by omega) (by omega)
          rwa [← hfa, ← hfa2, show (N : Int) * w + last1.pos = rem by omega] at this
    · rw [if_neg h1]
      exact wp_transform2Loop S hop _ _ hf hf2 (by omega) hm1 hm3 hm2 hov hov2 hQ
  · rw [if_neg h0, wp_pure]
    apply hQ
    rw [show rem = 0 by omega]
    exact Mapd2.zero

theorem transform2_eq_body (S : ShiftSem w) (op : BitVec w → BitVec w → BitVec w) (first1 last1 first2 d : BitIter w) :
    transform2 S op first1 last1 first2 d = (do
      assertViable first1 last1
      if first1.beq last1 then pure d
      else do
        let dd ← distance first1 last1
        let r ← transform2Head S op first1 first2 d dd.toNat
        transform2Body S op r.1 r.2.1 last1 r.2.2.1 r.2.2.2
        pure (d.add dd.toNat)) := by
  unfold transform2 transform2Body
  congr 1; funext _
  split_ifs
  · rfl
  · refine bind_congr fun dd => bind_congr fun r => ?_
    obtain ⟨rem, first', first2', it⟩ := r
    dsimp only
    split_ifs <;> simp

theorem wp_transform2 (S : ShiftSem w)
    (hop : ∀ x y i, i < w → (op x y).getLsbD i = f (x.getLsbD i) (y.getLsbD i)) {first last first2 d : BitIter w}
    {m : Mem w} {Q : BitIter w → Mem w → Prop} (hf : first.Valid) (hl : last.Valid) (hf2 : first2.Valid) (hd : d.Valid)
    (hle : first.addr ≤ last.addr)
    (hm1 : Mapped m first.addr last.addr) (hm3 : Mapped m first2.addr (first2.addr + (last.addr - first.addr)))
    (hm2 : Mapped m d.addr (d.addr + (last.addr - first.addr)))
    (hov : d.addr ≤ first.addr ∨ last.addr ≤ d.addr)
    (hov2 : d.addr ≤ first2.addr ∨ first2.addr + (last.addr - first.addr) ≤ d.addr)
    (hQ : ∀ m' (r : BitIter w), r.Valid → r.addr = d.addr + (last.addr - first.addr) →
      Mapd2 f m m' first.addr first2.addr d.addr (last.addr - first.addr) → Q r m') :
    wp (transform2 S op first last first2 d) m Q := by
  have hw : 0 < w := Nat.lt_of_le_of_lt (Nat.zero_le _) hf
  rw [transform2_eq_body, wp_bind, wp_assertViable]
  refine ⟨hle, ?_⟩
  by_cases h : first.beq last
  · rw [if_pos h, wp_pure]
    rw [BitIter.beq_iff hf hl] at h
    refine hQ m d hd (by omega) ?_
    rw [h, Int.sub_self]
    exact Mapd2.zero
  · rw [if_neg h, wp_bind, wp_distance]
    refine ⟨hle, ?_⟩
    rw [BitIter.beq_iff hf hl] at h
    obtain ⟨n, hn⟩ : ∃ n : Nat, last.addr - first.addr = n := ⟨(last.addr - first.addr).toNat, by omega⟩
    rw [hn, Int.toNat_natCast, wp_bind]
    rw [hn] at hm2 hm3 hQ hov2
    have hm1' : Mapped m first.addr (first.addr + n) := hm1.sub (by omega) (by omega)
    refine wp_transform2Head S hop hf hf2 hd (by omega) hm1' hm3 hm2 ?_
    intro m1 k first' first2' it hk hf' hfa hf2' hfa2 hit hmd
    dsimp only
    have hms : Mapped m first.addr (first.addr + k) := hm1.sub (by omega) (by omega)
    have hms2 : Mapped m first2.addr (first2.addr + k) := hm3.sub (by omega) (by omega)
    rw [wp_bind]
    refine wp_transform2Body S hop hf' hl hf2' (by omega) ?_ ?_ ?_ ?_ ?_ ?_
    · exact (hmd.mapped hms hms2 hm1').sub (by omega) (by omega)
    · exact (hmd.mapped hms hms2 hm3).sub (by omega) (by omega)
    · intro h0; rw [hit (by omega)]; exact (hmd.mapped hms hms2 hm2).sub (by omega) (by omega)
    · intro h0; rw [hit (by omega)]; omega
    · intro h0; rw [hit (by omega)]; omega
    · intro m2 hm2'
      rw [wp_pure]
      refine hQ m2 _ (BitIter.add_valid hw _ _) (BitIter.add_addr hw _ _) ?_
      by_cases hkn : k < n
      · rw [hit hkn, hfa, hfa2] at hm2'
        have := Mapd2.comp (by omega) (by omega) hmd hm2' (by omega) (by omega)
        rwa [show (k : Int) + ((n - k : Nat) : Int) = n by omega] at this
      · have hkn' : k = n := by omega
        subst hkn'
        have : m2 = m1 := by
          apply mem_ext_bitAt hw
          intro i
          rw [hm2' i, if_neg (by omega)]
        rw [this]; exact hmd

end BitLib
