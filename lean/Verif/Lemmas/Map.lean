import Verif.Lemmas.Word
import Verif.Model.Copy
import Mathlib.Tactic.SplitIfs
import Mathlib.Tactic.DefEqTransformations
import Mathlib.Tactic.Ring
/- Copying and transforming ranges: composition lemmas and the proofs for `transform`. -/
namespace BitLib
variable {w : Nat}

theorem toSize_nonneg {x : Int} (h : 0 ≤ x) : toSize x = x.toNat := by
  unfold toSize; rw [if_pos h]

theorem subSize_le {a b : Nat} (h : b ≤ a) : subSize a b = a - b := by
  unfold subSize; rw [toSize_nonneg (by omega)]; omega

theorem Mapd.zero {f : Bool → Bool} {m : Mem w} {s d : Int} : Mapd f m m s d 0 := by
  intro i
  rw [if_neg (by omega)]

theorem Mapd.comp {f : Bool → Bool} {m m1 m2 : Mem w} {s d n k : Int} (hn : 0 ≤ n) (hk : 0 ≤ k)
    (h1 : Mapd f m m1 s d n) (h2 : Mapd f m1 m2 (s + n) (d + n) k)
    (hov : d ≤ s ∨ s + n + k ≤ d) : Mapd f m m2 s d (n + k) := by
  intro i
  rw [h2 i]
  beta_reduce
  rw [h1 i, h1 (s + n + (i - (d + n)))]
  beta_reduce
  split_ifs <;> first | rfl | (exfalso; omega) | (congr 2; omega)

theorem Mapd.mapped {f : Bool → Bool} {m m' : Mem w} {s d n a b : Int} (h : Mapd f m m' s d n)
    (hs : Mapped m s (s + n)) (hm : Mapped m a b) : Mapped m' a b := by
  intro i h1 h2
  rw [h i]
  split_ifs
  · rw [Option.isSome_map]; exact hs _ (by omega) (by omega)
  · exact hm i h1 h2

theorem Mapped.sub {m : Mem w} {a b c d : Int} (h : Mapped m a b) (h1 : a ≤ c) (h2 : d ≤ b) : Mapped m c d :=
  fun i h3 h4 => h i (by omega) (by omega)

theorem Wrote.mapped {m m' : Mem w} {a b c d : Int} {f : Int → Option Bool} (h : Wrote m m' a b f)
    (hf : ∀ i, a ≤ i → i < b → (f i).isSome) (hm : Mapped m c d) : Mapped m' c d := by
  intro i h1 h2
  rw [h i]
  split_ifs with hc
  · exact hf i hc.1 hc.2
  · exact hm i h1 h2

theorem wp_wordDist {a b : Int} {m : Mem w} {Q : Nat → Mem w → Prop} :
    wp (wordDist a b) m Q ↔ a ≤ b ∧ Q (b - a).toNat m := by
  unfold wordDist
  constructor
  · intro h
    by_cases hab : a ≤ b
    · rw [if_pos hab, wp_pure] at h; exact ⟨hab, h⟩
    · rw [if_neg hab] at h
      obtain ⟨_, _, h, _⟩ := h
      cases h
  · rintro ⟨h, hq⟩
    rw [if_pos h, wp_pure]; exact hq

theorem bitwise_shl_get {op : BitVec w → BitVec w} {f : Bool → Bool}
    (hop : ∀ x i, i < w → (op x).getLsbD i = f (x.getLsbD i)) {x : BitVec w} {p i : Nat} (hi : i < w) (hp : p ≤ i) :
    (op (x <<< p)).getLsbD i = f (x.getLsbD (i - p)) := by
  rw [hop _ _ hi, BitVec.getLsbD_shiftLeft]
  simp [hi, show ¬ i < p by omega]

/-- One partial step: read at `src`, write `op` of it at `dst`. -/
theorem mapd_of_wrote {op : BitVec w → BitVec w} {f : Bool → Bool}
    (hop : ∀ x i, i < w → (op x).getLsbD i = f (x.getLsbD i)) {m m' : Mem w} {x : BitVec w} {s a : Int} {p n : Nat}
    (hpn : p + n ≤ w)
    (hx : ∀ i : Nat, i < n → bitAt m (s + i) = some (x.getLsbD i))
    (hw' : Wrote m m' (a * w + p) (a * w + p + n) fun i => some ((op (x <<< p)).getLsbD (i - a * (w : Int)).toNat)) :
    Mapd f m m' s (a * w + p) n := by
  intro i
  rw [hw' i]
  beta_reduce
  split_ifs with h
  · obtain ⟨k, hk⟩ : ∃ k : Nat, i = a * w + p + k := ⟨(i - (a * w + p)).toNat, by omega⟩
    subst hk
    rw [show s + (a * (w : Int) + p + k - (a * w + p)) = s + k by omega, hx k (by omega),
      show (a * (w : Int) + p + k - a * w).toNat = p + k by omega, bitwise_shl_get hop (by omega) (by omega)]
    simp
  · rfl

theorem wp_transformHead (S : ShiftSem w) {op : BitVec w → BitVec w} {f : Bool → Bool}
    (hop : ∀ x i, i < w → (op x).getLsbD i = f (x.getLsbD i)) {first d : BitIter w} {total : Nat} {m : Mem w}
    {Q : Nat × BitIter w × Int → Mem w → Prop} (hf : first.Valid) (hd : d.Valid) (ht : 0 < total)
    (hm1 : Mapped m first.addr (first.addr + total)) (hm2 : Mapped m d.addr (d.addr + total))
    (hQ : ∀ m' (k : Nat) (first' : BitIter w) (it : Int), k ≤ total → first'.Valid → first'.addr = first.addr + k →
      (k < total → it * (w : Int) = d.addr + k) → Mapd f m m' first.addr d.addr k → Q (total - k, first', it) m') :
    wp (transformHead S op first d total) m Q := by
  have hd' : d.pos < w := hd
  have hw : 0 < w := by omega
  unfold transformHead
  by_cases hp : d.pos ≠ 0
  · rw [if_pos hp, wp_bind]
    generalize hk : min total (w - d.pos) = k
    have hk1 : k ≤ total := by omega
    have hk2 : k ≤ w - d.pos := by omega
    have hk3 : 0 < k := by omega
    have hda : d.addr = d.base * w + d.pos := rfl
    refine wp_getWord S hf (by omega) hk3 (hm1.sub (by omega) (by omega)) ?_
    intro x hx
    rw [wp_bind, wp_shl S hd', wp_bind]
    refine wp_blendAt S (by omega) hk3 (Or.inl (by omega)) (hm2 _ (by omega) (by omega)) ?_
    intro m' hm'
    rw [wp_pure]
    refine hQ m' k _ _ hk1 (BitIter.add_valid hw _ _) (BitIter.add_addr hw _ _) ?_ ?_
    · intro h; rw [Int.add_mul]; omega
    · rw [hda]
      exact mapd_of_wrote hop (by omega) hx hm'
  · rw [if_neg hp, wp_pure]
    have := hQ m 0 first d.base (by omega) hf (by omega) (by
      intro _; show d.base * (w : Int) = d.base * w + d.pos + 0; omega) Mapd.zero
    simpa using this

theorem wp_transformTail (S : ShiftSem w) {op : BitVec w → BitVec w} {f : Bool → Bool}
    (hop : ∀ x i, i < w → (op x).getLsbD i = f (x.getLsbD i)) {first : BitIter w} {it : Int} {rem : Nat} {m : Mem w}
    {Q : Unit → Mem w → Prop} (hf : first.Valid) (hr : rem < w)
    (hm1 : Mapped m first.addr (first.addr + rem)) (hm2 : Mapped m (it * w) (it * w + rem))
    (hQ : ∀ m', Mapd f m m' first.addr (it * w) rem → Q () m') :
    wp (transformTail S op rem first it) m Q := by
  unfold transformTail
  by_cases h0 : rem > 0
  · rw [if_pos h0, wp_bind]
    refine wp_getWord S hf (by omega) h0 hm1 ?_
    intro x hx
    refine wp_blendLowAt S hr h0 (hm2 _ (by omega) (by omega)) ?_
    intro m' hm'
    apply hQ
    have := mapd_of_wrote (m := m) (m' := m') (p := 0) (n := rem) (a := it) (s := first.addr) (x := x) hop
      (by omega) hx (by simpa using hm')
    simpa using this
  · rw [if_neg h0, wp_pure]
    apply hQ
    rw [show rem = 0 by omega]
    exact Mapd.zero

theorem wp_transformLoop (S : ShiftSem w) {op : BitVec w → BitVec w} {f : Bool → Bool}
    (hop : ∀ x i, i < w → (op x).getLsbD i = f (x.getLsbD i)) :
    ∀ (fuel rem : Nat) {first : BitIter w} {it : Int} {m : Mem w}
    {Q : Unit → Mem w → Prop}, first.Valid → rem < fuel →
    Mapped m first.addr (first.addr + rem) → Mapped m (it * w) (it * w + rem) →
    (it * w ≤ first.addr ∨ first.addr + rem ≤ it * w) →
    (∀ m', Mapd f m m' first.addr (it * w) rem → Q () m') →
    wp (transformLoop S op fuel rem first it) m Q := by
  intro fuel
  induction fuel with
  | zero => intro rem first it m Q hf h; omega
  | succ fuel ih =>
    intro rem first it m Q hf hfu hm1 hm2 hov hQ
    have hw : 0 < w := Nat.lt_of_le_of_lt (Nat.zero_le _) hf
    unfold transformLoop
    by_cases h : rem ≥ w
    · rw [if_pos h, wp_bind]
      refine wp_getWord S hf (by omega) hw (hm1.sub (by omega) (by omega)) ?_
      intro x hx
      rw [wp_bind]
      refine wp_store_bits hw (it * w) (by omega) (by omega) (hm2 _ (by omega) (by omega)) ?_
      intro m1 hm1'
      have hmd : Mapd f m m1 first.addr (it * w) w := by
        have := mapd_of_wrote (m := m) (m' := m1) (p := 0) (n := w) (a := it) (s := first.addr) (x := x) hop
          (by omega) hx (by simpa using hm1')
        simpa using this
      have hsub : Mapped m first.addr (first.addr + w) := hm1.sub (by omega) (by omega)
      have e1 : (first.add w).addr = first.addr + w := BitIter.add_addr hw _ _
      have e2 : (it + 1) * (w : Int) = it * w + w := by rw [Int.add_mul]; omega
      refine ih (rem - w) (BitIter.add_valid hw _ _) (by omega) ?_ ?_ ?_ ?_
      · rw [e1]; exact (hmd.mapped hsub hm1).sub (by omega) (by omega)
      · rw [e2]; exact (hmd.mapped hsub hm2).sub (by omega) (by omega)
      · rw [e1, e2]; omega
      · intro m2 hm2'
        apply hQ
        rw [e1, e2] at hm2'
        have := Mapd.comp (by omega) (by omega) hmd hm2' (by omega)
        rwa [show (w : Int) + ((rem - w : Nat) : Int) = rem by omega] at this
    · rw [if_neg h]
      exact wp_transformTail S hop hf (by omega) hm1 hm2 hQ

theorem wp_stdTransformN {op : BitVec w → BitVec w} {f : Bool → Bool} (hw : 0 < w)
    (hop : ∀ x i, i < w → (op x).getLsbD i = f (x.getLsbD i)) :
    ∀ (n : Nat) {s d : Int} {m : Mem w} {Q : Int → Mem w → Prop},
    Mapped m (s * w) (s * w + n * w) → Mapped m (d * w) (d * w + n * w) →
    (d * w ≤ s * w ∨ s * w + n * w ≤ d * w) →
    (∀ m', Mapd f m m' (s * w) (d * w) (n * w) → Q (d + n) m') →
    wp (stdTransformN op n s d) m Q := by
  intro n
  induction n with
  | zero =>
    intro s d m Q hm1 hm2 hov hQ
    unfold stdTransformN
    rw [wp_pure]
    have := hQ m (by simpa using Mapd.zero)
    simpa using this
  | succ n ih =>
    intro s d m Q hm1 hm2 hov hQ
    have en : ((n + 1 : Nat) : Int) * (w : Int) = n * w + w := by push_cast; ring
    rw [en] at hm1 hm2 hov hQ
    have hnw : 0 ≤ (n : Int) * w := Int.mul_nonneg (by omega) (by omega)
    unfold stdTransformN
    rw [wp_bind]
    refine wp_load_bits hw (s * w) (by omega) (by omega) (hm1 _ (by omega) (by omega)) ?_
    intro x hx
    rw [wp_bind]
    refine wp_store_bits hw (d * w) (by omega) (by omega) (hm2 _ (by omega) (by omega)) ?_
    intro m1 hm1'
    have hmd : Mapd f m m1 (s * w) (d * w) w := by
      have := mapd_of_wrote (m := m) (m' := m1) (p := 0) (n := w) (a := d) (s := s * w) (x := x) hop
        (by omega) hx (by simpa using hm1')
      simpa using this
    have e1 : (s + 1) * (w : Int) = s * w + w := by ring
    have e2 : (d + 1) * (w : Int) = d * w + w := by ring
    have hsub : Mapped m (s * w) (s * w + w) := hm1.sub (by omega) (by omega)
    refine ih ?_ ?_ ?_ ?_
    · rw [e1]; exact (hmd.mapped hsub hm1).sub (by omega) (by omega)
    · rw [e2]; exact (hmd.mapped hsub hm2).sub (by omega) (by omega)
    · rw [e1, e2]; omega
    · intro m2 hm2'
      rw [e1, e2] at hm2'
      have h3 := Mapd.comp (by omega) (by omega) hmd hm2' (by omega)
      rw [show (w : Int) + (n : Int) * w = n * w + w by omega] at h3
      have h4 := hQ m2 h3
      rwa [show d + 1 + (n : Int) = d + ((n + 1 : Nat) : Int) by omega]

/-- What remains after the destination has been aligned. -/
def transformBody (S : ShiftSem w) (op : BitVec w → BitVec w) (remaining : Nat) (first last : BitIter w) (it : Int) :
    M w Unit :=
  if remaining > 0 then
    if first.pos = 0 ∧ remaining > w then do
      let N ← wordDist first.base last.base
      let it ← stdTransform first.base last.base it op
      transformTail S op (subSize remaining (w * N)) ⟨first.base + N, 0⟩ it
    else transformLoop S op (remaining + 1) remaining first it
  else pure ()

theorem wp_transformBody (S : ShiftSem w) {op : BitVec w → BitVec w} {f : Bool → Bool}
    (hop : ∀ x i, i < w → (op x).getLsbD i = f (x.getLsbD i)) {first last : BitIter w} {it : Int} {rem : Nat} {m : Mem w}
    {Q : Unit → Mem w → Prop} (hf : first.Valid) (hl : last.Valid) (hlast : 0 < rem → last.addr = first.addr + rem)
    (hm1 : Mapped m first.addr (first.addr + rem)) (hm2 : 0 < rem → Mapped m (it * w) (it * w + rem))
    (hov : 0 < rem → it * w ≤ first.addr ∨ first.addr + rem ≤ it * w)
    (hQ : ∀ m', Mapd f m m' first.addr (it * w) rem → Q () m') :
    wp (transformBody S op rem first last it) m Q := by
  have hw : 0 < w := Nat.lt_of_le_of_lt (Nat.zero_le _) hf
  unfold transformBody
  by_cases h0 : rem > 0
  · rw [if_pos h0]
    replace hm2 := hm2 h0
    replace hov := hov h0
    replace hlast := hlast h0
    by_cases h1 : first.pos = 0 ∧ rem > w
    · rw [if_pos h1, wp_bind, wp_wordDist]
      have hfa : first.addr = first.base * w := by
        show first.base * (w : Int) + first.pos = _
        omega
      have hla : last.addr = last.base * w + last.pos := rfl
      have hl' : last.pos < w := hl
      have hbase : first.base ≤ last.base := by
        by_contra hc
        have := base_lt_mul (w := w) (a := last.base) (b := first.base) (by omega)
        omega
      obtain ⟨N, hN⟩ : ∃ N : Nat, last.base = first.base + N := ⟨(last.base - first.base).toNat, by omega⟩
      have eN : (last.base - first.base).toNat = N := by omega
      have hNw : last.base * (w : Int) = first.base * w + N * w := by rw [hN]; ring
      have hNN : ((w * N : Nat) : Int) = N * w := by push_cast; ring
      have hNpos : 0 ≤ (N : Int) * w := Int.mul_nonneg (by omega) (by omega)
      refine ⟨hbase, ?_⟩
      rw [eN, wp_bind]
      unfold stdTransform
      rw [wp_bind, wp_wordDist, eN]
      refine ⟨hbase, ?_⟩
      refine wp_stdTransformN hw hop N ?_ ?_ ?_ ?_
      · exact hm1.sub (by omega) (by omega)
      · exact hm2.sub (by omega) (by omega)
      · omega
      · intro m1 hm1'
        have hsub : Mapped m (first.base * w) (first.base * w + N * w) := hm1.sub (by omega) (by omega)
        have hsz : subSize rem (w * N) = last.pos := by
          rw [subSize_le (by omega)]; omega
        rw [hsz]
        have e1 : (⟨first.base + N, 0⟩ : BitIter w).addr = first.base * w + N * w := by
          show (first.base + N) * (w : Int) + (0 : Nat) = _
          rw [Int.add_mul]; omega
        have e2 : (it + N) * (w : Int) = it * w + N * w := by ring
        refine wp_transformTail S hop (show 0 < w from hw) hl' ?_ ?_ ?_
        · rw [e1]; exact (hm1'.mapped hsub hm1).sub (by omega) (by omega)
        · rw [e2]; exact (hm1'.mapped hsub hm2).sub (by omega) (by omega)
        · intro m2 hm2'
          apply hQ
          rw [e1, e2] at hm2'
          have := Mapd.comp (by omega) (by omega) hm1' hm2' (by omega)
          rwa [← hfa, show (N : Int) * w + last.pos = rem by omega] at this
    · rw [if_neg h1]
      exact wp_transformLoop S hop _ _ hf (by omega) hm1 hm2 hov hQ
  · rw [if_neg h0, wp_pure]
    apply hQ
    rw [show rem = 0 by omega]
    exact Mapd.zero

theorem transform_eq_body (S : ShiftSem w) (op : BitVec w → BitVec w) (first last d : BitIter w) :
    transform S op first last d = (do
      assertViable first last
      if first.beq last then pure d
      else do
        let dd ← distance first last
        let r ← transformHead S op first d dd.toNat
        transformBody S op r.1 r.2.1 last r.2.2
        pure (d.add dd.toNat)) := by
  unfold transform transformBody
  congr 1; funext _
  split_ifs
  · rfl
  · refine bind_congr fun dd => bind_congr fun r => ?_
    obtain ⟨rem, first', it⟩ := r
    dsimp only
    split_ifs <;> simp

theorem wp_transform (S : ShiftSem w) {op : BitVec w → BitVec w} {f : Bool → Bool}
    (hop : ∀ x i, i < w → (op x).getLsbD i = f (x.getLsbD i)) {first last d : BitIter w} {m : Mem w}
    {Q : BitIter w → Mem w → Prop} (hf : first.Valid) (hl : last.Valid) (hd : d.Valid)
    (hle : first.addr ≤ last.addr)
    (hm1 : Mapped m first.addr last.addr) (hm2 : Mapped m d.addr (d.addr + (last.addr - first.addr)))
    (hov : d.addr ≤ first.addr ∨ last.addr ≤ d.addr)
    (hQ : ∀ m' (r : BitIter w), r.Valid → r.addr = d.addr + (last.addr - first.addr) →
      Mapd f m m' first.addr d.addr (last.addr - first.addr) → Q r m') :
    wp (transform S op first last d) m Q := by
  have hw : 0 < w := Nat.lt_of_le_of_lt (Nat.zero_le _) hf
  rw [transform_eq_body, wp_bind, wp_assertViable]
  refine ⟨hle, ?_⟩
  by_cases h : first.beq last
  · rw [if_pos h, wp_pure]
    rw [BitIter.beq_iff hf hl] at h
    refine hQ m d hd (by omega) ?_
    rw [h, Int.sub_self]
    exact Mapd.zero
  · rw [if_neg h, wp_bind, wp_distance]
    refine ⟨hle, ?_⟩
    rw [BitIter.beq_iff hf hl] at h
    obtain ⟨n, hn⟩ : ∃ n : Nat, last.addr - first.addr = n := ⟨(last.addr - first.addr).toNat, by omega⟩
    rw [hn, Int.toNat_natCast, wp_bind]
    rw [hn] at hm2 hQ
    have hm1' : Mapped m first.addr (first.addr + n) := hm1.sub (by omega) (by omega)
    refine wp_transformHead S hop hf hd (by omega) hm1' hm2 ?_
    intro m1 k first' it hk hf' hfa hit hmd
    dsimp only
    have hms : Mapped m first.addr (first.addr + k) := hm1.sub (by omega) (by omega)
    rw [wp_bind]
    refine wp_transformBody S hop hf' hl (by omega) ?_ ?_ ?_ ?_
    · exact (hmd.mapped hms hm1').sub (by omega) (by omega)
    · intro h0; rw [hit (by omega)]; exact (hmd.mapped hms hm2).sub (by omega) (by omega)
    · intro h0; rw [hit (by omega)]; omega
    · intro m2 hm2'
      rw [wp_pure]
      refine hQ m2 _ (BitIter.add_valid hw _ _) (BitIter.add_addr hw _ _) ?_
      by_cases hkn : k < n
      · rw [hit hkn, hfa] at hm2'
        have := Mapd.comp (by omega) (by omega) hmd hm2' (by omega)
        rwa [show (k : Int) + ((n - k : Nat) : Int) = n by omega] at this
      · have hkn' : k = n := by omega
        subst hkn'
        have : m2 = m1 := by
          apply mem_ext_bitAt hw
          intro i
          rw [hm2' i, if_neg (by omega)]
        rw [this]; exact hmd

/-! ### `copy` and `move` are `transform` with the identity -/

theorem stdCopyN_eq : ∀ (n : Nat) (s d : Int), (stdCopyN n s d : M w Int) = stdTransformN id n s d := by
  intro n
  induction n with
  | zero => intro s d; rfl
  | succ n ih =>
    intro s d
    unfold stdCopyN stdTransformN
    simp only [ih, id]

theorem stdCopy_eq (a b d : Int) : (stdCopy a b d : M w Int) = stdTransform a b d id := by
  unfold stdCopy stdTransform
  simp only [stdCopyN_eq]

theorem copyLoop_eq (S : ShiftSem w) : ∀ (fuel rem : Nat) (first : BitIter w) (it : Int),
    copyLoop S fuel rem first it = transformLoop S id fuel rem first it := by
  intro fuel
  induction fuel with
  | zero => intros; rfl
  | succ n ih =>
    intro rem first it
    unfold copyLoop transformLoop
    simp only [ih]
    rfl

theorem moveLoop_eq (S : ShiftSem w) : ∀ (fuel rem : Nat) (first : BitIter w) (it : Int),
    moveLoop S fuel rem first it = transformLoop S id fuel rem first it := by
  intro fuel
  induction fuel with
  | zero => intros; rfl
  | succ n ih =>
    intro rem first it
    unfold moveLoop transformLoop
    simp only [ih]
    rfl

theorem add_words (hw : 0 < w) (it : BitIter w) (hp : it.pos = 0) (N : Nat) :
    it.add ((w : Int) * N) = ⟨it.base + N, 0⟩ := by
  refine BitIter.addr_inj (BitIter.add_valid hw _ _) (b := ⟨it.base + N, 0⟩) hw ?_
  rw [BitIter.add_addr hw]
  show it.base * (w : Int) + it.pos + w * N = (it.base + N) * w + (0 : Nat)
  rw [hp]; push_cast; ring

theorem copy_eq (hw : 0 < w) (S : ShiftSem w) (first last d : BitIter w) :
    copy S first last d = transform S id first last d := by
  unfold copy transform
  congr 1; funext _
  split_ifs
  · rfl
  · congr 1; funext dd
    show _ >>= _ = _ >>= _
    have : copyHead S first d dd.toNat = transformHead S id first d dd.toNat := rfl
    rw [this]
    refine bind_congr fun r => ?_
    obtain ⟨rem, first', it⟩ := r
    dsimp only
    split_ifs with h1 h2
    · congr 1; funext N
      rw [stdCopy_eq, add_words hw _ h2.1]
      rfl
    · rw [copyLoop_eq]
    · rfl

theorem move_eq (hw : 0 < w) (S : ShiftSem w) (first last d : BitIter w) :
    move S first last d = transform S id first last d := by
  unfold move transform
  congr 1; funext _
  split_ifs
  · rfl
  · congr 1; funext dd
    show _ >>= _ = _ >>= _
    have : moveHead S first d dd.toNat = transformHead S id first d dd.toNat := rfl
    rw [this]
    refine bind_congr fun r => ?_
    obtain ⟨rem, first', it⟩ := r
    dsimp only
    split_ifs with h1 h2
    · congr 1; funext N
      rw [stdCopy_eq, add_words hw _ h2.1]
      rfl
    · rw [moveLoop_eq]
    · rfl

theorem copied_of_mapd {m m' : Mem w} {s d n : Int} (h : Mapd id m m' s d n) : Copied m m' s d n := by
  intro i
  rw [h i]
  simp

theorem wp_copy (S : ShiftSem w) {first last d : BitIter w} {m : Mem w}
    {Q : BitIter w → Mem w → Prop} (hf : first.Valid) (hl : last.Valid) (hd : d.Valid)
    (hle : first.addr ≤ last.addr)
    (hm1 : Mapped m first.addr last.addr) (hm2 : Mapped m d.addr (d.addr + (last.addr - first.addr)))
    (hov : d.addr ≤ first.addr ∨ last.addr ≤ d.addr)
    (hQ : ∀ m' (r : BitIter w), r.Valid → r.addr = d.addr + (last.addr - first.addr) →
      Copied m m' first.addr d.addr (last.addr - first.addr) → Q r m') :
    wp (copy S first last d) m Q := by
  have hw : 0 < w := Nat.lt_of_le_of_lt (Nat.zero_le _) hf
  rw [copy_eq hw]
  exact wp_transform S (f := id) (fun _ _ _ => rfl) hf hl hd hle hm1 hm2 hov
    (fun m' r h1 h2 h3 => hQ m' r h1 h2 (copied_of_mapd h3))

theorem wp_move (S : ShiftSem w) {first last d : BitIter w} {m : Mem w}
    {Q : BitIter w → Mem w → Prop} (hf : first.Valid) (hl : last.Valid) (hd : d.Valid)
    (hle : first.addr ≤ last.addr)
    (hm1 : Mapped m first.addr last.addr) (hm2 : Mapped m d.addr (d.addr + (last.addr - first.addr)))
    (hov : d.addr ≤ first.addr ∨ last.addr ≤ d.addr)
    (hQ : ∀ m' (r : BitIter w), r.Valid → r.addr = d.addr + (last.addr - first.addr) →
      Copied m m' first.addr d.addr (last.addr - first.addr) → Q r m') :
    wp (move S first last d) m Q := by
  have hw : 0 < w := Nat.lt_of_le_of_lt (Nat.zero_le _) hf
  rw [move_eq hw]
  exact wp_transform S (f := id) (fun _ _ _ => rfl) hf hl hd hle hm1 hm2 hov
    (fun m' r h1 h2 h3 => hQ m' r h1 h2 (copied_of_mapd h3))

end BitLib
