import Verif.Lemmas.ShiftRight
/- Proofs for `swap_ranges`. -/
namespace BitLib
variable {w : Nat}

/-- Exchange of two bits. -/
def swapBit (f : Int → Option Bool) (a b : Int) : Int → Option Bool :=
  fun i => if i = a then f b else if i = b then f a else f i

/-- Exchange, one after the other, of the bits at `a`, `a+1`, ... with the bits at `b`, `b+1`, ... -/
def swapSeq (f : Int → Option Bool) (a b : Int) : Nat → Int → Option Bool
  | 0 => f
  | n+1 => swapBit (swapSeq f a b n) (a + n) (b + n)

/-- The memory after `n` successive exchanges. The two ranges may overlap. -/
def SwapSeq (m m' : Mem w) (a b n : Int) : Prop := ∀ i, bitAt m' i = swapSeq (bitAt m) a b n.toNat i

theorem swapSeq_add (f : Int → Option Bool) (a b : Int) (n k : Nat) :
    swapSeq f a b (n + k) = swapSeq (swapSeq f a b n) (a + n) (b + n) k := by
  induction k with
  | zero => rfl
  | succ k ih =>
    show swapBit (swapSeq f a b (n + k)) (a + (n + k : Nat)) (b + (n + k : Nat)) = _
    rw [ih]
    show _ = swapBit (swapSeq (swapSeq f a b n) (a + n) (b + n) k) (a + n + k) (b + n + k)
    congr 1 <;> omega

theorem swapSeq_disjoint (f : Int → Option Bool) (a b : Int) (n : Nat) (hd : a + n ≤ b ∨ b + n ≤ a) (i : Int) :
    swapSeq f a b n i = if a ≤ i ∧ i < a + n then f (b + (i - a))
      else if b ≤ i ∧ i < b + n then f (a + (i - b)) else f i := by
  induction n generalizing i with
  | zero => rw [if_neg (by omega), if_neg (by omega)]; rfl
  | succ n ih =>
    have ih' := ih (by omega)
    show swapBit (swapSeq f a b n) (a + n) (b + n) i = _
    unfold swapBit
    rw [ih' i, ih' (a + n), ih' (b + n)]
    split_ifs <;> first | rfl | (exfalso; omega) | (congr 1; omega)

theorem SwapSeq.zero {m : Mem w} {a b : Int} : SwapSeq m m a b 0 := fun _ => rfl

theorem SwapSeq.congr {m m' : Mem w} {a b n a' b' n' : Int} (h : SwapSeq m m' a b n)
    (ha : a = a') (hb : b = b') (hn : n = n') : SwapSeq m m' a' b' n' := by
  subst ha hb hn; exact h

theorem SwapSeq.comp {m m1 m2 : Mem w} {a b n k : Int} (hn : 0 ≤ n) (hk : 0 ≤ k)
    (h1 : SwapSeq m m1 a b n) (h2 : SwapSeq m1 m2 (a + n) (b + n) k) : SwapSeq m m2 a b (n + k) := by
  intro i
  have e1 : bitAt m1 = swapSeq (bitAt m) a b n.toNat := funext h1
  rw [h2 i, e1, show (n + k).toNat = n.toNat + k.toNat by omega, swapSeq_add,
    show a + (n.toNat : Int) = a + n by omega, show b + (n.toNat : Int) = b + n by omega]

theorem SwapSeq.sameMapped {m m' : Mem w} {a b n : Int} (h : SwapSeq m m' a b n)
    (ha : Mapped m a (a + n)) (hb : Mapped m b (b + n)) : SameMapped m m' := by
  have key : ∀ k : Nat, k ≤ n.toNat → ∀ i, (swapSeq (bitAt m) a b k i).isSome = (bitAt m i).isSome := by
    intro k
    induction k with
    | zero => intro _ i; rfl
    | succ k ih =>
      intro hk i
      show (swapBit (swapSeq (bitAt m) a b k) (a + k) (b + k) i).isSome = _
      unfold swapBit
      split_ifs with h1 h2
      · rw [ih (by omega), h1, ha (a + k) (by omega) (by omega), hb (b + k) (by omega) (by omega)]
      · rw [ih (by omega), h2, ha (a + k) (by omega) (by omega), hb (b + k) (by omega) (by omega)]
      · exact ih (by omega) i
  intro i
  rw [h i, key _ (le_refl _)]

theorem Swapped.seq {m m' : Mem w} {a b n : Int} (h : Swapped m m' a b n) (h0 : 0 ≤ n)
    (hd : a + n ≤ b ∨ b + n ≤ a) : SwapSeq m m' a b n := by
  intro i
  rw [h i, swapSeq_disjoint _ _ _ _ (by omega), show (n.toNat : Int) = n by omega]

theorem SwapSeq.swapped {m m' : Mem w} {a b n : Int} (h : SwapSeq m m' a b n) (h0 : 0 ≤ n)
    (hd : a + n ≤ b ∨ b + n ≤ a) : Swapped m m' a b n := by
  intro i
  rw [h i, swapSeq_disjoint _ _ _ _ (by omega), show (n.toNat : Int) = n by omega]

theorem SameMapped.mapped {m m' : Mem w} {a b : Int} (h : SameMapped m m') (hm : Mapped m a b) : Mapped m' a b := by
  intro i h1 h2
  rw [h i]; exact hm i h1 h2

def optXor (x y : Option Bool) : Option Bool := x.bind fun a => y.map fun b => a ^^ b

/-- One assignment of an xor swap. -/
def XorStep (m m' : Mem w) (d s n : Int) : Prop :=
  Wrote m m' d (d + n) fun i => optXor (bitAt m i) (bitAt m (s + (i - d)))

theorem XorStep.sameMapped {m m' : Mem w} {d s n : Int} (h : XorStep m m' d s n)
    (ha : Mapped m d (d + n)) (hb : Mapped m s (s + n)) : SameMapped m m' := by
  intro i
  rw [h i]
  split_ifs with h1
  · obtain ⟨x, hx⟩ := Option.isSome_iff_exists.1 (ha i (by omega) (by omega))
    obtain ⟨y, hy⟩ := Option.isSome_iff_exists.1 (hb (s + (i - d)) (by omega) (by omega))
    simp [optXor, hx, hy]
  · rfl

theorem XorStep.swap {m m1 m2 m3 : Mem w} {a b n : Int} (ha : Mapped m a (a + n)) (hb : Mapped m b (b + n))
    (hd : a + n ≤ b ∨ b + n ≤ a)
    (h1 : XorStep m m1 a b n) (h2 : XorStep m1 m2 b a n) (h3 : XorStep m2 m3 a b n) : Swapped m m3 a b n := by
  have key : ∀ j, 0 ≤ j → j < n → ∃ x y, bitAt m (a + j) = some x ∧ bitAt m (b + j) = some y ∧
      bitAt m1 (a + j) = some (x ^^ y) ∧ bitAt m1 (b + j) = some y ∧
      bitAt m2 (a + j) = some (x ^^ y) ∧ bitAt m2 (b + j) = some x ∧
      bitAt m3 (a + j) = some y ∧ bitAt m3 (b + j) = some x := by
    intro j j0 j1
    obtain ⟨x, hx⟩ := Option.isSome_iff_exists.1 (ha (a + j) (by omega) (by omega))
    obtain ⟨y, hy⟩ := Option.isSome_iff_exists.1 (hb (b + j) (by omega) (by omega))
    have e1 : b + (a + j - a) = b + j := by omega
    have e2 : a + (b + j - b) = a + j := by omega
    have a1 : bitAt m1 (a + j) = some (x ^^ y) := by
      rw [h1, if_pos (by omega)]; beta_reduce; rw [e1, hx, hy]; rfl
    have b1 : bitAt m1 (b + j) = some y := by
      rw [h1, if_neg (by omega), hy]
    have a2 : bitAt m2 (a + j) = some (x ^^ y) := by
      rw [h2, if_neg (by omega), a1]
    have b2 : bitAt m2 (b + j) = some x := by
      rw [h2, if_pos (by omega)]; beta_reduce; rw [e2, b1, a1]
      cases x <;> cases y <;> rfl
    have a3 : bitAt m3 (a + j) = some y := by
      rw [h3, if_pos (by omega)]; beta_reduce; rw [e1, a2, b2]
      cases x <;> cases y <;> rfl
    have b3 : bitAt m3 (b + j) = some x := by
      rw [h3, if_neg (by omega), b2]
    exact ⟨x, y, hx, hy, a1, b1, a2, b2, a3, b3⟩
  intro i
  split_ifs with c1 c2
  · obtain ⟨x, y, _, hy, _, _, _, _, hr, _⟩ := key (i - a) (by omega) (by omega)
    rw [show a + (i - a) = i by omega] at hr
    rw [hr, hy]
  · obtain ⟨x, y, hx, _, _, _, _, _, _, hr⟩ := key (i - b) (by omega) (by omega)
    rw [show b + (i - b) = i by omega] at hr
    rw [hr, hx]
  · rw [h3, if_neg (by omega), h2, if_neg (by omega), h1, if_neg (by omega)]

theorem exchMask_ok (S : ShiftSem w) (len : Nat) (hlen : len ≤ w) :
    ∃ k, exchMask S len = .ok k ∧ ∀ i, i < w → k.getLsbD i = decide (i < len) := by
  unfold exchMask
  by_cases h : len < w
  · rw [if_pos h, S.shl_ok h]
    exact ⟨_, rfl, fun i hi => getLsbD_lowMask len i hi⟩
  · rw [if_neg h]
    refine ⟨_, rfl, fun i hi => ?_⟩
    simp [hi, show i < len by omega]

/-- The common part of all the exchange steps. -/
theorem xorStep_of_store {m m' : Mem w} {dst : Int} {x t k : BitVec w} {start len : Nat} {s : Int}
    (hsl : start + len ≤ w)
    (hx : ∀ p : Nat, p < w → bitAt m (dst * (w : Int) + p) = some (x.getLsbD p))
    (hk : ∀ i, i < w → k.getLsbD i = decide (start ≤ i ∧ i < start + len))
    (ht : ∀ j : Nat, j < len → bitAt m (s + j) = some (t.getLsbD (start + j)))
    (hw' : Wrote m m' (dst * w) (dst * w + w) fun i => some ((x ^^^ (t &&& k)).getLsbD (i - dst * (w : Int)).toNat)) :
    XorStep m m' (dst * w + start) s len := by
  intro i
  rw [hw' i]
  beta_reduce
  by_cases hi : dst * (w : Int) ≤ i ∧ i < dst * w + w
  · rw [if_pos hi, BitVec.getLsbD_xor, BitVec.getLsbD_and, hk _ (by omega)]
    have hxi := hx (i - dst * w).toNat (by omega)
    rw [show dst * (w : Int) + ((i - dst * w).toNat : Int) = i by omega] at hxi
    by_cases hc : dst * (w : Int) + start ≤ i ∧ i < dst * w + start + len
    · rw [if_pos hc]
      have htj := ht (i - (dst * w + start)).toNat (by omega)
      rw [show s + ((i - (dst * (w : Int) + start)).toNat : Int) = s + (i - (dst * w + start)) by omega,
        show start + (i - (dst * (w : Int) + start)).toNat = (i - dst * w).toNat by omega] at htj
      rw [htj, hxi]
      simp [optXor, show start ≤ (i - dst * (w : Int)).toNat ∧ (i - dst * (w : Int)).toNat < start + len by omega]
    · rw [if_neg hc, hxi]
      simp [show ¬ (start ≤ (i - dst * (w : Int)).toNat ∧ (i - dst * (w : Int)).toNat < start + len) by omega]
  · rw [if_neg hi, if_neg (by omega)]

theorem maskShl_get {msk : BitVec w} {start len : Nat} (hmsk : ∀ i, i < w → msk.getLsbD i = decide (i < len)) :
    ∀ i, i < w → (msk <<< start).getLsbD i = decide (start ≤ i ∧ i < start + len) := by
  intro i hi
  rw [BitVec.getLsbD_shiftLeft, hmsk (i - start) (by omega)]
  simp only [hi, decide_true, Bool.true_and, ← decide_not, ← Bool.decide_and]
  congr 1
  apply propext; omega

theorem wp_exchStepL (S : ShiftSem w) {dst src : Int} {n s0 s1 len : Nat} {msk : BitVec w} {m : Mem w}
    {Q : Unit → Mem w → Prop} (hs0 : s0 + len ≤ w) (hs1 : s1 + n = s0) (h0 : 0 < len)
    (hmsk : ∀ i, i < w → msk.getLsbD i = decide (i < len))
    (ha : Mapped m (dst * w + s0) (dst * w + s0 + len)) (hb : Mapped m (src * w + s1) (src * w + s1 + len))
    (hQ : ∀ m', XorStep m m' (dst * w + s0) (src * w + s1) len → Q () m') :
    wp (exchStepL S dst src n msk s0) m Q := by
  have hw : 0 < w := by omega
  unfold exchStepL
  rw [wp_bind]
  refine wp_load_bits hw (dst * w + s0) (by omega) (by omega) (ha _ (by omega) (by omega)) ?_
  intro x hx
  rw [wp_bind]
  refine wp_load_bits hw (src * w + s1) (by omega) (by omega) (hb _ (by omega) (by omega)) ?_
  intro y hy
  rw [wp_bind, wp_shl S (by omega), wp_bind, wp_shl S (by omega)]
  refine wp_store_bits hw (dst * w + s0) (by omega) (by omega) (ha _ (by omega) (by omega)) ?_
  intro m' hm'
  apply hQ
  refine xorStep_of_store hs0 hx (maskShl_get hmsk) ?_ hm'
  intro j hj
  rw [show src * (w : Int) + s1 + j = src * w + ((s1 + j : Nat) : Int) by omega, hy _ (by omega),
    BitVec.getLsbD_shiftLeft]
  simp only [show s0 + j < w by omega, show ¬ s0 + j < n by omega, decide_true,
      decide_false, Bool.not_false, Bool.true_and]
  congr 2; omega

theorem wp_exchStepR (S : ShiftSem w) {dst src : Int} {n s0 s1 len : Nat} {msk : BitVec w} {m : Mem w}
    {Q : Unit → Mem w → Prop} (hs0 : s1 + len ≤ w) (hs1 : s0 + n = s1) (h0 : 0 < len)
    (hmsk : ∀ i, i < w → msk.getLsbD i = decide (i < len))
    (ha : Mapped m (dst * w + s0) (dst * w + s0 + len)) (hb : Mapped m (src * w + s1) (src * w + s1 + len))
    (hQ : ∀ m', XorStep m m' (dst * w + s0) (src * w + s1) len → Q () m') :
    wp (exchStepR S dst src n msk s0) m Q := by
  have hw : 0 < w := by omega
  unfold exchStepR
  rw [wp_bind]
  refine wp_load_bits hw (dst * w + s0) (by omega) (by omega) (ha _ (by omega) (by omega)) ?_
  intro x hx
  rw [wp_bind]
  refine wp_load_bits hw (src * w + s1) (by omega) (by omega) (hb _ (by omega) (by omega)) ?_
  intro y hy
  rw [wp_bind, wp_shr S (by omega), wp_bind, wp_shl S (by omega)]
  refine wp_store_bits hw (dst * w + s0) (by omega) (by omega) (ha _ (by omega) (by omega)) ?_
  intro m' hm'
  apply hQ
  refine xorStep_of_store (by omega) hx (maskShl_get hmsk) ?_ hm'
  intro j hj
  rw [show src * (w : Int) + s1 + j = src * w + ((s1 + j : Nat) : Int) by omega, hy _ (by omega),
    BitVec.getLsbD_ushiftRight]
  congr 2; omega

/-- Exchanging two disjoint bit fields, possibly of the same word. -/
theorem wp_bitexch5 (S : ShiftSem w) {a0 a1 : Int} {s0 s1 len : Nat} {m : Mem w}
    {Q : Unit → Mem w → Prop} (hs0 : s0 + len ≤ w) (hs1 : s1 + len ≤ w) (h0 : 0 < len)
    (ha : Mapped m (a0 * w + s0) (a0 * w + s0 + len)) (hb : Mapped m (a1 * w + s1) (a1 * w + s1 + len))
    (hd : a0 * (w : Int) + s0 + len ≤ a1 * w + s1 ∨ a1 * (w : Int) + s1 + len ≤ a0 * w + s0)
    (hQ : ∀ m', SwapSeq m m' (a0 * w + s0) (a1 * w + s1) len → Q () m') :
    wp (bitexch5 S a0 a1 s0 s1 len) m Q := by
  obtain ⟨k, hk, hkb⟩ := exchMask_ok S len (by omega)
  unfold bitexch5
  rw [hk, wp_bind, wp_lift_ok]
  by_cases h : s0 ≥ s1
  · rw [if_pos h, wp_bind]
    refine wp_exchStepL S (s1 := s1) hs0 (by omega) h0 hkb ha hb ?_
    intro m1 h1
    have sm1 := h1.sameMapped ha hb
    rw [wp_bind]
    refine wp_exchStepR S (s1 := s0) hs0 (by omega) h0 hkb (sm1.mapped hb) (sm1.mapped ha) ?_
    intro m2 h2
    have sm2 := h2.sameMapped (sm1.mapped hb) (sm1.mapped ha)
    refine wp_exchStepL S (s1 := s1) hs0 (by omega) h0 hkb (sm2.mapped (sm1.mapped ha)) (sm2.mapped (sm1.mapped hb)) ?_
    intro m3 h3
    exact hQ m3 ((XorStep.swap ha hb hd h1 h2 h3).seq (by omega) hd)
  · rw [if_neg h, wp_bind]
    refine wp_exchStepR S (s1 := s1) hs1 (by omega) h0 hkb ha hb ?_
    intro m1 h1
    have sm1 := h1.sameMapped ha hb
    rw [wp_bind]
    refine wp_exchStepL S (s1 := s0) hs1 (by omega) h0 hkb (sm1.mapped hb) (sm1.mapped ha) ?_
    intro m2 h2
    have sm2 := h2.sameMapped (sm1.mapped hb) (sm1.mapped ha)
    refine wp_exchStepR S (s1 := s1) hs1 (by omega) h0 hkb (sm2.mapped (sm1.mapped ha)) (sm2.mapped (sm1.mapped hb)) ?_
    intro m3 h3
    exact hQ m3 ((XorStep.swap ha hb hd h1 h2 h3).seq (by omega) hd)

theorem wp_bitexch3 {a0 a1 : Int} {msk : BitVec w} {s len : Nat} {m : Mem w}
    {Q : Unit → Mem w → Prop} (hs : s + len ≤ w) (h0 : 0 < len)
    (hmsk : ∀ i, i < w → msk.getLsbD i = decide (s ≤ i ∧ i < s + len))
    (ha : Mapped m (a0 * w + s) (a0 * w + s + len)) (hb : Mapped m (a1 * w + s) (a1 * w + s + len))
    (hd : a0 * (w : Int) + s + len ≤ a1 * w + s ∨ a1 * (w : Int) + s + len ≤ a0 * w + s)
    (hQ : ∀ m', SwapSeq m m' (a0 * w + s) (a1 * w + s) len → Q () m') :
    wp (bitexch3 a0 a1 msk) m Q := by
  have hw : 0 < w := by omega
  have step : ∀ {dst src : Int} {m : Mem w} {x y : BitVec w} {R : Unit → Mem w → Prop},
      Mapped m (dst * w + s) (dst * w + s + len) →
      (∀ p : Nat, p < w → bitAt m (dst * (w : Int) + p) = some (x.getLsbD p)) →
      (∀ p : Nat, p < w → bitAt m (src * (w : Int) + p) = some (y.getLsbD p)) →
      (∀ m', XorStep m m' (dst * w + s) (src * w + s) len → R () m') →
      wp (store dst (x ^^^ (y &&& msk))) m R := by
    intro dst src m x y R hmp hx hy hR
    refine wp_store_bits hw (dst * w + s) (by omega) (by omega) (hmp _ (by omega) (by omega)) ?_
    intro m' hm'
    apply hR
    refine xorStep_of_store hs hx hmsk ?_ hm'
    intro j hj
    rw [show src * (w : Int) + s + j = src * w + ((s + j : Nat) : Int) by omega, hy _ (by omega)]
  unfold bitexch3
  rw [wp_bind]
  refine wp_load_bits hw (a0 * w + s) (by omega) (by omega) (ha _ (by omega) (by omega)) ?_
  intro x hx
  rw [wp_bind]
  refine wp_load_bits hw (a1 * w + s) (by omega) (by omega) (hb _ (by omega) (by omega)) ?_
  intro y hy
  rw [wp_bind]
  refine step ha hx hy ?_
  intro m1 h1
  have sm1 := h1.sameMapped ha hb
  have ha1 := sm1.mapped ha
  have hb1 := sm1.mapped hb
  rw [wp_bind]
  refine wp_load_bits hw (a1 * w + s) (by omega) (by omega) (hb1 _ (by omega) (by omega)) ?_
  intro y1 hy1
  rw [wp_bind]
  refine wp_load_bits hw (a0 * w + s) (by omega) (by omega) (ha1 _ (by omega) (by omega)) ?_
  intro x1 hx1
  rw [wp_bind]
  refine step hb1 hy1 hx1 ?_
  intro m2 h2
  have sm2 := h2.sameMapped hb1 ha1
  have ha2 := sm2.mapped ha1
  have hb2 := sm2.mapped hb1
  rw [wp_bind]
  refine wp_load_bits hw (a0 * w + s) (by omega) (by omega) (ha2 _ (by omega) (by omega)) ?_
  intro x2 hx2
  rw [wp_bind]
  refine wp_load_bits hw (a1 * w + s) (by omega) (by omega) (hb2 _ (by omega) (by omega)) ?_
  intro y2 hy2
  refine step ha2 hx2 hy2 ?_
  intro m3 h3
  exact hQ m3 ((XorStep.swap ha hb hd h1 h2 h3).seq (by omega) hd)

theorem wp_bitexch4 (S : ShiftSem w) {a0 a1 : Int} {s len : Nat} {m : Mem w}
    {Q : Unit → Mem w → Prop} (hs : s + len ≤ w) (h0 : 0 < len)
    (ha : Mapped m (a0 * w + s) (a0 * w + s + len)) (hb : Mapped m (a1 * w + s) (a1 * w + s + len))
    (hd : a0 * (w : Int) + s + len ≤ a1 * w + s ∨ a1 * (w : Int) + s + len ≤ a0 * w + s)
    (hQ : ∀ m', SwapSeq m m' (a0 * w + s) (a1 * w + s) len → Q () m') :
    wp (bitexch4 S a0 a1 s len) m Q := by
  unfold bitexch4
  rw [wp_bind]
  by_cases h : len < w
  · rw [if_pos h, S.shl_ok h]
    simp only [bind, Except.bind]
    rw [S.shl_ok (by omega), wp_lift_ok]
    exact wp_bitexch3 hs h0 (maskShl_get (fun i hi => getLsbD_lowMask len i hi)) ha hb hd hQ
  · rw [if_neg h]
    show wp (lift (Except.ok _)) m _
    rw [wp_lift_ok]
    refine wp_bitexch3 hs h0 ?_ ha hb hd hQ
    intro i hi
    simp [hi, show s ≤ i ∧ i < s + len by omega]

theorem wp_swapSingle (S : ShiftSem w) {first1 last1 first2 : BitIter w} {m : Mem w} {Q : BitIter w → Mem w → Prop}
    (hf : first1.Valid) (h2 : first2.Valid) (hlt : first1.addr < last1.addr)
    (hin : last1.addr ≤ first1.base * w + w)
    (hm1 : Mapped m first1.addr last1.addr) (hm2 : Mapped m first2.addr (first2.addr + (last1.addr - first1.addr)))
    (hd : first1.addr + w ≤ first2.addr ∨ first2.addr + w ≤ first1.addr ∨
      last1.addr ≤ first2.addr ∨ first2.addr + (last1.addr - first1.addr) ≤ first1.addr)
    (hQ : ∀ m', SwapSeq m m' first1.addr first2.addr (last1.addr - first1.addr) →
      Q (first2.add (last1.addr - first1.addr)) m') :
    wp (swapSingle S first1 last1 first2) m Q := by
  have hf' : first1.pos < w := hf
  have h2' : first2.pos < w := h2
  have hw : 0 < w := by omega
  have hfa : first1.addr = first1.base * w + first1.pos := rfl
  have h2a : first2.addr = first2.base * w + first2.pos := rfl
  unfold swapSingle
  rw [wp_bind, wp_distance]
  refine ⟨by omega, ?_⟩
  obtain ⟨n, hn⟩ : ∃ n : Nat, last1.addr - first1.addr = n := ⟨(last1.addr - first1.addr).toNat, by omega⟩
  rw [hn, Int.toNat_natCast]
  rw [hn] at hm2 hd hQ
  dsimp only
  by_cases hge : first1.pos ≥ first2.pos
  · rw [if_pos hge, wp_bind]
    refine wp_bitexch5 S (by omega) (by omega) (by omega) (hm1.sub (by omega) (by omega))
      (hm2.sub (by omega) (by omega)) (by omega) ?_
    intro m' hm'
    rw [wp_pure]
    exact hQ m' hm'
  · rw [if_neg hge, wp_bind]
    generalize hk : min n (w - first2.pos) = k
    have hk0 : 0 < k := by omega
    have hk1 : k ≤ n := by omega
    have hk2 : k ≤ w - first2.pos := by omega
    refine wp_bitexch5 S (by omega) (by omega) (by omega) (hm1.sub (by omega) (by omega))
      (hm2.sub (by omega) (by omega)) (by omega) ?_
    intro m1 h1
    have hmm1 : SameMapped m m1 := h1.sameMapped (hm1.sub (by omega) (by omega)) (hm2.sub (by omega) (by omega))
    by_cases hnk : n > k
    · rw [if_pos hnk, wp_bind]
      have e1 : (first2.base + 1) * (w : Int) = first2.base * w + w := by ring
      refine wp_bitexch5 S (by omega) (by omega) (by omega) ((hmm1.mapped hm1).sub (by omega) (by omega))
        ((hmm1.mapped hm2).sub (by omega) (by omega)) (by omega) ?_
      intro m2 hm2'
      rw [wp_pure]
      refine hQ m2 ?_
      exact (h1.comp (by omega) (by omega) (hm2'.congr (by omega) (by omega) rfl)).congr rfl rfl (by omega)
    · rw [if_neg hnk, wp_pure]
      exact hQ m1 (h1.congr rfl rfl (by omega))

theorem wp_stdSwapRangesN (hw : 0 < w) :
    ∀ (n : Nat) {a b : Int} {m : Mem w} {Q : Int → Mem w → Prop},
    Mapped m (a * w) (a * w + n * w) → Mapped m (b * w) (b * w + n * w) →
    (n ≠ 0 → a * (w : Int) + w ≤ b * w ∨ b * (w : Int) + w ≤ a * w) →
    (∀ m', SwapSeq m m' (a * w) (b * w) (n * w) → Q (b + n) m') →
    wp (stdSwapRangesN n a b) m Q := by
  intro n
  induction n with
  | zero =>
    intro a b m Q hm1 hm2 hd hQ
    unfold stdSwapRangesN
    rw [wp_pure]
    have := hQ m (by simpa using SwapSeq.zero)
    simpa using this
  | succ n ih =>
    intro a b m Q hm1 hm2 hd hQ
    have en : ((n + 1 : Nat) : Int) * (w : Int) = w + n * w := by push_cast; ring
    rw [en] at hm1 hm2 hQ
    replace hd := hd (by omega)
    have hnw : 0 ≤ (n : Int) * w := Int.mul_nonneg (by omega) (by omega)
    unfold stdSwapRangesN
    rw [wp_bind]
    refine wp_load_bits hw (a * w) (by omega) (by omega) (hm1 _ (by omega) (by omega)) ?_
    intro x hx
    rw [wp_bind]
    refine wp_load_bits hw (b * w) (by omega) (by omega) (hm2 _ (by omega) (by omega)) ?_
    intro y hy
    rw [wp_bind]
    refine wp_store_bits hw (a * w) (by omega) (by omega) (hm1 _ (by omega) (by omega)) ?_
    intro m1 h1
    rw [wp_bind]
    refine wp_store_bits hw (b * w) (by omega) (by omega) ?_ ?_
    · rw [h1, if_neg (by omega)]; exact hm2 _ (by omega) (by omega)
    intro m2 h2
    have hsw : SwapSeq m m2 (a * w) (b * w) w := by
      refine Swapped.seq ?_ (by omega) (by omega)
      intro i
      rw [h2 i, h1 i]
      beta_reduce
      split_ifs with c1 c2 c3
      · exfalso; omega
      · rw [← hx _ (by omega)]; congr 1; omega
      · rw [← hy _ (by omega)]; congr 1; omega
      · rfl
    have sm := hsw.sameMapped (hm1.sub (by omega) (by omega)) (hm2.sub (by omega) (by omega))
    have e1 : (a + 1) * (w : Int) = a * w + w := by ring
    have e2 : (b + 1) * (w : Int) = b * w + w := by ring
    refine ih ?_ ?_ ?_ ?_
    · rw [e1]; exact (sm.mapped hm1).sub (by omega) (by omega)
    · rw [e2]; exact (sm.mapped hm2).sub (by omega) (by omega)
    · rw [e1, e2]; omega
    · intro m3 h3
      rw [e1, e2] at h3
      have := hQ m3 (hsw.comp (by omega) (by omega) h3)
      rwa [show b + 1 + (n : Int) = b + ((n + 1 : Nat) : Int) by omega]

theorem wp_swapAligned (S : ShiftSem w) {first1 last1 first2 : BitIter w} {m : Mem w} {Q : BitIter w → Mem w → Prop}
    (hf : first1.Valid) (hl : last1.Valid) (h2 : first2.Valid) (hpos : first1.pos = first2.pos)
    (hlt : first1.base < last1.base)
    (hm1 : Mapped m first1.addr last1.addr) (hm2 : Mapped m first2.addr (first2.addr + (last1.addr - first1.addr)))
    (hd : first1.addr + w ≤ first2.addr ∨ first2.addr + w ≤ first1.addr ∨
      last1.addr ≤ first2.addr ∨ first2.addr + (last1.addr - first1.addr) ≤ first1.addr)
    (hQ : ∀ m', SwapSeq m m' first1.addr first2.addr (last1.addr - first1.addr) →
      Q (first2.add (last1.addr - first1.addr)) m') :
    wp (swapAligned S first1 last1 first2) m Q := by
  have hf' : first1.pos < w := hf
  have h2' : first2.pos < w := h2
  have hl' : last1.pos < w := hl
  have hw : 0 < w := by omega
  have hfa : first1.addr = first1.base * w + first1.pos := rfl
  have h2a : first2.addr = first2.base * w + first2.pos := rfl
  have hla : last1.addr = last1.base * w + last1.pos := rfl
  have hbm := base_lt_mul (w := w) hlt
  have e1 : (first1.base + 1) * (w : Int) = first1.base * w + w := by ring
  have e2 : (first2.base + 1) * (w : Int) = first2.base * w + w := by ring
  unfold swapAligned
  rw [wp_bind]
  refine wp_bitexch4 S (by omega) (by omega) (hm1.sub (by omega) (by omega)) (hm2.sub (by omega) (by omega)) (by omega) ?_
  intro m1 h1
  have sm1 : SameMapped m m1 := h1.sameMapped (hm1.sub (by omega) (by omega)) (hm2.sub (by omega) (by omega))
  rw [wp_bind]
  unfold stdSwapRanges
  rw [wp_bind, wp_wordDist]
  refine ⟨by omega, ?_⟩
  obtain ⟨N, hN⟩ : ∃ N : Nat, last1.base = first1.base + 1 + N := ⟨(last1.base - (first1.base + 1)).toNat, by omega⟩
  have hNw : last1.base * (w : Int) = first1.base * w + w + N * w := by rw [hN]; ring
  have hNpos : 0 ≤ (N : Int) * w := Int.mul_nonneg (by omega) (by omega)
  rw [show (last1.base - (first1.base + 1)).toNat = N by omega]
  refine wp_stdSwapRangesN hw N ?_ ?_ ?_ ?_
  · rw [e1]; exact (sm1.mapped hm1).sub (by omega) (by omega)
  · rw [e2]; exact (sm1.mapped hm2).sub (by omega) (by omega)
  · intro hN0
    have : 1 * (w : Int) ≤ N * w := base_le_mul (by omega)
    rw [e1, e2]; omega
  intro m2 hm2'
  have h12 : SwapSeq m m2 first1.addr first2.addr ((w - first1.pos : Nat) + N * w) :=
    (h1.congr (b' := first2.addr) rfl (by omega) rfl).comp (by omega) (by omega) (hm2'.congr (by omega) (by omega) rfl)
  have sm2 : SameMapped m m2 := h12.sameMapped (hm1.sub (by omega) (by omega)) (hm2.sub (by omega) (by omega))
  have e3 : (first2.base + 1 + N) * (w : Int) = first2.base * w + w + N * w := by ring
  have hret : (⟨first2.base + 1 + N, last1.pos⟩ : BitIter w) = first2.add (last1.addr - first1.addr) := by
    refine BitIter.addr_inj (a := ⟨first2.base + 1 + N, last1.pos⟩) hl' (BitIter.add_valid hw _ _) ?_
    rw [BitIter.add_addr hw]
    show (first2.base + 1 + (N : Int)) * (w : Int) + (last1.pos : Nat) = _
    omega
  by_cases hlp : last1.pos ≠ 0
  · rw [if_pos hlp, wp_bind]
    refine wp_bitexch4 S (by omega) (by omega) ((sm2.mapped hm1).sub (by omega) (by omega))
      ((sm2.mapped hm2).sub (by omega) (by omega)) (by omega) ?_
    intro m3 h3
    rw [wp_mk?]
    refine ⟨hl', ?_⟩
    rw [hret]
    apply hQ
    exact (h12.comp (by omega) (by omega) (h3.congr (by omega) (by omega) rfl)).congr rfl rfl (by omega)
  · rw [if_neg hlp, wp_mk?]
    refine ⟨hl', ?_⟩
    rw [hret]
    apply hQ
    exact h12.congr rfl rfl (by omega)

theorem wp_swapMisHead (S : ShiftSem w) {first1 first2 : BitIter w} {m : Mem w} {Q : Int × Int → Mem w → Prop}
    (hf : first1.Valid) (h2 : first2.Valid) (hpos : first1.pos ≠ first2.pos)
    (hm1 : Mapped m first1.addr (first1.addr + (w - first1.pos : Nat)))
    (hm2 : Mapped m first2.addr (first2.addr + (w - first1.pos : Nat)))
    (hd : first1.addr + (w - first1.pos : Nat) ≤ first2.addr ∨ first2.addr + (w - first1.pos : Nat) ≤ first1.addr)
    (hQ : ∀ m', SwapSeq m m' first1.addr first2.addr (w - first1.pos : Nat) →
      Q (first1.base + 1, (first2.add (w - first1.pos : Nat)).base) m') :
    wp (swapMisHead S first1 first2) m Q := by
  have hf' : first1.pos < w := hf
  have h2' : first2.pos < w := h2
  have hw : 0 < w := by omega
  have hfa : first1.addr = first1.base * w + first1.pos := rfl
  have h2a : first2.addr = first2.base * w + first2.pos := rfl
  unfold swapMisHead
  dsimp only
  by_cases hgt : first1.pos > first2.pos
  · rw [if_pos hgt, wp_bind]
    refine wp_bitexch5 S (by omega) (by omega) (by omega) hm1 hm2 (by omega) ?_
    intro m' hm'
    rw [wp_pure]
    have e : first2.add ((w - first1.pos : Nat) : Int) = ⟨first2.base, first2.pos + (w - first1.pos)⟩ := by
      refine BitIter.addr_inj (BitIter.add_valid hw _ _) (b := ⟨first2.base, first2.pos + (w - first1.pos)⟩)
        (show first2.pos + (w - first1.pos) < w by omega) ?_
      rw [BitIter.add_addr hw]
      show _ = first2.base * (w : Int) + ((first2.pos + (w - first1.pos) : Nat) : Int)
      omega
    have := hQ m' hm'
    rwa [e] at this
  · rw [if_neg hgt, wp_bind]
    have e1 : (first2.base + 1) * (w : Int) = first2.base * w + w := by ring
    refine wp_bitexch5 S (by omega) (by omega) (by omega) (hm1.sub (by omega) (by omega))
      (hm2.sub (by omega) (by omega)) (by omega) ?_
    intro m1 h1
    have sm1 : SameMapped m m1 := h1.sameMapped (hm1.sub (by omega) (by omega)) (hm2.sub (by omega) (by omega))
    rw [wp_bind]
    refine wp_bitexch5 S (by omega) (by omega) (by omega) ((sm1.mapped hm1).sub (by omega) (by omega))
      ((sm1.mapped hm2).sub (by omega) (by omega)) (by omega) ?_
    intro m' h2s
    rw [wp_pure]
    have e : first2.add ((w - first1.pos : Nat) : Int) = ⟨first2.base + 1, first2.pos - first1.pos⟩ := by
      refine BitIter.addr_inj (BitIter.add_valid hw _ _) (b := ⟨first2.base + 1, first2.pos - first1.pos⟩)
        (show first2.pos - first1.pos < w by omega) ?_
      rw [BitIter.add_addr hw]
      show _ = (first2.base + 1) * (w : Int) + ((first2.pos - first1.pos : Nat) : Int)
      omega
    have := hQ m' ((h1.comp (by omega) (by omega) (h2s.congr (by omega) (by omega) rfl)).congr rfl rfl (by omega))
    rwa [e] at this

theorem wp_swapLoop (S : ShiftSem w) {lb : Int} {pos2 : Nat} (hp0 : 0 < pos2) (hp : pos2 < w) :
    ∀ (fuel : Nat) {it1 it2 : Int} {m : Mem w} {Q : Int × Int → Mem w → Prop},
    lb - it1 < fuel → it1 ≤ lb →
    Mapped m (it1 * w) (lb * w) → Mapped m (it2 * w + pos2) (it2 * w + pos2 + (lb * w - it1 * w)) →
    (it1 ≠ lb → it1 * (w : Int) + w ≤ it2 * w + pos2 ∨ it2 * w + pos2 + (w : Int) ≤ it1 * w) →
    (∀ m', SwapSeq m m' (it1 * w) (it2 * w + pos2) (lb * w - it1 * w) → Q (lb, it2 + (lb - it1)) m') →
    wp (swapLoop S lb pos2 fuel it1 it2) m Q := by
  have hw : 0 < w := by omega
  intro fuel
  induction fuel with
  | zero => intro it1 it2 m Q hfu hle; omega
  | succ fuel ih =>
    intro it1 it2 m Q hfu hle hm1 hm2 hd hQ
    unfold swapLoop
    by_cases h : it1 ≠ lb
    · have hb := base_lt_mul (w := w) (a := it1) (b := lb) (by omega)
      replace hd := hd h
      have e1 : (it1 + 1) * (w : Int) = it1 * w + w := by ring
      have e2 : (it2 + 1) * (w : Int) = it2 * w + w := by ring
      rw [if_pos h, wp_bind]
      refine wp_bitexch5 S (by omega) (by omega) (by omega) (hm1.sub (by omega) (by omega))
        (hm2.sub (by omega) (by omega)) (by omega) ?_
      intro m1 h1
      have sm1 : SameMapped m m1 := h1.sameMapped (hm1.sub (by omega) (by omega)) (hm2.sub (by omega) (by omega))
      rw [wp_bind]
      refine wp_bitexch5 S (by omega) (by omega) (by omega) ((sm1.mapped hm1).sub (by omega) (by omega))
        ((sm1.mapped hm2).sub (by omega) (by omega)) (by omega) ?_
      intro m2 h2
      have h12 : SwapSeq m m2 (it1 * w) (it2 * w + pos2) w :=
        ((h1.congr (by omega) rfl rfl).comp (by omega) (by omega) (h2.congr (by omega) (by omega) rfl)).congr rfl rfl (by omega)
      have sm2 : SameMapped m m2 := h12.sameMapped (hm1.sub (by omega) (by omega)) (hm2.sub (by omega) (by omega))
      refine ih (by omega) (by omega) ?_ ?_ ?_ ?_
      · rw [e1]; exact (sm2.mapped hm1).sub (by omega) (by omega)
      · rw [e1, e2]; exact (sm2.mapped hm2).sub (by omega) (by omega)
      · rw [e1, e2]; omega
      · intro m3 h3
        rw [e1, e2] at h3
        have := hQ m3 ((h12.comp (by omega) (by omega) (h3.congr rfl (by omega) rfl)).congr rfl rfl (by omega))
        rwa [show it2 + 1 + (lb - (it1 + 1)) = it2 + (lb - it1) by omega]
    · rw [if_neg h, wp_pure]
      have hz : it1 = lb := by omega
      subst hz
      have := hQ m (SwapSeq.zero.congr rfl rfl (by omega))
      simpa using this

theorem wp_swapMisaligned (S : ShiftSem w) {first1 last1 first2 : BitIter w} {m : Mem w} {Q : BitIter w → Mem w → Prop}
    (hf : first1.Valid) (hl : last1.Valid) (h2 : first2.Valid) (hpos : first1.pos ≠ first2.pos)
    (hlt : first1.base < last1.base)
    (hm1 : Mapped m first1.addr last1.addr) (hm2 : Mapped m first2.addr (first2.addr + (last1.addr - first1.addr)))
    (hd : first1.addr + w ≤ first2.addr ∨ first2.addr + w ≤ first1.addr ∨
      last1.addr ≤ first2.addr ∨ first2.addr + (last1.addr - first1.addr) ≤ first1.addr)
    (hQ : ∀ m', SwapSeq m m' first1.addr first2.addr (last1.addr - first1.addr) →
      Q (first2.add (last1.addr - first1.addr)) m') :
    wp (swapMisaligned S first1 last1 first2) m Q := by
  have hf' : first1.pos < w := hf
  have h2' : first2.pos < w := h2
  have hl' : last1.pos < w := hl
  have hw : 0 < w := by omega
  have hfa : first1.addr = first1.base * w + first1.pos := rfl
  have h2a : first2.addr = first2.base * w + first2.pos := rfl
  have hla : last1.addr = last1.base * w + last1.pos := rfl
  have hbm := base_lt_mul (w := w) hlt
  have e1 : (first1.base + 1) * (w : Int) = first1.base * w + w := by ring
  unfold swapMisaligned
  rw [wp_bind]
  refine wp_swapMisHead S hf h2 hpos (hm1.sub (by omega) (by omega)) (hm2.sub (by omega) (by omega)) (by omega) ?_
  intro m1 h1
  have sm1 : SameMapped m m1 := h1.sameMapped (hm1.sub (by omega) (by omega)) (hm2.sub (by omega) (by omega))
  have hga := BitIter.add_addr hw first2 ((w - first1.pos : Nat) : Int)
  have hgv : (first2.add ((w - first1.pos : Nat) : Int)).Valid := BitIter.add_valid hw first2 _
  have hgp : (first2.add ((w - first1.pos : Nat) : Int)).pos ≠ 0 := by
    intro h0
    have h3 : (first2.add ((w - first1.pos : Nat) : Int)).base * (w : Int) + ((first2.add ((w - first1.pos : Nat) : Int)).pos : Int)
      = first2.base * w + first2.pos + (w - first1.pos : Nat) := hga
    rw [h0] at h3
    generalize (first2.add ((w - first1.pos : Nat) : Int)).base = c at h3
    rcases Int.lt_trichotomy c (first2.base + 1) with h | h | h
    · have := base_le_mul (w := w) (a := c) (b := first2.base) (by omega)
      omega
    · rw [h, Int.add_mul] at h3; omega
    · have := base_le_mul (w := w) (a := first2.base + 2) (b := c) (by omega)
      rw [Int.add_mul] at this
      omega
  dsimp only
  generalize first2.add ((w - first1.pos : Nat) : Int) = g at hga hgv hgp
  have hgv' : g.pos < w := hgv
  have hgaa : g.addr = g.base * w + g.pos := rfl
  rw [wp_bind]
  refine wp_swapLoop S (by omega) hgv' _ (by omega) (by omega) ?_ ?_ ?_ ?_
  · rw [e1]; exact (sm1.mapped hm1).sub (by omega) (by omega)
  · rw [e1]; exact (sm1.mapped hm2).sub (by omega) (by omega)
  · intro hN0
    have := base_lt_mul (w := w) (a := first1.base + 1) (b := last1.base) (by omega)
    rw [e1]; omega
  intro m2 hm2'
  rw [e1] at hm2'
  have h12 : SwapSeq m m2 first1.addr first2.addr ((w - first1.pos : Nat) + (last1.base * w - (first1.base * w + w))) :=
    h1.comp (by omega) (by omega) (hm2'.congr (by omega) (by omega) rfl)
  have sm2 : SameMapped m m2 := h12.sameMapped (hm1.sub (by omega) (by omega)) (hm2.sub (by omega) (by omega))
  dsimp only
  have e3 : (g.base + (last1.base - (first1.base + 1))) * (w : Int) = g.base * w + (last1.base * w - (first1.base * w + w)) := by ring
  generalize hit2 : g.base + (last1.base - (first1.base + 1)) = it2 at e3
  have e4 : (it2 + 1) * (w : Int) = it2 * w + w := by ring
  by_cases hlp : last1.pos ≠ 0
  · rw [if_pos hlp]
    by_cases hpart : last1.pos ≤ w - g.pos
    · rw [if_pos hpart, wp_bind]
      refine wp_bitexch5 S (by omega) (by omega) (by omega) ((sm2.mapped hm1).sub (by omega) (by omega))
        ((sm2.mapped hm2).sub (by omega) (by omega)) (by omega) ?_
      intro m3 h3
      rw [wp_bind, wp_mk?]
      refine ⟨hgv', ?_⟩
      rw [wp_pure]
      have hret : BitIter.add ⟨it2, g.pos⟩ (last1.pos : Int) = first2.add (last1.addr - first1.addr) := by
        refine BitIter.addr_inj (BitIter.add_valid hw _ _) (BitIter.add_valid hw _ _) ?_
        rw [BitIter.add_addr hw, BitIter.add_addr hw]
        show it2 * (w : Int) + (g.pos : Nat) + _ = _
        omega
      rw [hret]
      apply hQ
      exact (h12.comp (by omega) (by omega) (h3.congr (by omega) (by omega) rfl)).congr rfl rfl (by omega)
    · rw [if_neg hpart, wp_bind]
      refine wp_bitexch5 S (by omega) (by omega) (by omega) ((sm2.mapped hm1).sub (by omega) (by omega))
        ((sm2.mapped hm2).sub (by omega) (by omega)) (by omega) ?_
      intro m3 h3
      have h123 : SwapSeq m m3 first1.addr first2.addr
          ((w - first1.pos : Nat) + (last1.base * w - (first1.base * w + w)) + (w - g.pos : Nat)) :=
        h12.comp (by omega) (by omega) (h3.congr (by omega) (by omega) rfl)
      have sm3 : SameMapped m m3 := h123.sameMapped (hm1.sub (by omega) (by omega)) (hm2.sub (by omega) (by omega))
      rw [wp_bind]
      refine wp_bitexch5 S (by omega) (by omega) (by omega) ((sm3.mapped hm1).sub (by omega) (by omega))
        ((sm3.mapped hm2).sub (by omega) (by omega)) (by omega) ?_
      intro m4 h4
      rw [wp_mk?]
      refine ⟨by omega, ?_⟩
      have hret : (⟨it2 + 1, last1.pos - (w - g.pos)⟩ : BitIter w) = first2.add (last1.addr - first1.addr) := by
        refine BitIter.addr_inj (a := ⟨it2 + 1, last1.pos - (w - g.pos)⟩)
          (show last1.pos - (w - g.pos) < w by omega) (BitIter.add_valid hw _ _) ?_
        rw [BitIter.add_addr hw]
        show (it2 + 1) * (w : Int) + ((last1.pos - (w - g.pos) : Nat) : Int) = _
        omega
      rw [hret]
      apply hQ
      exact (h123.comp (by omega) (by omega) (h4.congr (by omega) (by omega) rfl)).congr rfl rfl (by omega)
  · rw [if_neg hlp, wp_mk?]
    refine ⟨hgv', ?_⟩
    have hret : (⟨it2, g.pos⟩ : BitIter w) = first2.add (last1.addr - first1.addr) := by
      refine BitIter.addr_inj (a := ⟨it2, g.pos⟩) hgv' (BitIter.add_valid hw _ _) ?_
      rw [BitIter.add_addr hw]
      show it2 * (w : Int) + (g.pos : Nat) = _
      omega
    rw [hret]
    apply hQ
    exact h12.congr rfl rfl (by omega)

theorem wp_swapRanges (S : ShiftSem w) {first1 last1 first2 : BitIter w} {m : Mem w} {Q : BitIter w → Mem w → Prop}
    (hf : first1.Valid) (hl : last1.Valid) (h2 : first2.Valid) (hle : first1.addr ≤ last1.addr)
    (hm1 : Mapped m first1.addr last1.addr) (hm2 : Mapped m first2.addr (first2.addr + (last1.addr - first1.addr)))
    (hd : first1.addr + w ≤ first2.addr ∨ first2.addr + w ≤ first1.addr ∨
      last1.addr ≤ first2.addr ∨ first2.addr + (last1.addr - first1.addr) ≤ first1.addr)
    (hQ : ∀ m', SwapSeq m m' first1.addr first2.addr (last1.addr - first1.addr) →
      Q (first2.add (last1.addr - first1.addr)) m') :
    wp (swapRanges S first1 last1 first2) m Q := by
  have hf' : first1.pos < w := hf
  have hl' : last1.pos < w := hl
  have hw : 0 < w := by omega
  have hfa : first1.addr = first1.base * w + first1.pos := rfl
  have hla : last1.addr = last1.base * w + last1.pos := rfl
  have hbb := base_le_of_addr hl hle
  unfold swapRanges
  rw [wp_bind, wp_assertViable]
  refine ⟨hle, ?_⟩
  by_cases hbeq : first1.beq last1
  · rw [if_pos hbeq, wp_pure]
    rw [BitIter.beq_iff hf hl] at hbeq
    have hz : last1.addr - first1.addr = 0 := by omega
    have hself : first2.add (last1.addr - first1.addr) = first2 := by
      refine BitIter.addr_inj (BitIter.add_valid hw _ _) h2 ?_
      rw [BitIter.add_addr hw]; omega
    have := hQ m (SwapSeq.zero.congr rfl rfl (by omega))
    rwa [hself] at this
  · rw [if_neg hbeq]
    rw [BitIter.beq_iff hf hl] at hbeq
    by_cases hsame : first1.base + (if last1.pos = 0 then 1 else 0) = last1.base
    · rw [if_pos hsame]
      have hlast : last1.addr ≤ first1.base * w + w := by
        by_cases h0 : last1.pos = 0
        · rw [if_pos h0] at hsame
          rw [hla, ← hsame, Int.add_mul]; omega
        · rw [if_neg h0, Int.add_zero] at hsame
          rw [hla, ← hsame]; omega
      exact wp_swapSingle S hf h2 (by omega) hlast hm1 hm2 hd hQ
    · rw [if_neg hsame]
      have hlt : first1.base < last1.base := by
        by_contra hc
        have hbe : first1.base = last1.base := by omega
        by_cases hlp : last1.pos = 0
        · rw [hbe] at hfa; omega
        · rw [if_neg hlp] at hsame; omega
      by_cases hpos : first1.pos = first2.pos
      · rw [if_pos hpos]
        exact wp_swapAligned S hf hl h2 hpos hlt hm1 hm2 hd hQ
      · rw [if_neg hpos]
        exact wp_swapMisaligned S hf hl h2 hpos hlt hm1 hm2 hd hQ

end BitLib
