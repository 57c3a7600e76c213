import Verif.Lemmas.Bitswap
import Verif.Lemmas.Swap
import Verif.Lemmas.ShiftRight
/- Proofs for `reverse`. -/
namespace BitLib
variable {w : Nat}

theorem Reversed.sameMapped {m m' : Mem w} {a b : Int} (h : Reversed m m' a b) (hm : Mapped m a b) : SameMapped m m' := by
  intro i
  rw [h i]
  split_ifs with h1
  · rw [hm i (by omega) (by omega), hm _ (by omega) (by omega)]
  · rfl

theorem wp_stdReverseN : ∀ (n : Nat) {a b : Int} {m : Mem w} {Q : Unit → Mem w → Prop},
    b = a + n → (∀ j, a ≤ j → j < b → ∃ x, m j = some x) →
    (∀ m' : Mem w, (∀ j, m' j = if a ≤ j ∧ j < b then m (a + b - 1 - j) else m j) → Q () m') →
    wp (stdReverseN n a b) m Q := by
  intro n
  induction n using Nat.strongRecOn with
  | _ n ih =>
    intro a b m Q hab hm hQ
    match n with
    | 0 =>
      unfold stdReverseN
      rw [wp_pure]
      apply hQ
      intro j
      rw [if_neg (by omega)]
    | 1 =>
      unfold stdReverseN
      rw [wp_pure]
      apply hQ
      intro j
      split_ifs with h
      · congr 1; omega
      · rfl
    | n+2 =>
      unfold stdReverseN
      obtain ⟨x, hx⟩ := hm a (by omega) (by omega)
      obtain ⟨y, hy⟩ := hm (b - 1) (by omega) (by omega)
      rw [wp_bind, wp_load]
      refine ⟨x, hx, ?_⟩
      rw [wp_bind, wp_load]
      refine ⟨y, hy, ?_⟩
      rw [wp_bind, wp_store]
      refine ⟨⟨x, hx⟩, ?_⟩
      have e1 : ∀ j, (m.set a y) j = if j = a then some y else m j := fun j => rfl
      rw [wp_bind, wp_store]
      refine ⟨⟨y, by rw [e1, if_neg (by omega), hy]⟩, ?_⟩
      have e2 : ∀ j, ((m.set a y).set (b - 1) x) j = if j = b - 1 then some x else if j = a then some y else m j := fun j => rfl
      generalize (m.set a y).set (b - 1) x = m1 at e2
      refine ih n (by omega) (by push_cast at hab; omega) ?_ ?_
      · intro j h1 h2
        rw [e2, if_neg (by omega), if_neg (by omega)]
        exact hm j (by omega) (by omega)
      · intro m' hm'
        apply hQ
        intro j
        rw [hm' j]
        split_ifs with c1 c2 c2
        · rw [e2, if_neg (by omega), if_neg (by omega)]; congr 1; omega
        · exfalso; omega
        · rw [e2]
          split_ifs with c3 c4
          · rw [← hx]; congr 1; omega
          · rw [← hy]; congr 1; omega
          · exfalso; push_cast at hab; omega
        · rw [e2, if_neg (by omega), if_neg (by omega)]

theorem wp_stdTransformN_inPlace (f : BitVec w → BitVec w) : ∀ (n : Nat) {a : Int} {m : Mem w} {Q : Int → Mem w → Prop},
    (∀ j, a ≤ j → j < a + n → ∃ x, m j = some x) →
    (∀ m' : Mem w, (∀ j, m' j = if a ≤ j ∧ j < a + n then (m j).map f else m j) → Q (a + n) m') →
    wp (stdTransformN f n a a) m Q := by
  intro n
  induction n with
  | zero =>
    intro a m Q hm hQ
    unfold stdTransformN
    rw [wp_pure]
    have := hQ m (by intro j; rw [if_neg (by omega)])
    simpa using this
  | succ n ih =>
    intro a m Q hm hQ
    unfold stdTransformN
    obtain ⟨x, hx⟩ := hm a (by omega) (by omega)
    rw [wp_bind, wp_load]
    refine ⟨x, hx, ?_⟩
    rw [wp_bind, wp_store]
    refine ⟨⟨x, hx⟩, ?_⟩
    have e1 : ∀ j, (m.set a (f x)) j = if j = a then some (f x) else m j := fun j => rfl
    generalize m.set a (f x) = m1 at e1
    refine ih ?_ ?_
    · intro j h1 h2
      rw [e1, if_neg (by omega)]
      exact hm j (by omega) (by push_cast; omega)
    · intro m' hm'
      have := hQ m' ?_
      · rwa [show a + ((n + 1 : Nat) : Int) = a + 1 + n by push_cast; omega] at this
      intro j
      rw [hm' j]
      push_cast
      split_ifs with c1 c2 c2
      · rw [e1, if_neg (by omega)]
      · exfalso; omega
      · have : j = a := by omega
        subst this
        rw [e1, if_pos rfl, hx]; rfl
      · rw [e1, if_neg (by omega)]

/-- Reversing the words and then the bits of every word reverses the bits of whole words. -/
theorem wp_reverseWords (hw : 0 < w) {A B : Int} {m : Mem w} {α : Type} {k : M w α} {Q : α → Mem w → Prop}
    (hAB : A ≤ B) (hm : Mapped m (A * w) (B * w))
    (hQ : ∀ m', Reversed m m' (A * w) (B * w) → wp k m' Q) :
    wp (do
      stdReverse A B
      let _ ← stdTransform A B A bitswap
      k) m Q := by
  have hmw : ∀ j, A ≤ j → j < B → ∃ x, m j = some x := by
    intro j h1 h2
    have := base_le_mul (w := w) h1
    have := base_lt_mul (w := w) h2
    exact mapped_word hw (i := j * w) (by omega) (by omega) (hm _ (by omega) (by omega))
  have hd : B = A + ((B - A).toNat : Int) := by omega
  have hn : ∀ (m : Mem w) (Q : Nat → Mem w → Prop), wp (wordDist A B) m Q ↔ Q (B - A).toNat m := by
    intro m Q
    unfold wordDist
    rw [if_pos hAB, wp_pure]
  unfold stdReverse stdTransform
  rw [wp_bind, wp_bind, hn]
  refine wp_stdReverseN _ hd hmw ?_
  intro m1 h1
  rw [wp_bind, wp_bind, hn]
  refine wp_stdTransformN_inPlace bitswap _ ?_ ?_
  · intro j h2 h3
    rw [h1, if_pos (by omega)]
    exact hmw _ (by omega) (by omega)
  · intro m2 h2
    apply hQ
    intro i
    obtain ⟨b, p, hp, rfl⟩ := word_decomp hw i
    rw [bitAt_word _ _ _ hp, h2 b]
    by_cases hb : A ≤ b ∧ b < B
    · have := base_le_mul (w := w) hb.1
      have := base_lt_mul (w := w) hb.2
      rw [if_pos (by omega), if_pos (by omega), h1, if_pos hb]
      have e : A * (w : Int) + B * w - 1 - (b * w + p) = (A + B - 1 - b) * w + ((w - 1 - p : Nat) : Int) := by
        rw [show ((w - 1 - p : Nat) : Int) = (w : Int) - 1 - p by omega]
        ring
      rw [e, bitAt_word _ _ _ (by omega), Option.map_map]
      congr 1
      funext x
      exact bitswap_spec x p hp
    · rw [if_neg (by omega), h1, if_neg hb]
      rw [if_neg, bitAt_word _ _ _ hp]
      rintro ⟨h3, h4⟩
      apply hb
      constructor
      · by_contra hc
        have := base_lt_mul (w := w) (a := b) (b := A) (by omega)
        omega
      · by_contra hc
        have := base_le_mul (w := w) (a := B) (b := b) (by omega)
        omega

theorem isSome_same_word (hw : 0 < w) {m : Mem w} {c i j : Int} (h1 : c * w ≤ i) (h2 : i < c * w + w)
    (h3 : c * w ≤ j) (h4 : j < c * w + w) (h : (bitAt m i).isSome) : (bitAt m j).isSome := by
  obtain ⟨x, hx⟩ := mapped_word hw h1 h2 h
  rw [show j = c * w + ((j - c * w).toNat : Int) by omega, bitAt_word _ _ _ (by omega), hx]
  rfl

/-- `wp_blendAt` without the requirement that the length be positive. -/
theorem wp_blendAt' (S : ShiftSem w) {a : Int} {src : BitVec w} {start len : Nat} {m : Mem w}
    {Q : Unit → Mem w → Prop} (hst : start < w) (hs : start + len ≤ w) (hl : len < w ∨ S.FullShiftOk)
    (hm : (bitAt m (a * (w : Int) + start)).isSome)
    (hQ : ∀ m', Wrote m m' (a * (w : Int) + start) (a * (w : Int) + start + len)
      (fun i => some (src.getLsbD (i - a * (w : Int)).toNat)) → Q () m') :
    wp (blendAt S a src start len) m Q := by
  have hw : 0 < w := by omega
  unfold blendAt
  rw [wp_bind]
  refine wp_load_bits hw _ (by omega) (by omega) hm ?_
  intro x hx
  rw [wp_bind]
  have hl' : len < S.pw ∨ S.Lenient := by
    rcases hl with h | h | h
    · exact lt_pw S h
    · exact Or.inl (by omega)
    · exact Or.inr h
  refine wp_bitblend4 S hst hl' ?_
  intro r hr
  refine wp_store_bits hw _ (by omega) (by omega) hm ?_
  intro m' hm'
  apply hQ
  intro i
  rw [hm' i]
  beta_reduce
  by_cases hi : a * (w : Int) ≤ i ∧ i < a * (w : Int) + w
  · rw [if_pos hi, hr _ (by omega)]
    split
    · rw [if_pos (by omega)]
    · rw [if_neg (by omega)]
      have := hx (i - a * (w : Int)).toNat (by omega)
      rw [← this]
      congr 1
      omega
  · rw [if_neg hi, if_neg (by omega)]

/-- `reverse.hpp` restores the bits of the first word in front of the range. -/
theorem wp_revFirst (S : ShiftSem w) {a : Int} {p : Nat} {v : BitVec w} {m : Mem w} {Q : Unit → Mem w → Prop}
    (hp : p < w) (hm : (bitAt m (a * w)).isSome)
    (hQ : ∀ m', Wrote m m' (a * w) (a * w + p) (fun i => some (v.getLsbD (i - a * w).toNat)) → Q () m') :
    wp (reverseFirst S a p v) m Q := by
  unfold reverseFirst
  have hw : 0 < w := by omega
  by_cases h0 : p ≠ 0
  · rw [if_pos h0, wp_bind]
    refine wp_load_bits hw _ (by omega) (by omega) hm ?_
    intro x hx
    rw [wp_bind]
    refine wp_bitblend4 S hp (lt_pw S (by omega)) ?_
    intro r hr
    refine wp_store_bits hw _ (by omega) (by omega) hm ?_
    intro m' hm'
    apply hQ
    intro i
    rw [hm' i]
    beta_reduce
    by_cases hi : a * (w : Int) ≤ i ∧ i < a * (w : Int) + w
    · rw [if_pos hi, hr _ (by omega)]
      split
      · rw [if_neg (by omega), ← hx _ (by omega)]; congr 1; omega
      · rw [if_pos (by omega)]
    · rw [if_neg hi, if_neg (by omega)]
  · rw [if_neg h0, wp_pure]
    apply hQ
    intro i
    rw [if_neg (by omega)]

/-- `reverse.hpp` restores the bits of the last word behind the range. -/
theorem wp_revLast (S : ShiftSem w) {a : Int} {p : Nat} {v : BitVec w} {m : Mem w} {Q : Unit → Mem w → Prop}
    (hp : p < w) (hm : p ≠ 0 → (bitAt m (a * w)).isSome)
    (hQ : ∀ m', (p ≠ 0 → Wrote m m' (a * w + p) (a * w + w) (fun i => some (v.getLsbD (i - a * w).toNat))) →
      (p = 0 → m' = m) → Q () m') :
    wp (reverseLast S a p v) m Q := by
  unfold reverseLast
  have hw : 0 < w := by omega
  by_cases h0 : p ≠ 0
  · rw [if_pos h0, wp_bind]
    refine wp_load_bits hw _ (by omega) (by omega) (hm h0) ?_
    intro x hx
    rw [wp_bind]
    refine wp_bitblend4 S hp (lt_pw S (by omega)) ?_
    intro r hr
    refine wp_store_bits hw _ (by omega) (by omega) (hm h0) ?_
    intro m' hm'
    refine hQ _ (fun _ => ?_) (fun h => absurd h h0)
    intro i
    rw [hm' i]
    beta_reduce
    by_cases hi : a * (w : Int) ≤ i ∧ i < a * (w : Int) + w
    · rw [if_pos hi, hr _ (by omega)]
      split
      · rw [if_pos (by omega)]
      · rw [if_neg (by omega), ← hx _ (by omega)]; congr 1; omega
    · rw [if_neg hi, if_neg (by omega)]
  · rw [if_neg h0, wp_pure]
    exact hQ m (fun h => absurd h h0) (fun _ => rfl)

/-- The shift in the middle of `reverse.hpp` moves the wanted bits to their place. -/
theorem wp_revShift (S : ShiftSem w) {A L W : Int} {fp gap : Nat} {m : Mem w} {Q : Unit → Mem w → Prop}
    (hfp : fp < w) (hgap : gap < w) (hAW : A < W) (hW : 0 < gap → W = L + 1)
    (hfull : A + 1 < W ∨ S.FullShiftOk)
    (hm : Mapped m (A * w) (W * w))
    (hQ : ∀ m', SameMapped m m' → (∀ i, i < A * w ∨ W * w ≤ i → bitAt m' i = bitAt m i) →
      (∀ i, A * w + fp ≤ i → i < W * w - gap → bitAt m' i = bitAt m (i + gap - fp)) → Q () m') :
    wp (reverseShift S A L W fp gap) m Q := by
  unfold reverseShift
  have hw : 0 < w := by omega
  have ha : ∀ c : Int, (BitIter.aligned c : BitIter w).addr = c * w := by intro c; simp [BitIter.aligned, BitIter.addr]
  have hv : ∀ c : Int, (BitIter.aligned c : BitIter w).Valid := fun c => hw
  have hlt := base_lt_mul (w := w) hAW
  split_ifs with h1 h2
  · have hWL := hW (by omega)
    rw [← hWL, wp_bind]
    refine wp_shiftLeft S (hv _) (hv _) (by rw [ha, ha]; omega) (by rw [ha, ha]; exact hm) ?_ ?_ ?_ ?_
    · rcases hfull with h | h
      · left
        rw [ha, ha]
        rintro ⟨_, h3, _⟩
        have h4 := base_lt_mul (w := w) h
        rw [Int.add_mul] at h4
        omega
      · exact Or.inr h
    · intro h; omega
    · intro _ h; rw [ha, ha] at h; omega
    · intro _ _ m' r _ _ ⟨h3, h4, h5⟩
      rw [ha, ha] at h3 h4
      rw [wp_pure]
      refine hQ m' h5 h4 ?_
      intro i h6 h7
      rw [h3 i (by omega) (by omega)]
      congr 1; omega
  · rw [wp_bind]
    refine wp_shiftRight S (hv _) (hv _) (by rw [ha, ha]; omega) (by rw [ha, ha]; exact hm) ?_ ?_ ?_ ?_
    · rcases hfull with h | h
      · left
        rw [ha, ha]
        rintro ⟨_, h3, _⟩
        have h4 := base_lt_mul (w := w) h
        rw [Int.add_mul] at h4
        omega
      · exact Or.inr h
    · intro h; omega
    · intro _ h; rw [ha, ha] at h; omega
    · intro _ _ m' ⟨h3, h4, h5⟩
      rw [ha, ha] at h3 h4
      rw [wp_pure]
      refine hQ m' h5 h4 ?_
      intro i h6 h7
      rw [h3 i (by omega) (by omega)]
      congr 1; omega
  · rw [wp_pure]
    refine hQ m (fun _ => rfl) (fun _ _ => rfl) ?_
    intro i h6 h7
    congr 1; omega

theorem wp_reverse (S : ShiftSem w) {first last : BitIter w} {m : Mem w} {Q : Unit → Mem w → Prop}
    (hf : first.Valid) (hl : last.Valid) (hle : first.addr ≤ last.addr) (hm : Mapped m first.addr last.addr)
    (hne : first.addr < last.addr ∨ first.pos = 0 ∨ (bitAt m first.addr).isSome)
    (hfull : ¬ (first.pos ≠ 0 ∧ last.addr = (first.base + 1) * w) ∨ S.FullShiftOk)
    (hQ : ∀ m', Reversed m m' first.addr last.addr → Q () m') :
    wp (reverse S first last) m Q := by
  have hf' : first.pos < w := hf
  have hl' : last.pos < w := hl
  have hw : 0 < w := by omega
  have hfa : first.addr = first.base * w + first.pos := rfl
  have hla : last.addr = last.base * w + last.pos := rfl
  have hbb := base_le_of_addr hl hle
  unfold reverse
  rw [wp_bind, wp_assertViable]
  refine ⟨hle, ?_⟩
  dsimp only
  by_cases h0 : first.pos = 0 ∧ last.pos = 0
  · rw [if_pos h0]
    refine wp_reverseWords hw hbb (hm.sub (by omega) (by omega)) ?_
    intro m' hr
    rw [wp_pure]
    apply hQ
    rwa [show first.addr = first.base * w by omega, show last.addr = last.base * w by omega]
  · rw [if_neg h0]
    by_cases hb : first.base ≠ last.base
    · rw [if_pos hb]
      generalize hwend : last.base + (if last.pos = 0 then 0 else 1) = W
      generalize hgap : (if last.pos = 0 then 0 else w - last.pos) = gap
      generalize hlw : last.base - (if last.pos = 0 then 1 else 0) = lw
      have hlt0 := base_lt_mul (w := w) (a := first.base) (b := last.base) (by omega)
      have hWl : last.addr = W * w - gap := by
        split_ifs at hwend hgap with h
        · rw [← hwend, Int.add_zero]; omega
        · rw [← hwend, Int.add_mul]; omega
      have hgw : gap < w := by split_ifs at hgap <;> omega
      have hAW : first.base < W := by split_ifs at hwend <;> omega
      have hgW : 0 < gap → W = last.base + 1 := by intro h; split_ifs at hwend hgap <;> omega
      have hlw1 : lw = W - 1 := by split_ifs at hwend hlw <;> omega
      have hlwm : lw * (w : Int) = W * w - w := by rw [hlw1]; ring
      have hAWm := base_lt_mul (w := w) hAW
      have hmw : Mapped m (first.base * w) (W * w) := by
        intro i h1 h2
        have hs : Mapped m (first.base * w) last.addr := hm.word_start hf (by omega)
        by_cases hi : i < last.addr
        · exact hs i h1 hi
        · exact isSome_same_word hw (c := lw) (i := last.addr - 1) (by omega) (by omega) (by omega) (by omega)
            (hs _ (by omega) (by omega))
      rw [wp_bind]
      refine wp_load_bits hw (first.base * w) (by omega) (by omega) (hmw _ (by omega) (by omega)) ?_
      intro fv hfv
      rw [wp_bind]
      refine wp_load_bits hw (lw * w) (by omega) (by omega) (hmw _ (by omega) (by omega)) ?_
      intro lv hlv
      refine wp_reverseWords hw (by omega) hmw ?_
      intro m1 h1
      have sm1 := h1.sameMapped hmw
      rw [wp_bind]
      refine wp_revShift S hf' hgw hAW hgW ?_ (sm1.mapped hmw) ?_
      · rcases hfull with h | h
        · left
          by_contra hc
          have hW1 : W = first.base + 1 := by omega
          apply h
          have hl0 : last.pos = 0 := by
            by_contra hl0
            rw [if_neg hl0] at hwend
            omega
          rw [if_pos hl0, Int.add_zero] at hwend
          rw [if_pos hl0] at hgap
          refine ⟨fun hf0 => h0 ⟨hf0, hl0⟩, ?_⟩
          rw [hWl, hW1, ← hgap]
          simp
        · exact Or.inr h
      intro m2 sm2 h2a h2b
      have hm2 := sm2.mapped (sm1.mapped hmw)
      rw [wp_bind]
      refine wp_revFirst S hf' (hm2 _ (by omega) (by omega)) ?_
      intro m3 h3
      refine wp_revLast S hl' ?_ ?_
      · intro hlp
        rw [h3]
        rw [if_neg hlp] at hwend
        have : last.base * (w : Int) = W * w - w := by rw [← hwend]; ring
        rw [if_neg (by omega)]
        exact hm2 _ (by omega) (by omega)
      intro m4 h4a h4b
      apply hQ
      have h4 : ∀ i, bitAt m4 i = if last.addr ≤ i ∧ i < W * w then some (lv.getLsbD (i - lw * w).toNat) else bitAt m3 i := by
        intro i
        by_cases hlp : last.pos = 0
        · rw [h4b hlp, if_neg]
          rw [if_pos hlp] at hgap
          omega
        · rw [h4a hlp i]
          rw [if_neg hlp, Int.sub_zero] at hlw
          beta_reduce
          rw [hlw]
          rw [hlw] at hla
          split_ifs <;> first | rfl | (exfalso; omega)
      intro i
      rw [h4 i, h3 i]
      beta_reduce
      by_cases c1 : i < first.base * w ∨ W * w ≤ i
      · rw [if_neg (by omega), if_neg (by omega), if_neg (by omega), h2a i c1, h1 i, if_neg (by omega)]
      · by_cases c2 : last.addr ≤ i
        · rw [if_pos (by omega), if_neg (by omega), ← hlv _ (by omega)]
          congr 1; omega
        · rw [if_neg (by omega)]
          by_cases c3 : i < first.addr
          · rw [if_pos (by omega), if_neg (by omega), ← hfv _ (by omega)]
            congr 1; omega
          · rw [if_neg (by omega), if_pos (by omega), h2b i (by omega) (by omega), h1, if_pos (by omega)]
            congr 1; omega
    · rw [if_neg hb]
      have hbe : first.base = last.base := by omega
      rw [← hbe] at hla
      have hlp : last.pos ≠ 0 := by
        intro h
        apply h0
        exact ⟨by omega, h⟩
      rw [if_neg hlp, subSize_le (by omega)]
      have hsome : (bitAt m (first.base * w + first.pos)).isSome := by
        rcases hne with h | h | h
        · exact hm _ (by omega) (by omega)
        · exact hm _ (by omega) (by omega)
        · exact h
      rw [wp_bind]
      refine wp_load_bits hw (first.base * w + first.pos) (by omega) (by omega) hsome ?_
      intro x hx
      rw [wp_bind, wp_shr S hf', wp_bind, wp_shr S (by omega)]
      refine wp_blendAt' S hf' (by omega) (Or.inl (by omega)) hsome ?_
      intro m' hm'
      apply hQ
      intro i
      rw [hm' i]
      beta_reduce
      split_ifs with c1 c2 c2
      · rw [BitVec.getLsbD_ushiftRight, bitswap_spec _ _ (by omega), BitVec.getLsbD_ushiftRight, ← hx _ (by omega)]
        congr 1; omega
      · exfalso; omega
      · exfalso; omega
      · rfl

end BitLib
