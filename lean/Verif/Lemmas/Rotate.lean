import Verif.Lemmas.Swap
/- Proofs for `rotate`. -/
namespace BitLib
variable {w : Nat}

theorem Rotated.congr {m m' : Mem w} {a b c a' b' c' : Int} (h : Rotated m m' a b c)
    (ha : a = a') (hb : b = b') (hc : c = c') : Rotated m m' a' b' c' := by
  subst ha hb hc; exact h

theorem Rotated.sameMapped {m m' : Mem w} {a b c : Int} (h : Rotated m m' a b c) (hab : a ≤ b) (hbc : b ≤ c)
    (hm : Mapped m a c) : SameMapped m m' := by
  intro i
  rw [h i]
  split_ifs with h1 h2
  · rw [hm i (by omega) (by omega), hm _ (by omega) (by omega)]
  · rw [hm i (by omega) (by omega), hm _ (by omega) (by omega)]
  · rfl

theorem swapSeq_adjacent (f : Int → Option Bool) (a k : Int) (hk : 0 < k) (n : Nat) (i : Int) :
    swapSeq f a (a + k) n i = if a ≤ i ∧ i < a + n then f (i + k)
      else if a + n ≤ i ∧ i < a + n + k then f (a + (i - a) % k) else f i := by
  induction n generalizing i with
  | zero =>
    rw [if_neg (by omega)]
    show f i = _
    split_ifs with h
    · rw [Int.emod_eq_of_lt (by omega) (by omega)]; congr 1; omega
    · rfl
  | succ n ih =>
    show swapBit (swapSeq f a (a + k) n) (a + n) (a + k + n) i = _
    unfold swapBit
    by_cases h1 : i = a + n
    · subst h1
      rw [if_pos rfl, ih, if_neg (by omega), if_neg (by omega), if_pos (by omega)]
      congr 1; omega
    · rw [if_neg h1]
      by_cases h2 : i = a + k + n
      · subst h2
        rw [if_pos rfl, ih, if_neg (by omega), if_pos (by omega), if_neg (by omega), if_pos (by omega)]
        rw [show a + k + (n : Int) - a = (a + n - a) + k by omega, Int.add_emod_right]
      · rw [if_neg h2, ih]
        split_ifs <;> first | rfl | (exfalso; omega)

/-- Taking the first `k` bits, shifting left and writing them at the end. -/
theorem wp_rotL (S : ShiftSem w) {first last : BitIter w} {k : Nat} {m : Mem w} {Q : BitIter w → Mem w → Prop}
    (hf : first.Valid) (hl : last.Valid) (hm : Mapped m first.addr last.addr)
    (hk0 : 0 < k) (hkw : k ≤ w) (hkd : k < last.addr - first.addr)
    (hfull : ¬ (first.pos = 0 ∧ last.addr - first.addr = w))
    (hQ : ∀ m' (r : BitIter w), r.Valid → r.addr = last.addr - k →
      Rotated m m' first.addr (first.addr + k) last.addr → Q r m') :
    wp (do
      let x ← getWord S first k
      let newLast ← shiftLeft S first last k
      writeWord S x newLast k
      pure newLast) m Q := by
  rw [wp_bind]
  refine wp_getWord S hf hkw hk0 (hm.sub (by omega) (by omega)) ?_
  intro x hx
  rw [wp_bind]
  refine wp_shiftLeft S hf hl (by omega) hm (Or.inl (by omega)) (by omega) (by omega) ?_
  intro _ _ m1 r hr hra ⟨h1, h2, h3⟩
  rw [wp_bind]
  refine wp_writeWord S hr hkw hk0 ?_ ?_
  · rw [hra]; exact (h3.mapped hm).sub (by omega) (by omega)
  intro m2 hm2
  rw [wp_pure]
  refine hQ m2 r hr hra ?_
  rw [hra] at hm2
  intro i
  rw [hm2 i]
  beta_reduce
  split_ifs with c1 c2 c3 c3 c4
  · exfalso; omega
  · rw [← hx _ (by omega)]; congr 1; omega
  · exfalso; omega
  · rw [h1 i (by omega) (by omega)]; congr 1; omega
  · exfalso; omega
  · exact h2 i (by omega)

/-- Taking the last `k` bits, shifting right and writing them at the beginning. -/
theorem wp_rotR (S : ShiftSem w) {first last from_ : BitIter w} {k : Nat} {m : Mem w} {Q : BitIter w → Mem w → Prop}
    (hf : first.Valid) (hl : last.Valid) (hv : from_.Valid) (hm : Mapped m first.addr last.addr)
    (hfr : from_.addr = last.addr - k)
    (hk0 : 0 < k) (hkw : k ≤ w) (hkd : k < last.addr - first.addr)
    (hfull : ¬ (first.pos = 0 ∧ last.addr - first.addr = w))
    (hQ : ∀ m', Rotated m m' first.addr (last.addr - k) last.addr → Q (first.add k) m') :
    wp (do
      let x ← getWord S from_ k
      let newLast ← shiftRight S first last k
      writeWord S x first k
      pure newLast) m Q := by
  rw [wp_bind]
  refine wp_getWord S hv hkw hk0 (hm.sub (by omega) (by omega)) ?_
  intro x hx
  rw [wp_bind]
  refine wp_shiftRight S hf hl (by omega) hm (Or.inl (by omega)) (by omega) (by omega) ?_
  intro _ _ m1 ⟨h1, h2, h3⟩
  rw [wp_bind]
  refine wp_writeWord S hf hkw hk0 ((h3.mapped hm).sub (by omega) (by omega)) ?_
  intro m2 hm2
  rw [wp_pure]
  refine hQ m2 ?_
  intro i
  rw [hm2 i]
  beta_reduce
  split_ifs with c1 c2 c3 c3 c4
  · rw [← hx _ (by omega)]; congr 1; omega
  · exfalso; omega
  · exfalso; omega
  · exfalso; omega
  · rw [h1 i (by omega) (by omega)]; congr 1; omega
  · exact h2 i (by omega)

theorem wp_rotFwdSwaps (S : ShiftSem w) {k : Int} (hk : 0 < k) :
    ∀ (s : Nat) {p q : BitIter w} {m : Mem w} {Q : BitIter w × BitIter w → Mem w → Prop},
    p.Valid → q.Valid → q.addr = p.addr + k → Mapped m p.addr (p.addr + s * k + k) →
    (∀ m' (p' q' : BitIter w), p'.Valid → q'.Valid → p'.addr = p.addr + s * k → q'.addr = q.addr + s * k →
      SwapSeq m m' p.addr (p.addr + k) (s * k) → Q (p', q') m') →
    wp (rotFwdSwaps S k s p q) m Q := by
  intro s
  induction s with
  | zero =>
    intro p q m Q hp hq hpq hm hQ
    unfold rotFwdSwaps
    rw [wp_pure]
    exact hQ m p q hp hq (by simp) (by simp) (by simpa using SwapSeq.zero)
  | succ s ih =>
    intro p q m Q hp hq hpq hm hQ
    have hw : 0 < w := Nat.lt_of_le_of_lt (Nat.zero_le _) hp
    have es : ((s + 1 : Nat) : Int) * k = k + s * k := by push_cast; ring
    have hs0 : 0 ≤ (s : Int) * k := Int.mul_nonneg (by omega) (by omega)
    rw [es] at hm hQ
    unfold rotFwdSwaps
    rw [wp_bind]
    refine wp_swapRanges S hp hq hq (by omega) (hm.sub (by omega) (by omega)) (hm.sub (by omega) (by omega)) (by omega) ?_
    intro m1 h1
    have e1 := BitIter.add_addr hw p k
    have e2 := BitIter.add_addr hw q k
    have h1' : SwapSeq m m1 p.addr (p.addr + k) k := h1.congr rfl (by omega) (by omega)
    have sm := h1'.sameMapped (hm.sub (by omega) (by omega)) (hm.sub (by omega) (by omega))
    refine ih (BitIter.add_valid hw _ _) (BitIter.add_valid hw _ _) (by omega) ?_ ?_
    · rw [e1]; exact (sm.mapped hm).sub (by omega) (by omega)
    · intro m2 p' q' hp' hq' hpa hqa h2
      refine hQ m2 p' q' hp' hq' (by omega) (by omega) ?_
      rw [e1] at h2
      exact h1'.comp (by omega) (by omega) h2

theorem wp_rotBwdSwaps (S : ShiftSem w) {k : Int} (hk : 0 < k) :
    ∀ (s : Nat) {p q : BitIter w} {m : Mem w} {e : Int} {m0 : Mem w} {Q : BitIter w × BitIter w → Mem w → Prop},
    p.Valid → q.Valid → q.addr = p.addr + k → q.addr ≤ e → Mapped m (p.addr - s * k) e →
    Rotated m0 m p.addr (e - k) e →
    (∀ m' (p' q' : BitIter w), p'.Valid → q'.Valid → p'.addr = p.addr - s * k → q'.addr = q.addr - s * k →
      Rotated m0 m' p'.addr (e - k) e → SameMapped m m' → Q (p', q') m') →
    wp (rotBwdSwaps S k s p q) m Q := by
  intro s
  induction s with
  | zero =>
    intro p q m e m0 Q hp hq hpq hqe hm hr hQ
    unfold rotBwdSwaps
    rw [wp_pure]
    exact hQ m p q hp hq (by simp) (by simp) hr (fun _ => rfl)
  | succ s ih =>
    intro p q m e m0 Q hp hq hpq hqe hm hr hQ
    have hw : 0 < w := Nat.lt_of_le_of_lt (Nat.zero_le _) hp
    have es : ((s + 1 : Nat) : Int) * k = k + s * k := by push_cast; ring
    have hs0 : 0 ≤ (s : Int) * k := Int.mul_nonneg (by omega) (by omega)
    rw [es] at hm hQ
    unfold rotBwdSwaps
    dsimp only
    have e1 := BitIter.sub_addr hw p k
    have e2 := BitIter.sub_addr hw q k
    rw [wp_bind]
    refine wp_swapRanges S (BitIter.sub_valid hw _ _) (BitIter.sub_valid hw _ _) (BitIter.sub_valid hw _ _) (by omega)
      (hm.sub (by omega) (by omega)) (hm.sub (by omega) (by omega)) (by omega) ?_
    intro m1 h1
    have h1' : Swapped m m1 (p.addr - k) p.addr k :=
      (h1.congr (by omega) (by omega) (by omega)).swapped (by omega) (by omega)
    have sm : SameMapped m m1 := h1.sameMapped (hm.sub (by omega) (by omega)) (hm.sub (by omega) (by omega))
    refine ih (e := e) (m0 := m0) (BitIter.sub_valid hw _ _) (BitIter.sub_valid hw _ _) (by omega) (by omega) ?_ ?_ ?_
    · rw [e1]; exact (sm.mapped hm).sub (by omega) (by omega)
    · rw [e1]
      intro i
      rw [h1' i, hr i, hr (p.addr + (i - (p.addr - k))), hr (p.addr - k + (i - p.addr))]
      split_ifs <;> first | rfl | (exfalso; omega) | (congr 1; omega)
    · intro m2 p' q' hp' hq' hpa hqa h2 sm2
      refine hQ m2 p' q' hp' hq' (by omega) (by omega) h2 (fun i => by rw [sm2 i, sm i])

/-- The largest length for which the number of block swaps certainly fits in 32 bits. -/
def rotLimit (w : Nat) : Int := (2 ^ 32 + 1) * ((w : Int) + 1)

theorem RotFails.parts {l r : Int} (h : RotFails w l r) : (w : Int) < l ∧ (w : Int) < r := by
  cases h with
  | count h1 h2 => omega
  | left h1 h2 _ => omega
  | right h1 h2 _ => omega

theorem RotFails.len {l r : Int} (h : RotFails w l r) : rotLimit w ≤ l + r := by
  induction h with
  | count h1 h2 => unfold rotLimit; omega
  | left h1 h2 _ ih => omega
  | right h1 h2 _ ih => omega

/-- A convenient sufficient condition: the shorter part has fewer than `(2^32+1)*(w+1)` bits, and the left part fewer than `2^32` times the
bits of the right part (unless that has at most `w` bits). -/
theorem RotFits.of_parts {l r : Int} (h1 : min l r < (2 ^ 32 + 1) * ((w : Int) + 1))
    (h2 : (w : Int) < r → l < 2 ^ 32 * r) : RotFits w l r := by
  rintro (⟨h3, h4⟩ | ⟨h3, h4, h5⟩ | ⟨h3, h4, h5⟩)
  · have := h2 h3; omega
  · have := h5.len; unfold rotLimit at this; omega
  · have := h5.len; unfold rotLimit at this; omega

theorem RotFits.of_len {k r : Int} (h : k + r < (2 ^ 32 + 1) * ((w : Int) + 1)) : RotFits w k r := by
  intro hc
  have := hc.len
  unfold rotLimit at this
  omega

/-- One round of the loop when the left part is the shorter one: the right part arrives at its place, up to the last block. -/
theorem wp_rotLoop_fwd (S : ShiftSem w) {fuel : Nat} {p : BitIter w} {k n : Int} {m : Mem w} {Q : Unit → Mem w → Prop}
    (hp : p.Valid) (hkw : (w : Int) < k) (hlt : k < n - k) (hm : Mapped m p.addr (p.addr + n))
    (hQ : ∀ (m2 : Mem w) (p2 : BitIter w), p2.Valid → p2.addr = p.addr + (n - k) → SameMapped m m2 →
      (∀ i, bitAt m2 i = if p.addr ≤ i ∧ i < p.addr + (n - k) then bitAt m (i + k)
        else if p.addr + (n - k) ≤ i ∧ i < p.addr + n then bitAt m (p.addr + (i - p.addr) % k) else bitAt m i) →
      if n % k = 0 then Q () m2 else wp (rotLoop S fuel p2 (k - n % k) k) m2 Q) :
    wp (rotLoop S (fuel + 1) p k n) m Q := by
  have hw : 0 < w := Nat.lt_of_le_of_lt (Nat.zero_le _) hp
  have h0 : 0 < k := by omega
  unfold rotLoop
  rw [if_pos hlt, if_neg (by omega)]
  dsimp only
  have hpk := BitIter.add_addr hw p k
  generalize hfs : (Int.tdiv (n - k) k) % 2 ^ 32 = fs
  have hfs0 : 0 ≤ fs := by rw [← hfs]; exact Int.emod_nonneg _ (by decide)
  have hfsk : fs * k ≤ n - k := by
    have h1 : fs ≤ Int.tdiv (n - k) k := by
      rw [← hfs]
      have h0 : 0 ≤ Int.tdiv (n - k) k := Int.tdiv_nonneg (by omega) (by omega)
      omega
    have h2 : fs * k ≤ Int.tdiv (n - k) k * k := Int.mul_le_mul_of_nonneg_right h1 (by omega)
    have h3 := Int.tmod_add_tdiv_mul (n - k) k
    have h4 : 0 ≤ Int.tmod (n - k) k := Int.tmod_nonneg _ (by omega)
    omega
  have hfsk0 : 0 ≤ fs * k := Int.mul_nonneg hfs0 (by omega)
  have hfst : (fs.toNat : Int) = fs := by omega
  rw [wp_bind]
  refine wp_rotFwdSwaps S h0 fs.toNat hp (BitIter.add_valid hw _ _) hpk ?_ ?_
  · rw [hfst]; exact hm.sub (by omega) (by omega)
  intro m1 p1 q1 hp1 hq1 hpa hqa h1
  rw [hfst] at hpa hqa h1
  have sm1 := h1.sameMapped (hm.sub (by omega) (by omega)) (hm.sub (by omega) (by omega))
  dsimp only
  generalize hrem : n - k - fs * k = rem
  have hp1r := BitIter.add_addr hw p1 rem
  rw [wp_bind]
  refine wp_swapRanges S hp1 (BitIter.add_valid hw _ _) hq1 (by omega)
    ((sm1.mapped hm).sub (by omega) (by omega)) ((sm1.mapped hm).sub (by omega) (by omega)) (by omega) ?_
  intro m2 h2
  have h12 : SwapSeq m m2 p.addr (p.addr + k) (n - k) :=
    (h1.comp (by omega) (by omega) (h2.congr (n' := rem) (by omega) (by omega) (by omega))).congr rfl rfl (by omega)
  have hbits := fun i => (h12 i).trans (swapSeq_adjacent (bitAt m) p.addr k h0 (n - k).toNat i)
  rw [show ((n - k).toNat : Int) = n - k by omega] at hbits
  have sm2 := h12.sameMapped (hm.sub (by omega) (by omega)) (hm.sub (by omega) (by omega))
  have := hQ m2 (p1.add rem) (BitIter.add_valid hw _ _) (by omega) sm2 (fun i => by
    rw [hbits i]; congr 1; rw [show p.addr + (n - k) + k = p.addr + n by omega])
  rw [show Int.tmod n k = n % k from Int.tmod_eq_emod_of_nonneg (by omega)]
  by_cases hz : n % k = 0
  · rw [if_pos hz] at this ⊢
    rwa [wp_pure]
  · rw [if_neg hz] at this ⊢
    exact this

/-- One round of the loop when the right part is not the longer one and the block count fits in 32 bits: the left part arrives at its place,
up to the first block. -/
theorem wp_rotLoop_bwd (S : ShiftSem w) {fuel : Nat} {p : BitIter w} {k k2 n : Int} {m : Mem w} {Q : Unit → Mem w → Prop}
    (hp : p.Valid) (hk2 : n - k = k2) (hkw : (w : Int) < k2) (hlt : k2 ≤ k) (hov : k < 2 ^ 32 * k2) (hm : Mapped m p.addr (p.addr + n))
    (hQ : ∀ (m2 : Mem w) (p2 : BitIter w), p2.Valid → p2.addr = p.addr → SameMapped m m2 →
      (∀ i, bitAt m2 i = if p.addr + k2 ≤ i ∧ i < p.addr + n then bitAt m (i - k2)
        else if p.addr ≤ i ∧ i < p.addr + k % k2 then bitAt m (i + (n - k % k2))
        else if p.addr + k % k2 ≤ i ∧ i < p.addr + k2 then bitAt m (i + (k - k % k2)) else bitAt m i) →
      if k % k2 = 0 then Q () m2 else wp (rotLoop S fuel p2 (k % k2) k2) m2 Q) :
    wp (rotLoop S (fuel + 1) p k n) m Q := by
  have hw : 0 < w := Nat.lt_of_le_of_lt (Nat.zero_le _) hp
  have hpn := BitIter.add_addr hw p n
  obtain rfl : k = n - k2 := by omega
  unfold rotLoop
  rw [if_neg (by omega)]
  dsimp only
  rw [hk2]
  have hpk := BitIter.sub_addr hw (p.add n) k2
  rw [if_neg (by omega)]
  have htd : Int.tdiv (n - k2) k2 = (n - k2) / k2 := Int.tdiv_eq_ediv_of_nonneg (by omega)
  have hq0 : 0 ≤ (n - k2) / k2 := Int.ediv_nonneg (by omega) (by omega)
  have hqk := Int.emod_add_mul_ediv (n - k2) k2
  have hr0 : 0 ≤ (n - k2) % k2 := Int.emod_nonneg _ (by omega)
  have hrk : (n - k2) % k2 < k2 := Int.emod_lt_of_pos _ (by omega)
  have hqlt : (n - k2) / k2 < 2 ^ 32 := by
    by_contra hc
    have h1 : k2 * (2 ^ 32 : Int) ≤ k2 * ((n - k2) / k2) := Int.mul_le_mul_of_nonneg_left (by omega) (by omega)
    omega
  have hfs : (Int.tdiv (n - k2) k2) % 2 ^ 32 = (n - k2) / k2 := by
    rw [htd]; exact Int.emod_eq_of_lt hq0 hqlt
  rw [hfs]
  generalize (n - k2) / k2 = fs at hq0 hqk hqlt
  have hcomm : k2 * fs = fs * k2 := Int.mul_comm _ _
  have hfst : (fs.toNat : Int) = fs := by omega
  generalize hrem : (n - k2) % k2 = rem at hqk hr0 hrk hQ
  rw [show n - k2 - fs * k2 = rem by omega]
  have hfsk0 : 0 ≤ fs * k2 := Int.mul_nonneg hq0 (by omega)
  rw [wp_bind]
  refine wp_rotBwdSwaps S (k := k2) (e := p.addr + n) (m0 := m) (by omega) fs.toNat (BitIter.sub_valid hw _ _) (BitIter.add_valid hw _ _)
    (by omega) (by omega) ?_ ?_ ?_
  · rw [hfst]; exact hm.sub (by omega) (by omega)
  · intro i
    split_ifs <;> first | rfl | (exfalso; omega) | (congr 1; omega)
  intro m1 p1 q1 hp1 hq1 hpa hqa h1 sm1
  rw [hfst] at hpa hqa
  dsimp only
  have hp1r := BitIter.sub_addr hw p1 rem
  have hq1r := BitIter.sub_addr hw q1 rem
  have hp1e := BitIter.add_addr hw (p1.sub rem) rem
  rw [wp_bind]
  refine wp_swapRanges S (BitIter.sub_valid hw _ _) (BitIter.add_valid hw _ _) (BitIter.sub_valid hw _ _) (by omega)
    ((sm1.mapped hm).sub (by omega) (by omega)) ((sm1.mapped hm).sub (by omega) (by omega)) (by omega) ?_
  intro m2 h2
  have sm2 : SameMapped m1 m2 := h2.sameMapped ((sm1.mapped hm).sub (by omega) (by omega))
    ((sm1.mapped hm).sub (by omega) (by omega))
  have h2' : Swapped m1 m2 p.addr (p.addr + k2) rem :=
    (h2.congr (by omega) (by omega) (by omega)).swapped (by omega) (by omega)
  have := hQ m2 (p1.sub rem) (BitIter.sub_valid hw _ _) (by omega) (fun i => by rw [sm2 i, sm1 i]) (fun i => by
    rw [h2' i]
    split_ifs with c1 c2 c3 c4 c5 c6 c7
    all_goals first | (exfalso; omega) | skip
    · rw [h1, if_pos (by omega)]; congr 1; omega
    · rw [h1, if_neg (by omega), if_neg (by omega)]; congr 1; omega
    · rw [h1, if_neg (by omega), if_pos (by omega)]; congr 1; omega
    · rw [h1, if_pos (by omega)]; congr 1; omega
    · rw [h1, if_neg (by omega), if_neg (by omega)])
  have htm : Int.tmod n k2 = rem := by
    rw [Int.tmod_eq_emod_of_nonneg (by omega), ← hrem, ← Int.sub_emod_right]
  rw [htm]
  by_cases hz : rem = 0
  · rw [if_pos hz] at this ⊢
    rwa [wp_pure]
  · rw [if_neg hz] at this ⊢
    exact this

/-- What remains of the rotation after a round with the shorter part on the left. -/
theorem rotated_fwd {m m2 m3 : Mem w} {a k n : Int} (h0 : 0 < k) (hlt : k < n - k)
    (hbits : ∀ i, bitAt m2 i = if a ≤ i ∧ i < a + (n - k) then bitAt m (i + k)
      else if a + (n - k) ≤ i ∧ i < a + n then bitAt m (a + (i - a) % k) else bitAt m i) :
    Rotated m2 m3 (a + (n - k)) (a + (n - k) + (k - n % k)) (a + (n - k) + k) ↔ Rotated m m3 a (a + k) (a + n) := by
  refine forall_congr' fun i => ?_
  refine iff_of_eq (congrArg _ ?_)
  have hr0 : 0 ≤ n % k := Int.emod_nonneg _ (by omega)
  have hrk : n % k < k := Int.emod_lt_of_pos _ (by omega)
  have hdiv := Int.emod_add_mul_ediv n k
  have hmod1 : ∀ j : Int, 0 ≤ j → j < k → ∀ t : Int, t = n - n % k + j → t % k = j := by
    intro j j0 j1 t ht
    rw [show t = j + k * (n / k) by omega, Int.add_mul_emod_self_left]
    exact Int.emod_eq_of_lt j0 j1
  have hmod2 : ∀ j : Int, 0 ≤ j → j < k → ∀ t : Int, t = n - n % k - k + j → t % k = j := by
    intro j j0 j1 t ht
    rw [show t = j + k * (n / k - 1) by rw [Int.mul_sub]; omega, Int.add_mul_emod_self_left]
    exact Int.emod_eq_of_lt j0 j1
  split_ifs with c1 c2 c3 c2 c3 c4 c5
  · exfalso; omega
  · rw [hbits, if_neg (by omega), if_pos (by omega)]
    congr 1
    rw [hmod1 (i - a - (n - k)) (by omega) (by omega) _ (by omega)]
    omega
  · exfalso; omega
  · exfalso; omega
  · rw [hbits, if_neg (by omega), if_pos (by omega)]
    congr 1
    rw [hmod2 (i - a - (n - k)) (by omega) (by omega) _ (by omega)]
    omega
  · exfalso; omega
  · rw [hbits, if_pos (by omega)]
    congr 1; omega
  · exfalso; omega
  · rw [hbits, if_neg (by omega), if_neg (by omega)]

/-- What remains of the rotation after a round with the shorter part on the right. -/
theorem rotated_bwd {m m2 m3 : Mem w} {a k k2 n : Int} (hk2 : n - k = k2) (h0 : 0 < k2) (hlt : k2 ≤ k)
    (hbits : ∀ i, bitAt m2 i = if a + k2 ≤ i ∧ i < a + n then bitAt m (i - k2)
      else if a ≤ i ∧ i < a + k % k2 then bitAt m (i + (n - k % k2))
      else if a + k % k2 ≤ i ∧ i < a + k2 then bitAt m (i + (k - k % k2)) else bitAt m i) :
    Rotated m2 m3 a (a + k % k2) (a + k2) ↔ Rotated m m3 a (a + k) (a + n) := by
  refine forall_congr' fun i => ?_
  refine iff_of_eq (congrArg _ ?_)
  have hr0 : 0 ≤ k % k2 := Int.emod_nonneg _ (by omega)
  have hrk : k % k2 < k2 := Int.emod_lt_of_pos _ (by omega)
  rw [hbits i, hbits (i + (a + k % k2 - a)), hbits (i - (a + k2 - (a + k % k2)))]
  split_ifs <;> first | rfl | (exfalso; omega) | (congr 1; omega)

theorem wp_rotLoop (S : ShiftSem w) :
    ∀ (fuel : Nat) {p : BitIter w} {k n : Int} {m : Mem w} {Q : Unit → Mem w → Prop},
    p.Valid → n < fuel → 0 < k → k < n → (w : Int) < n → RotFits w k (n - k) → Mapped m p.addr (p.addr + n) →
    (∀ m', Rotated m m' p.addr (p.addr + k) (p.addr + n) → Q () m') →
    wp (rotLoop S fuel p k n) m Q := by
  intro fuel
  induction fuel with
  | zero => intro p k n m Q hp hf h0 hk; omega
  | succ fuel ih =>
    intro p k n m Q hp hf h0 hkn hwn hlim hm hQ
    have hw : 0 < w := Nat.lt_of_le_of_lt (Nat.zero_le _) hp
    have hpn := BitIter.add_addr hw p n
    by_cases hlt : k < n - k
    · by_cases hkw : k ≤ w
      · unfold rotLoop
        rw [if_pos hlt, if_pos hkw]
        obtain ⟨k', hk'⟩ : ∃ k' : Nat, k = k' := ⟨k.toNat, by omega⟩
        subst hk'
        rw [Int.toNat_natCast]
        have := wp_rotL S (k := k') (m := m) (Q := fun _ m' => Q () m') hp (BitIter.add_valid hw p n) (by rwa [hpn])
          (by omega) (by omega) (by omega) (by omega) (by
            intro m' r _ _ hr
            exact hQ m' (hr.congr rfl rfl hpn))
        simp only [wp_bind, wp_pure] at this ⊢
        exact this
      · refine wp_rotLoop_fwd S hp (by omega) hlt hm ?_
        intro m2 p2 hp2 hp2a sm2 hbits
        have hr0 : 0 ≤ n % k := Int.emod_nonneg _ (by omega)
        have hrk : n % k < k := Int.emod_lt_of_pos _ (by omega)
        by_cases hz : n % k = 0
        · rw [if_pos hz]
          refine hQ _ ((rotated_fwd h0 hlt hbits).1 fun i => ?_)
          split_ifs <;> first | rfl | (exfalso; omega) | (congr 1; omega)
        · rw [if_neg hz]
          have hsub : RotFits w (k - n % k) (k - (k - n % k)) := by
            intro hc
            refine hlim (.left (by omega) hlt ?_)
            rwa [show (n - k) % k = n % k from Int.sub_emod_right _ _, show n % k = k - (k - n % k) by omega, show k - (k - (k - n % k)) = k - n % k by omega]
          refine ih hp2 (by omega) (by omega) (by omega) (by omega) hsub
            ((sm2.mapped hm).sub (by omega) (by omega)) ?_
          intro m3 h3
          rw [hp2a] at h3
          exact hQ _ ((rotated_fwd h0 hlt hbits).1 h3)
    · generalize hk2 : n - k = k2 at hlim
      by_cases hkw : k2 ≤ w
      · unfold rotLoop
        rw [if_neg hlt]
        dsimp only
        rw [hk2]
        have hpk := BitIter.sub_addr hw (p.add n) k2
        rw [if_pos hkw]
        obtain ⟨k', hk'⟩ : ∃ k' : Nat, k2 = k' := ⟨k2.toNat, by omega⟩
        subst hk'
        rw [Int.toNat_natCast]
        have := wp_rotR S (k := k') (m := m) (from_ := (p.add n).sub k') (Q := fun _ m' => Q () m') hp
          (BitIter.add_valid hw p n) (BitIter.sub_valid hw _ _) (by rwa [hpn]) hpk
          (by omega) (by omega) (by omega) (by omega) (by
            intro m' hr
            exact hQ m' (hr.congr rfl (by omega) hpn))
        simp only [wp_bind, wp_pure] at this ⊢
        exact this
      · have hov : k < 2 ^ 32 * k2 := by
          by_contra hc
          exact hlim (.count (by omega) (by omega))
        refine wp_rotLoop_bwd S hp hk2 (by omega) (by omega) hov hm ?_
        intro m2 p2 hp2 hp2a sm2 hbits
        have hr0 : 0 ≤ k % k2 := Int.emod_nonneg _ (by omega)
        have hrk : k % k2 < k2 := Int.emod_lt_of_pos _ (by omega)
        by_cases hz : k % k2 = 0
        · rw [if_pos hz]
          refine hQ _ ((rotated_bwd hk2 (by omega) (by omega) hbits).1 fun i => ?_)
          split_ifs <;> first | rfl | (exfalso; omega) | (congr 1; omega)
        · rw [if_neg hz]
          have hsub : RotFits w (k % k2) (k2 - k % k2) := by
            intro hc
            refine hlim (.right (by omega) ?_ hc)
            rcases Int.lt_or_le k2 k with h | h
            · exact h
            · obtain rfl : k = k2 := by omega
              exact absurd Int.emod_self hz
          refine ih hp2 (by omega) (by omega) (by omega) (by omega) hsub
            ((sm2.mapped hm).sub (by omega) (by omega)) ?_
          intro m3 h3
          rw [hp2a] at h3
          exact hQ _ ((rotated_bwd hk2 (by omega) (by omega) hbits).1 h3)

theorem wp_rotateViaRaw (S : ShiftSem w) {first nFirst last : BitIter w} {m : Mem w} {Q : BitIter w → Mem w → Prop}
    (hf : first.Valid) (hn : nFirst.Valid)
    (h1 : first.addr < nFirst.addr) (h2 : nFirst.addr < last.addr) (hbig : (w : Int) < last.addr - first.addr)
    (hlim : RotFits w (nFirst.addr - first.addr) (last.addr - nFirst.addr)) (hm : Mapped m first.addr last.addr)
    (hQ : ∀ m' (r : BitIter w), r.Valid → r.addr = first.addr + (last.addr - nFirst.addr) →
      Rotated m m' first.addr nFirst.addr last.addr → Q r m') :
    wp (rotateViaRaw S first nFirst last) m Q := by
  have hw : 0 < w := Nat.lt_of_le_of_lt (Nat.zero_le _) hf
  unfold rotateViaRaw
  dsimp only
  rw [BitIter.diff_eq, BitIter.diff_eq]
  by_cases hhalf : nFirst.addr - first.addr = last.addr - first.addr - (nFirst.addr - first.addr)
  · rw [if_pos hhalf, wp_bind]
    refine wp_swapRanges S hf hn hn (by omega) (hm.sub (by omega) (by omega)) (hm.sub (by omega) (by omega)) (by omega) ?_
    intro m1 hs
    rw [wp_pure]
    refine hQ m1 nFirst hn (by omega) ?_
    have hs' := hs.swapped (by omega) (by omega)
    intro i
    rw [hs' i]
    split_ifs <;> first | rfl | (exfalso; omega) | (congr 1; omega)
  · rw [if_neg hhalf, wp_bind]
    refine wp_rotLoop S _ hf (by omega) (by omega) (by omega) hbig (by rwa [show last.addr - first.addr - (nFirst.addr - first.addr) = last.addr - nFirst.addr by omega]) (hm.sub (by omega) (by omega)) ?_
    intro m1 hr
    rw [wp_pure, BitIter.diff_eq]
    exact hQ m1 _ (BitIter.add_valid hw _ _) (BitIter.add_addr hw _ _) (hr.congr rfl (by omega) (by omega))

theorem wp_rotateSingle (S : ShiftSem w) {first nFirst last : BitIter w} {m : Mem w} {Q : BitIter w → Mem w → Prop}
    (hf : first.Valid) (hn : nFirst.Valid) (hl : last.Valid)
    (h1 : first.addr < nFirst.addr) (h2 : nFirst.addr < last.addr)
    (hsame : first.base + (if last.pos = 0 then 1 else 0) = last.base)
    (hm : Mapped m first.addr last.addr)
    (hQ : ∀ m' (r : BitIter w), r.Valid → r.addr = first.addr + (last.addr - nFirst.addr) →
      Rotated m m' first.addr nFirst.addr last.addr → Q r m') :
    wp (rotateSingle S first nFirst last) m Q := by
  have hf' : first.pos < w := hf
  have hn' : nFirst.pos < w := hn
  have hl' : last.pos < w := hl
  have hw : 0 < w := by omega
  have hfa : first.addr = first.base * w + first.pos := rfl
  have hna : nFirst.addr = nFirst.base * w + nFirst.pos := rfl
  have hla : last.addr = last.base * w + last.pos := rfl
  unfold rotateSingle
  generalize hlp : (if last.pos = 0 then w else last.pos) = lp
  have hlast : last.addr = first.base * w + lp := by
    by_cases h0 : last.pos = 0
    · rw [if_pos h0] at hsame hlp
      rw [hla, ← hsame, Int.add_mul]; omega
    · rw [if_neg h0, Int.add_zero] at hsame
      rw [if_neg h0] at hlp
      rw [hla, ← hsame]; omega
  have hlpw : lp ≤ w := by split_ifs at hlp <;> omega
  have hnb : nFirst.base = first.base := by
    have h3 := base_le_of_addr hn (by omega : first.addr ≤ nFirst.addr)
    by_contra hc
    have := base_lt_mul (w := w) (a := first.base) (b := nFirst.base) (by omega)
    omega
  rw [hnb] at hna
  by_cases hal : first.pos = 0 ∧ last.pos = 0
  · rw [if_pos hal]
    rw [if_pos hal.2] at hlp
    rw [wp_bind]
    refine wp_load_bits hw first.addr (by omega) (by omega) (hm _ (by omega) (by omega)) ?_
    intro x hx
    rw [wp_bind, wp_shr S hn', wp_bind, wp_shl S (by omega), wp_bind]
    refine wp_store_bits hw first.addr (by omega) (by omega) (hm _ (by omega) (by omega)) ?_
    intro m' hm'
    rw [wp_pure]
    refine hQ m' _ (BitIter.add_valid hw _ _) (by rw [BitIter.add_addr hw]; omega) ?_
    intro i
    rw [hm' i]
    beta_reduce
    rw [BitVec.getLsbD_or, BitVec.getLsbD_ushiftRight, BitVec.getLsbD_shiftLeft]
    split_ifs with c1 c2 c3
    · rw [show i + (nFirst.addr - first.addr) = first.base * w + ((nFirst.pos + (i - first.base * w).toNat : Nat) : Int) by omega,
        hx _ (by omega)]
      simp [show (i - first.base * (w : Int)).toNat < w - nFirst.pos by omega]
    · rw [show i - (last.addr - nFirst.addr) = first.base * w + (((i - first.base * w).toNat - (w - nFirst.pos) : Nat) : Int) by omega,
        hx _ (by omega), BitVec.getLsbD_of_ge _ (nFirst.pos + _) (by omega)]
      simp [show (i - first.base * (w : Int)).toNat < w by omega, show ¬ (i - first.base * (w : Int)).toNat < w - nFirst.pos by omega]
    · exfalso; omega
    · exfalso; omega
    · exfalso; omega
    · rfl
  · rw [if_neg hal]
    have hdw : lp - first.pos < w := by
      split_ifs at hlp <;> omega
    dsimp only
    rw [subSize_le (by omega), subSize_le (by omega), subSize_le (by omega), wp_bind, wp_shl S hdw, wp_bind,
      wp_shl S hf', wp_bind]
    refine wp_load_bits hw first.addr (by omega) (by omega) (hm _ (by omega) (by omega)) ?_
    intro x hx
    rw [wp_bind, wp_shr S (by omega), wp_bind, wp_shl S (by omega), wp_bind]
    refine wp_blendAt S (by omega) (by omega) (Or.inl hdw) (hm _ (by omega) (by omega)) ?_
    intro m' hm'
    rw [wp_pure]
    refine hQ m' _ (BitIter.add_valid hw _ _) (by rw [BitIter.add_addr hw]; omega) ?_
    have hmask := maskShl_get (start := first.pos) (fun i (hi : i < w) => getLsbD_lowMask (w := w) (lp - first.pos) i hi)
    generalize (1#w <<< (lp - first.pos) - 1#w) <<< first.pos = msk at hm' hmask
    intro i
    rw [hm' i]
    beta_reduce
    by_cases hi : first.addr ≤ i ∧ i < last.addr
    · rw [if_pos (by omega)]
      obtain ⟨j, hj⟩ : ∃ j : Nat, i = first.base * w + j := ⟨(i - first.base * w).toNat, by omega⟩
      subst hj
      rw [show (first.base * (w : Int) + j - first.base * w).toNat = j by omega,
        BitVec.getLsbD_or, BitVec.getLsbD_ushiftRight, BitVec.getLsbD_shiftLeft, BitVec.getLsbD_and, BitVec.getLsbD_and]
      split_ifs with c1 c2
      · rw [show first.base * (w : Int) + j + (nFirst.addr - first.addr)
          = first.base * w + ((nFirst.pos - first.pos + j : Nat) : Int) by omega, hx _ (by omega), hmask _ (by omega),
          hmask _ (by omega)]
        simp only [show first.pos ≤ nFirst.pos - first.pos + j ∧ nFirst.pos - first.pos + j < first.pos + (lp - first.pos) by omega,
          decide_true, Bool.and_true, and_self]
        by_cases hjp : j < lp - nFirst.pos
        · simp [hjp]
        · simp [show ¬ first.pos ≤ j - (lp - nFirst.pos) by omega]
      · rw [show first.base * (w : Int) + j - (last.addr - nFirst.addr)
          = first.base * w + ((j - (lp - nFirst.pos) : Nat) : Int) by omega, hx _ (by omega), hmask (j - (lp - nFirst.pos)) (by omega)]
        have hz : (x.getLsbD (nFirst.pos - first.pos + j) && msk.getLsbD (nFirst.pos - first.pos + j)) = false := by
          by_cases hjw : nFirst.pos - first.pos + j < w
          · rw [hmask _ hjw]
            simp [show ¬ nFirst.pos - first.pos + j < first.pos + (lp - first.pos) by omega]
          · rw [BitVec.getLsbD_of_ge x _ (by omega)]; rfl
        rw [hz]
        simp [show j < w by omega, show ¬ j < lp - nFirst.pos by omega,
          show first.pos ≤ j - (lp - nFirst.pos) ∧ j - (lp - nFirst.pos) < first.pos + (lp - first.pos) by omega]
      · exfalso; omega
    · rw [if_neg (by omega), if_neg (by omega), if_neg (by omega)]

theorem wp_rotate (S : ShiftSem w) {first nFirst last : BitIter w} {m : Mem w} {Q : BitIter w → Mem w → Prop}
    (hf : first.Valid) (hn : nFirst.Valid) (hl : last.Valid)
    (h1 : first.addr ≤ nFirst.addr) (h2 : nFirst.addr < last.addr)
    (hlim : RotFits w (nFirst.addr - first.addr) (last.addr - nFirst.addr)) (hm : Mapped m first.addr last.addr)
    (hQ : ∀ m' (r : BitIter w), r.Valid → r.addr = first.addr + (last.addr - nFirst.addr) →
      Rotated m m' first.addr nFirst.addr last.addr → Q r m') :
    wp (rotate S first nFirst last) m Q := by
  have hf' : first.pos < w := hf
  have hl' : last.pos < w := hl
  have hw : 0 < w := by omega
  have hfa : first.addr = first.base * w + first.pos := rfl
  have hla : last.addr = last.base * w + last.pos := rfl
  unfold rotate
  rw [wp_bind, wp_assertViable]
  refine ⟨h1, ?_⟩
  rw [wp_bind, wp_assertViable]
  refine ⟨by omega, ?_⟩
  rw [wp_bind, wp_assertViable]
  refine ⟨by omega, ?_⟩
  by_cases hbeq : first.beq nFirst
  · rw [if_pos hbeq, wp_pure]
    rw [BitIter.beq_iff hf hn] at hbeq
    refine hQ m last hl (by omega) ?_
    intro i
    split_ifs <;> first | rfl | (exfalso; omega) | (congr 1; omega)
  · rw [if_neg hbeq]
    rw [BitIter.beq_iff hf hn] at hbeq
    by_cases hsame : first.base + (if last.pos = 0 then 1 else 0) = last.base
    · rw [if_pos hsame]
      exact wp_rotateSingle S hf hn hl (by omega) h2 hsame hm hQ
    · rw [if_neg hsame]
      have hbb := base_le_of_addr hl (by omega : first.addr ≤ last.addr)
      have hnfull : ¬ (first.pos = 0 ∧ last.addr - first.addr = w) := by
        rintro ⟨hp, hd⟩
        have : last = ⟨first.base + 1, 0⟩ := by
          refine BitIter.addr_inj hl (b := ⟨first.base + 1, 0⟩) hw ?_
          show _ = (first.base + 1) * (w : Int) + (0 : Nat)
          rw [Int.add_mul]; omega
        rw [this] at hsame
        simp at hsame
      by_cases hw1 : isWithin w first nFirst
      · rw [if_pos hw1]
        rw [isWithin_iff w first nFirst hf hn h1] at hw1
        rw [wp_bind, wp_distance]
        refine ⟨h1, ?_⟩
        obtain ⟨k, hk⟩ : ∃ k : Nat, nFirst.addr - first.addr = k := ⟨(nFirst.addr - first.addr).toNat, by omega⟩
        rw [hk, Int.toNat_natCast]
        refine wp_rotL S hf hl hm (by omega) (by omega) (by omega) hnfull ?_
        intro m' r hr hra hrot
        exact hQ m' r hr (by omega) (hrot.congr rfl (by omega) rfl)
      · rw [if_neg hw1]
        rw [isWithin_iff w first nFirst hf hn h1] at hw1
        by_cases hw2 : isWithin w nFirst last
        · rw [if_pos hw2]
          rw [isWithin_iff w nFirst last hn hl (by omega)] at hw2
          rw [wp_bind, wp_distance]
          refine ⟨by omega, ?_⟩
          obtain ⟨k, hk⟩ : ∃ k : Nat, last.addr - nFirst.addr = k := ⟨(last.addr - nFirst.addr).toNat, by omega⟩
          rw [hk, Int.toNat_natCast]
          refine wp_rotR S hf hl hn hm (by omega) (by omega) (by omega) (by omega) hnfull ?_
          intro m' hrot
          exact hQ m' _ (BitIter.add_valid hw _ _) (by rw [BitIter.add_addr hw]; omega) (hrot.congr rfl (by omega) rfl)
        · rw [if_neg hw2]
          exact wp_rotateViaRaw S hf hn (by omega) h2 (by omega) hlim hm hQ

end BitLib
