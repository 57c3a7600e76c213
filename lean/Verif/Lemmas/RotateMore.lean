import Verif.Lemmas.Rotate
import Verif.Lemmas.Reverse
import Verif.Lemmas.Count
/- `rotate` with `n_first == last`; termination of `rotate` for all lengths; the failure for very long ranges. -/
namespace BitLib
variable {w : Nat}

/-- Nothing outside `[a, b)` changes, no word appears or disappears, and the number of bits of each value is kept. -/
structure OnlyIn (m m' : Mem w) (a b : Int) : Prop where
  outside : ∀ i, (i < a ∨ b ≤ i) → bitAt m' i = bitAt m i
  same : SameMapped m m'
  count : ∀ v, cntF (bitAt m') v a (b - a).toNat = cntF (bitAt m) v a (b - a).toNat

theorem OnlyIn.refl {m : Mem w} {a b : Int} : OnlyIn m m a b := ⟨fun _ _ => rfl, fun _ => rfl, fun _ => rfl⟩

theorem OnlyIn.trans {m m1 m2 : Mem w} {a b : Int} (h1 : OnlyIn m m1 a b) (h2 : OnlyIn m1 m2 a b) : OnlyIn m m2 a b :=
  ⟨fun i hi => by rw [h2.1 i hi, h1.1 i hi], fun i => by rw [h2.2 i, h1.2 i], fun v => by rw [h2.3 v, h1.3 v]⟩

theorem OnlyIn.mono {m m1 : Mem w} {a b c d : Int} (h : OnlyIn m m1 a b) (h1 : c ≤ a) (h2 : b ≤ d) : OnlyIn m m1 c d := by
  refine ⟨fun i hi => h.1 i (by omega), h.2, fun v => ?_⟩
  by_cases hab : a < b
  · have e : (d - c).toNat = (a - c).toNat + ((b - a).toNat + (d - b).toNat) := by omega
    rw [e, cntF_add, cntF_add, cntF_add (bitAt m), cntF_add (bitAt m),
      cntF_congr v c _ (fun i _ h3 => h.1 i (by omega)),
      show c + ((a - c).toNat : Int) = a by omega, h.3 v,
      cntF_congr v (a + ((b - a).toNat : Int)) _ (fun i _ h3 => h.1 i (by omega))]
  · exact cntF_congr v c _ (fun i _ h3 => h.1 i (by omega))

theorem swapSeq_outside (f : Int → Option Bool) (a b : Int) (n : Nat) (i : Int) (h1 : i < a ∨ a + n ≤ i)
    (h2 : i < b ∨ b + n ≤ i) : swapSeq f a b n i = f i := by
  induction n with
  | zero => rfl
  | succ n ih =>
    push_cast at h1 h2
    show swapBit (swapSeq f a b n) (a + n) (b + n) i = f i
    unfold swapBit
    rw [if_neg (by omega), if_neg (by omega), ih (by omega) (by omega)]

theorem cntF_swapBit (f : Int → Option Bool) (v : Bool) (c : Int) (n : Nat) (x y : Int)
    (hx : c ≤ x ∧ x < c + n) (hy : c ≤ y ∧ y < c + n) : cntF (swapBit f x y) v c n = cntF f v c n := by
  by_cases hxy : x = y
  · subst hxy
    refine cntF_congr v c n (fun i _ _ => ?_)
    unfold swapBit
    split_ifs with h <;> simp_all
  · have h1 := cntF_update (f := f) (g := fun i => if i = x then f y else f i) v c n x hx
      (fun i hi => if_neg hi)
    have h2 := cntF_update (f := fun i => if i = x then f y else f i) (g := swapBit f x y) v c n y hy
      (fun i hi => by unfold swapBit; rw [if_neg hi])
    have e1 : swapBit f x y y = f x := by unfold swapBit; rw [if_neg (Ne.symm hxy), if_pos rfl]
    beta_reduce at h1 h2
    rw [if_pos rfl] at h1
    rw [e1, if_neg (Ne.symm hxy)] at h2
    omega

theorem cntF_swapSeq (f : Int → Option Bool) (v : Bool) (a b : Int) (n : Nat) (c : Int) (k : Nat)
    (h1 : c ≤ a) (h2 : a + n ≤ c + k) (h3 : c ≤ b) (h4 : b + n ≤ c + k) : cntF (swapSeq f a b n) v c k = cntF f v c k := by
  induction n with
  | zero => rfl
  | succ n ih =>
    show cntF (swapBit (swapSeq f a b n) (a + n) (b + n)) v c k = _
    rw [cntF_swapBit _ _ _ _ _ _ (by omega) (by omega), ih (by omega) (by omega)]

theorem SwapSeq.onlyIn {m m' : Mem w} {a b n c d : Int} (h : SwapSeq m m' a b n)
    (hm1 : Mapped m a (a + n)) (hm2 : Mapped m b (b + n)) (_hn : 0 ≤ n)
    (h1 : c ≤ a) (h2 : a + n ≤ d) (h3 : c ≤ b) (h4 : b + n ≤ d) : OnlyIn m m' c d := by
  refine ⟨?_, h.sameMapped hm1 hm2, fun v => ?_⟩
  · intro i hi
    rw [h i, swapSeq_outside _ _ _ _ _ (by omega) (by omega)]
  · rw [show bitAt m' = swapSeq (bitAt m) a b n.toNat from funext h,
      cntF_swapSeq _ _ _ _ _ _ _ (by omega) (by omega) (by omega) (by omega)]

theorem Rotated.count {m m' : Mem w} {a b c : Int} (h : Rotated m m' a b c) (hab : a ≤ b) (hbc : b ≤ c) (v : Bool) :
    cntF (bitAt m') v a (c - a).toNat = cntF (bitAt m) v a (c - a).toNat := by
  have e1 : (c - a).toNat = (c - b).toNat + (b - a).toNat := by omega
  have e2 : (c - a).toNat = (b - a).toNat + (c - b).toNat := by omega
  conv => lhs; rw [e1, cntF_add]
  conv => rhs; rw [e2, cntF_add]
  rw [cntF_shift (f := bitAt m') (g := bitAt m) v a b (c - b).toNat (fun i h1 h2 => by
      rw [h (a + i), if_pos (by omega)]; congr 1; omega),
    cntF_shift (f := bitAt m') (g := bitAt m) v (a + ((c - b).toNat : Int)) a (b - a).toNat (fun i h1 h2 => by
      rw [h, if_neg (by omega), if_pos (by omega)]; congr 1; omega),
    show a + ((b - a).toNat : Int) = b by omega, Nat.add_comm]

theorem Rotated.onlyIn {m m' : Mem w} {a b c : Int} (h : Rotated m m' a b c) (hab : a ≤ b) (hbc : b ≤ c)
    (hm : Mapped m a c) : OnlyIn m m' a c := by
  refine ⟨?_, h.sameMapped hab hbc hm, h.count hab hbc⟩
  intro i hi
  rw [h i, if_neg (by omega), if_neg (by omega)]

theorem wp_rotBwdSwaps_frame (S : ShiftSem w) {k : Int} (hk : 0 < k) :
    ∀ (s : Nat) {p q : BitIter w} {m : Mem w} {e : Int} {Q : BitIter w × BitIter w → Mem w → Prop},
    p.Valid → q.Valid → q.addr = p.addr + k → q.addr ≤ e → Mapped m (p.addr - s * k) e →
    (∀ m' (p' q' : BitIter w), p'.Valid → q'.Valid → p'.addr = p.addr - s * k → q'.addr = q.addr - s * k →
      OnlyIn m m' (p.addr - s * k) e → Q (p', q') m') →
    wp (rotBwdSwaps S k s p q) m Q := by
  intro s
  induction s with
  | zero =>
    intro p q m e Q hp hq hpq hqe hm hQ
    unfold rotBwdSwaps
    rw [wp_pure]
    exact hQ m p q hp hq (by simp) (by simp) OnlyIn.refl
  | succ s ih =>
    intro p q m e Q hp hq hpq hqe hm hQ
    have hw : 0 < w := Nat.lt_of_le_of_lt (Nat.zero_le _) hp
    have es : ((s + 1 : Nat) : Int) * k = k + s * k := by push_cast; ring
    have hs0 : 0 ≤ (s : Int) * k := Int.mul_nonneg (by omega) (by omega)
    rw [es] at hm hQ
    unfold rotBwdSwaps
    dsimp only
    have e1 := BitIter.sub_addr hw p k
    have e2 := BitIter.sub_addr hw q k
    rw [wp_bind]
    refine wp_swapRanges S (BitIter.sub_valid hw _ _) (BitIter.sub_valid hw _ _) (BitIter.sub_valid hw _ _) (by omega)
      (hm.sub (by omega) (by omega)) (hm.sub (by omega) (by omega)) (by omega) ?_
    intro m1 h1
    have o1 : OnlyIn m m1 (p.addr - (k + s * k)) e :=
      h1.onlyIn (hm.sub (by omega) (by omega)) (hm.sub (by omega) (by omega)) (by omega) (by omega) (by omega) (by omega) (by omega)
    refine ih (e := e) (BitIter.sub_valid hw _ _) (BitIter.sub_valid hw _ _) (by omega) (by omega) ?_ ?_
    · rw [e1]; exact (o1.2.mapped hm).sub (by omega) (by omega)
    · intro m2 p' q' hp' hq' hpa hqa h2
      refine hQ m2 p' q' hp' hq' (by omega) (by omega) (o1.trans (h2.mono (by omega) (by omega)))

/-- Without any limit on the length the loop terminates and changes nothing outside its range. -/
theorem wp_rotLoop_frame (S : ShiftSem w) :
    ∀ (fuel : Nat) {p : BitIter w} {k n : Int} {m : Mem w} {Q : Unit → Mem w → Prop},
    p.Valid → n < fuel → 0 < k → k < n → (w : Int) < n → Mapped m p.addr (p.addr + n) →
    (∀ m', OnlyIn m m' p.addr (p.addr + n) → Q () m') →
    wp (rotLoop S fuel p k n) m Q := by
  intro fuel
  induction fuel with
  | zero => intro p k n m Q hp hf h0 hk; omega
  | succ fuel ih =>
    intro p k n m Q hp hf h0 hkn hwn hm hQ
    have hw : 0 < w := Nat.lt_of_le_of_lt (Nat.zero_le _) hp
    have hpn := BitIter.add_addr hw p n
    have fsb : ∀ k : Int, 0 < k → k < n → ∃ fs : Int, (Int.tdiv (n - k) k) % 2 ^ 32 = fs ∧ 0 ≤ fs ∧ fs * k ≤ n - k ∧ 0 ≤ fs * k := by
      intro k h0 hkn
      refine ⟨_, rfl, Int.emod_nonneg _ (by decide), ?_, Int.mul_nonneg (Int.emod_nonneg _ (by decide)) (by omega)⟩
      have h1 : (Int.tdiv (n - k) k) % 2 ^ 32 ≤ Int.tdiv (n - k) k := by
        have h0 : 0 ≤ Int.tdiv (n - k) k := Int.tdiv_nonneg (by omega) (by omega)
        omega
      have h2 := Int.mul_le_mul_of_nonneg_right h1 (by omega : 0 ≤ k)
      have h3 := Int.tmod_add_tdiv_mul (n - k) k
      have h4 : 0 ≤ Int.tmod (n - k) k := Int.tmod_nonneg _ (by omega)
      omega
    unfold rotLoop
    by_cases hlt : k < n - k
    · rw [if_pos hlt]
      by_cases hkw : k ≤ w
      · rw [if_pos hkw]
        obtain ⟨k', hk'⟩ : ∃ k' : Nat, k = k' := ⟨k.toNat, by omega⟩
        subst hk'
        rw [Int.toNat_natCast]
        have := wp_rotL S (k := k') (m := m) (Q := fun _ m' => Q () m') hp (BitIter.add_valid hw p n) (by rwa [hpn])
          (by omega) (by omega) (by omega) (by omega) (by
            intro m' r _ _ hr
            exact hQ m' ((hr.congr rfl rfl hpn).onlyIn (by omega) (by omega) hm))
        simp only [wp_bind, wp_pure] at this ⊢
        exact this
      · rw [if_neg hkw]
        dsimp only
        have hpk := BitIter.add_addr hw p k
        obtain ⟨fs, hfs, hfs0, hfsk, hfsk0⟩ := fsb k h0 hkn
        rw [hfs]
        have hfst : (fs.toNat : Int) = fs := by omega
        rw [wp_bind]
        refine wp_rotFwdSwaps S h0 fs.toNat hp (BitIter.add_valid hw _ _) hpk ?_ ?_
        · rw [hfst]; exact hm.sub (by omega) (by omega)
        intro m1 p1 q1 hp1 hq1 hpa hqa h1
        rw [hfst] at hpa hqa h1
        have o1 : OnlyIn m m1 p.addr (p.addr + n) :=
          h1.onlyIn (hm.sub (by omega) (by omega)) (hm.sub (by omega) (by omega)) (by omega) (by omega) (by omega) (by omega) (by omega)
        dsimp only
        generalize hrem : n - k - fs * k = rem
        have hp1r := BitIter.add_addr hw p1 rem
        have hm1 := o1.2.mapped hm
        rw [wp_bind]
        refine wp_swapRanges S hp1 (BitIter.add_valid hw _ _) hq1 (by omega)
          (hm1.sub (by omega) (by omega)) (hm1.sub (by omega) (by omega)) (by omega) ?_
        intro m2 h2
        have o2 : OnlyIn m m2 p.addr (p.addr + n) := o1.trans
          (h2.onlyIn (hm1.sub (by omega) (by omega)) (hm1.sub (by omega) (by omega)) (by omega) (by omega) (by omega) (by omega) (by omega))
        have htm : Int.tmod n k = n % k := Int.tmod_eq_emod_of_nonneg (by omega)
        have hr0 : 0 ≤ n % k := Int.emod_nonneg _ (by omega)
        have hrk : n % k < k := Int.emod_lt_of_pos _ (by omega)
        rw [htm]
        by_cases hz : n % k = 0
        · rw [if_pos hz, wp_pure]
          exact hQ _ o2
        · rw [if_neg hz]
          refine ih (BitIter.add_valid hw _ _) (by omega) (by omega) (by omega) (by omega)
            ((o2.2.mapped hm).sub (by omega) (by omega)) ?_
          intro m3 h3
          exact hQ _ (o2.trans (h3.mono (by omega) (by omega)))
    · rw [if_neg hlt]
      dsimp only
      generalize hk2 : n - k = k2
      have hpk := BitIter.sub_addr hw (p.add n) k2
      by_cases hkw : k2 ≤ w
      · rw [if_pos hkw]
        obtain ⟨k', hk'⟩ : ∃ k' : Nat, k2 = k' := ⟨k2.toNat, by omega⟩
        subst hk'
        rw [Int.toNat_natCast]
        have := wp_rotR S (k := k') (m := m) (from_ := (p.add n).sub k') (Q := fun _ m' => Q () m') hp
          (BitIter.add_valid hw p n) (BitIter.sub_valid hw _ _) (by rwa [hpn]) hpk
          (by omega) (by omega) (by omega) (by omega) (by
            intro m' hr
            exact hQ m' ((hr.congr rfl rfl hpn).onlyIn (by omega) (by omega) hm))
        simp only [wp_bind, wp_pure] at this ⊢
        exact this
      · rw [if_neg hkw]
        obtain ⟨fs, hfs, hfs0, hfsk, hfsk0⟩ := fsb k2 (by omega) (by omega)
        rw [hfs]
        have hfst : (fs.toNat : Int) = fs := by omega
        generalize hrem : n - k2 - fs * k2 = rem
        rw [wp_bind]
        refine wp_rotBwdSwaps_frame S (k := k2) (e := p.addr + n) (by omega) fs.toNat (BitIter.sub_valid hw _ _) (BitIter.add_valid hw _ _)
          (by omega) (by omega) ?_ ?_
        · rw [hfst]; exact hm.sub (by omega) (by omega)
        intro m1 p1 q1 hp1 hq1 hpa hqa o1
        rw [hfst] at hpa hqa o1
        have o1' : OnlyIn m m1 p.addr (p.addr + n) := o1.mono (by omega) (by omega)
        have hm1 := o1'.2.mapped hm
        dsimp only
        have hp1r := BitIter.sub_addr hw p1 rem
        have hq1r := BitIter.sub_addr hw q1 rem
        have hp1e := BitIter.add_addr hw (p1.sub rem) rem
        rw [wp_bind]
        refine wp_swapRanges S (BitIter.sub_valid hw _ _) (BitIter.add_valid hw _ _) (BitIter.sub_valid hw _ _) (by omega)
          (hm1.sub (by omega) (by omega)) (hm1.sub (by omega) (by omega)) (by omega) ?_
        intro m2 h2
        have o2 : OnlyIn m m2 p.addr (p.addr + n) := o1'.trans
          (h2.onlyIn (hm1.sub (by omega) (by omega)) (hm1.sub (by omega) (by omega)) (by omega) (by omega) (by omega) (by omega) (by omega))
        have htm : Int.tmod n k2 = n % k2 := Int.tmod_eq_emod_of_nonneg (by omega)
        have hr0 : 0 ≤ n % k2 := Int.emod_nonneg _ (by omega)
        have hrk : n % k2 < k2 := Int.emod_lt_of_pos _ (by omega)
        rw [htm]
        by_cases hz : n % k2 = 0
        · rw [if_pos hz, wp_pure]
          exact hQ _ o2
        · rw [if_neg hz]
          refine ih (BitIter.sub_valid hw _ _) (by omega) (by omega) (by omega) (by omega)
            ((o2.2.mapped hm).sub (by omega) (by omega)) ?_
          intro m3 h3
          exact hQ _ (o2.trans (h3.mono (by omega) (by omega)))

/-- `rotate` below the limit, or its unconditional frame. -/
theorem wp_rotate_frame (S : ShiftSem w) {first nFirst last : BitIter w} {m : Mem w} {Q : BitIter w → Mem w → Prop}
    (hf : first.Valid) (hn : nFirst.Valid) (hl : last.Valid)
    (h1 : first.addr ≤ nFirst.addr) (h2 : nFirst.addr < last.addr) (hm : Mapped m first.addr last.addr)
    (hQ : ∀ m' (r : BitIter w), r.Valid → r.addr = first.addr + (last.addr - nFirst.addr) →
      OnlyIn m m' first.addr last.addr → Q r m') :
    wp (rotate S first nFirst last) m Q := by
  have hw : 0 < w := Nat.lt_of_le_of_lt (Nat.zero_le _) hf
  by_cases hlim : last.addr - first.addr < rotLimit w
  · refine wp_rotate S hf hn hl h1 h2 (RotFits.of_len (by unfold rotLimit at hlim; omega)) hm ?_
    intro m' r hr hra hrot
    exact hQ m' r hr hra (hrot.onlyIn h1 (by omega) hm)
  · have hbig : 2 * (w : Int) < last.addr - first.addr := by unfold rotLimit at hlim; omega
    have hfa : first.addr = first.base * w + first.pos := rfl
    have hla : last.addr = last.base * w + last.pos := rfl
    have hf' : first.pos < w := hf
    have hl' : last.pos < w := hl
    unfold rotate
    rw [wp_bind, wp_assertViable]
    refine ⟨h1, ?_⟩
    rw [wp_bind, wp_assertViable]
    refine ⟨by omega, ?_⟩
    rw [wp_bind, wp_assertViable]
    refine ⟨by omega, ?_⟩
    by_cases hbeq : first.beq nFirst
    · rw [if_pos hbeq, wp_pure]
      rw [BitIter.beq_iff hf hn] at hbeq
      exact hQ m last hl (by omega) OnlyIn.refl
    · rw [if_neg hbeq]
      rw [BitIter.beq_iff hf hn] at hbeq
      rw [if_neg (by
        intro hsame
        split_ifs at hsame
        · rw [← hsame, Int.add_mul] at hla; omega
        · rw [← hsame, Int.add_zero] at hla; omega)]
      by_cases hw1 : isWithin w first nFirst
      · rw [if_pos hw1]
        rw [isWithin_iff w first nFirst hf hn h1] at hw1
        rw [wp_bind, wp_distance]
        refine ⟨h1, ?_⟩
        obtain ⟨k, hk⟩ : ∃ k : Nat, nFirst.addr - first.addr = k := ⟨(nFirst.addr - first.addr).toNat, by omega⟩
        rw [hk, Int.toNat_natCast]
        refine wp_rotL S hf hl hm (by omega) (by omega) (by omega) (by omega) ?_
        intro m' r hr hra hrot
        exact hQ m' r hr (by omega) (hrot.onlyIn (by omega) (by omega) hm)
      · rw [if_neg hw1]
        rw [isWithin_iff w first nFirst hf hn h1] at hw1
        by_cases hw2 : isWithin w nFirst last
        · rw [if_pos hw2]
          rw [isWithin_iff w nFirst last hn hl (by omega)] at hw2
          rw [wp_bind, wp_distance]
          refine ⟨by omega, ?_⟩
          obtain ⟨k, hk⟩ : ∃ k : Nat, last.addr - nFirst.addr = k := ⟨(last.addr - nFirst.addr).toNat, by omega⟩
          rw [hk, Int.toNat_natCast]
          refine wp_rotR S hf hl hn hm (by omega) (by omega) (by omega) (by omega) (by omega) ?_
          intro m' hrot
          exact hQ m' _ (BitIter.add_valid hw _ _) (by rw [BitIter.add_addr hw]; omega) (hrot.onlyIn (by omega) (by omega) hm)
        · rw [if_neg hw2]
          unfold rotateViaRaw
          dsimp only
          rw [BitIter.diff_eq, BitIter.diff_eq]
          by_cases hhalf : nFirst.addr - first.addr = last.addr - first.addr - (nFirst.addr - first.addr)
          · rw [if_pos hhalf, wp_bind]
            refine wp_swapRanges S hf hn hn (by omega) (hm.sub (by omega) (by omega)) (hm.sub (by omega) (by omega)) (by omega) ?_
            intro m1 hs
            rw [wp_pure]
            exact hQ m1 nFirst hn (by omega) (hs.onlyIn (hm.sub (by omega) (by omega)) (hm.sub (by omega) (by omega))
              (by omega) (by omega) (by omega) (by omega) (by omega))
          · rw [if_neg hhalf, wp_bind]
            refine wp_rotLoop_frame S _ hf (by omega) (by omega) (by omega) (by omega) (hm.sub (by omega) (by omega)) ?_
            intro m1 hr
            rw [wp_pure, BitIter.diff_eq]
            exact hQ m1 _ (BitIter.add_valid hw _ _) (BitIter.add_addr hw _ _) (hr.mono (by omega) (by omega))

/-- `rotate(first, last, last)` where it works. -/
theorem wp_rotate_end (S : ShiftSem w) {first last : BitIter w} {m : Mem w} {Q : BitIter w → Mem w → Prop}
    (hf : first.Valid) (hl : last.Valid) (h1 : first.addr ≤ last.addr)
    (hok : first.addr = last.addr ∨ last.pos ≠ 0 ∨ (w < last.addr - first.addr ∧ (bitAt m last.addr).isSome))
    (hm : Mapped m first.addr last.addr) (hQ : Q first m) :
    wp (rotate S first last last) m Q := by
  have hf' : first.pos < w := hf
  have hl' : last.pos < w := hl
  have hw : 0 < w := by omega
  have hfa : first.addr = first.base * w + first.pos := rfl
  have hla : last.addr = last.base * w + last.pos := rfl
  unfold rotate
  rw [wp_bind, wp_assertViable]
  refine ⟨h1, ?_⟩
  rw [wp_bind, wp_assertViable]
  refine ⟨by omega, ?_⟩
  rw [wp_bind, wp_assertViable]
  refine ⟨by omega, ?_⟩
  by_cases hbeq : first.beq last
  · rw [if_pos hbeq, wp_pure]
    rw [BitIter.beq_iff hf hl] at hbeq
    rw [← BitIter.addr_inj hf hl hbeq]
    exact hQ
  · rw [if_neg hbeq]
    rw [BitIter.beq_iff hf hl] at hbeq
    have hbb := base_le_of_addr hl (by omega : first.addr ≤ last.addr)
    have hsomeL : last.pos ≠ 0 → (bitAt m last.addr).isSome := by
      intro h
      exact isSome_same_word hw (c := last.base) (i := last.addr - 1) (by omega) (by omega) (by omega) (by omega) (hm _ (by omega) (by omega))
    by_cases hsame : first.base + (if last.pos = 0 then 1 else 0) = last.base
    · rw [if_pos hsame]
      have hlp : last.pos ≠ 0 := by
        rcases hok with h | h | h
        · omega
        · exact h
        · intro h0
          rw [if_pos h0] at hsame
          rw [← hsame, Int.add_mul] at hla
          omega
      rw [if_neg hlp, Int.add_zero] at hsame
      rw [← hsame] at hla
      unfold rotateSingle
      rw [if_neg (by omega), if_neg hlp]
      dsimp only
      rw [subSize_le (by omega), subSize_le (by omega), wp_bind, wp_shl S (by omega), wp_bind,
        wp_shl S hf', wp_bind]
      refine wp_load_bits hw first.addr (by omega) (by omega) (hm _ (by omega) (by omega)) ?_
      intro x hx
      rw [wp_bind, wp_shr S (by omega), wp_bind, wp_shl S (by omega), wp_bind]
      refine wp_blendAt S (by omega) (by omega) (Or.inl (by omega)) (hm _ (by omega) (by omega)) ?_
      intro m' hm'
      rw [wp_pure]
      have hmask := maskShl_get (start := first.pos) (fun i (hi : i < w) => getLsbD_lowMask (w := w) (last.pos - first.pos) i hi)
      generalize (1#w <<< (last.pos - first.pos) - 1#w) <<< first.pos = msk at hm' hmask
      have e1 : first.add ((last.pos - last.pos : Nat) : Int) = first :=
        BitIter.addr_inj (BitIter.add_valid hw _ _) hf (by rw [BitIter.add_addr hw]; simp)
      have e2 : m' = m := by
        apply mem_ext_bitAt hw
        intro i
        rw [hm' i]
        beta_reduce
        split_ifs with hi
        · obtain ⟨j, hj⟩ : ∃ j : Nat, i = first.base * w + j := ⟨(i - first.base * w).toNat, by omega⟩
          subst hj
          rw [show (first.base * (w : Int) + j - first.base * w).toNat = j by omega, hx j (by omega),
            BitVec.getLsbD_or, BitVec.getLsbD_ushiftRight, BitVec.getLsbD_shiftLeft, BitVec.getLsbD_and, BitVec.getLsbD_and]
          have hz : (x.getLsbD (last.pos - first.pos + j) && msk.getLsbD (last.pos - first.pos + j)) = false := by
            by_cases hjw : last.pos - first.pos + j < w
            · rw [hmask _ hjw]
              simp [show ¬ last.pos - first.pos + j < first.pos + (last.pos - first.pos) by omega]
            · rw [BitVec.getLsbD_of_ge x _ (by omega)]; rfl
          rw [hz, Nat.sub_self, Nat.sub_zero, hmask j (by omega)]
          simp [show j < w by omega, show first.pos ≤ j ∧ j < first.pos + (last.pos - first.pos) by omega]
        · rfl
      rw [e1, e2]
      exact hQ
    · rw [if_neg hsame]
      by_cases hw1 : isWithin w first last
      · rw [if_pos hw1]
        rw [isWithin_iff w first last hf hl h1] at hw1
        rw [wp_bind, wp_distance]
        refine ⟨h1, ?_⟩
        obtain ⟨k, hk⟩ : ∃ k : Nat, last.addr - first.addr = k := ⟨(last.addr - first.addr).toNat, by omega⟩
        rw [hk, Int.toNat_natCast, wp_bind]
        refine wp_getWord S hf (by omega) (by omega) (hm.sub (by omega) (by omega)) ?_
        intro x hx
        rw [wp_bind]
        refine wp_shiftLeft S hf hl (by omega) hm (Or.inl ?_) (by omega) ?_ (by omega)
        · rintro ⟨hp, hd, _, _⟩; omega
        intro _ _
        rw [wp_bind]
        refine wp_writeWord S hf (by omega) (by omega) (hm.sub (by omega) (by omega)) ?_
        intro m2 hm2
        rw [wp_pure]
        have e2 : m2 = m := by
          apply mem_ext_bitAt hw
          intro i
          rw [hm2 i]
          beta_reduce
          split_ifs with hi
          · rw [← hx _ (by omega)]; congr 1; omega
          · rfl
        rw [e2]
        exact hQ
      · rw [if_neg hw1]
        rw [isWithin_iff w first last hf hl h1] at hw1
        rw [if_pos ((isWithin_iff w last last hl hl (by omega)).2 (by omega))]
        rw [wp_bind, wp_distance]
        refine ⟨by omega, ?_⟩
        have hsome : (bitAt m last.addr).isSome := by
          rcases hok with h | h | h
          · omega
          · exact hsomeL h
          · exact h.2
        rw [Int.sub_self]
        unfold getWord
        rw [wp_bind, wp_bind, wp_assert]
        refine ⟨by simp, ?_⟩
        dsimp only
        rw [wp_bind]
        refine wp_load_bits hw last.addr (by omega) (by omega) hsome ?_
        intro x hx
        rw [wp_bind, wp_shr S hl', if_pos (by simp), wp_pure, wp_bind]
        refine wp_shiftRight S hf hl h1 hm (Or.inl (by omega)) ?_ (by omega) (by omega)
        intro _
        rw [wp_bind]
        unfold writeWord
        rw [if_neg (by simp; omega), wp_bind, wp_shl S hf', wp_bind]
        refine wp_blendAt' S hf' (by simp; omega) (Or.inl (by simp; omega)) (hm _ (by omega) (by omega)) ?_
        intro m' hm'
        rw [if_neg (by simp), wp_pure, wp_pure]
        have e2 : m' = m := by
          apply mem_ext_bitAt hw
          intro i
          rw [hm' i, if_neg]
          simp
        rw [e2]
        exact hQ

/-- Right block of `w+1` bits, `2^32` blocks in front of it: the number of block swaps wraps to 0 and the range is rotated
the wrong way round. -/
theorem wp_rotate_wrap (S : ShiftSem w) {first nFirst last : BitIter w} {m : Mem w} {Q : BitIter w → Mem w → Prop}
    (hf : first.Valid) (hn : nFirst.Valid) (hl : last.Valid)
    (h1 : last.addr - first.addr = rotLimit w) (h2 : last.addr - nFirst.addr = w + 1)
    (hm : Mapped m first.addr last.addr)
    (hQ : ∀ m' (r : BitIter w), Rotated m m' first.addr (first.addr + (w + 1)) last.addr → Q r m') :
    wp (rotate S first nFirst last) m Q := by
  have hf' : first.pos < w := hf
  have hl' : last.pos < w := hl
  have hw : 0 < w := by omega
  have hfa : first.addr = first.base * w + first.pos := rfl
  have hla : last.addr = last.base * w + last.pos := rfl
  have hlim : rotLimit w = (2 ^ 32 + 1) * ((w : Int) + 1) := rfl
  unfold rotate
  rw [wp_bind, wp_assertViable]
  refine ⟨by omega, ?_⟩
  rw [wp_bind, wp_assertViable]
  refine ⟨by omega, ?_⟩
  rw [wp_bind, wp_assertViable]
  refine ⟨by omega, ?_⟩
  have hbeq : ¬ first.beq nFirst := by rw [BitIter.beq_iff hf hn]; omega
  rw [if_neg hbeq]
  rw [if_neg (by
    intro hsame
    split_ifs at hsame
    · rw [← hsame, Int.add_mul] at hla; omega
    · rw [← hsame, Int.add_zero] at hla; omega)]
  rw [if_neg (by rw [isWithin_iff w first nFirst hf hn (by omega)]; omega),
    if_neg (by rw [isWithin_iff w nFirst last hn hl (by omega)]; omega)]
  unfold rotateViaRaw
  dsimp only
  rw [BitIter.diff_eq, BitIter.diff_eq, if_neg (by omega), wp_bind]
  unfold rotLoop
  rw [if_neg (by omega)]
  dsimp only
  generalize hk2 : last.addr - first.addr - (nFirst.addr - first.addr) = k2
  have hk2w : k2 = w + 1 := by omega
  rw [if_neg (by omega)]
  have hn' : last.addr - first.addr - k2 = 2 ^ 32 * k2 := by rw [h1, hlim, ← hk2w, Int.add_mul]; omega
  have hfs : (Int.tdiv (last.addr - first.addr - k2) k2) % 2 ^ 32 = 0 := by
    rw [hn', Int.mul_tdiv_cancel _ (by omega)]
    decide
  rw [hfs]
  show wp (rotBwdSwaps S k2 0 _ _ >>= _) m _
  unfold rotBwdSwaps
  rw [wp_bind, wp_pure]
  dsimp only
  generalize hrem : last.addr - first.addr - k2 - 0 * k2 = rem
  have e1 := BitIter.add_addr hw first (last.addr - first.addr)
  have e2 := BitIter.sub_addr hw (first.add (last.addr - first.addr)) k2
  have e3 := BitIter.sub_addr hw ((first.add (last.addr - first.addr)).sub k2) rem
  have e4 := BitIter.sub_addr hw (first.add (last.addr - first.addr)) rem
  have e5 := BitIter.add_addr hw (((first.add (last.addr - first.addr)).sub k2).sub rem) rem
  rw [wp_bind]
  refine wp_swapRanges S (BitIter.sub_valid hw _ _) (BitIter.add_valid hw _ _) (BitIter.sub_valid hw _ _) (by omega)
    (hm.sub (by omega) (by omega)) (hm.sub (by omega) (by omega)) (by omega) ?_
  intro m2 hs
  have hs' : SwapSeq m m2 first.addr (first.addr + k2) (last.addr - first.addr - k2) := hs.congr (by omega) (by omega) (by omega)
  have htm : Int.tmod (last.addr - first.addr) k2 = 0 := by
    rw [show last.addr - first.addr = (2 ^ 32 + 1) * k2 by rw [h1, hlim, hk2w], Int.mul_tmod_left]
  rw [htm, if_pos rfl, wp_pure, wp_pure]
  apply hQ
  intro i
  rw [hs' i, swapSeq_adjacent _ _ _ (by omega)]
  split_ifs <;> first | rfl | (exfalso; omega) | (congr 1; omega) | skip
  rename_i c1 c2 c3
  congr 1
  have : (i - first.addr) % k2 = i - first.addr - (last.addr - first.addr - k2) := by
    rw [hn']
    generalize hj : i - first.addr - 2 ^ 32 * k2 = j
    rw [show i - first.addr = j + k2 * 2 ^ 32 by rw [Int.mul_comm]; omega, Int.add_mul_emod_self_left]
    exact Int.emod_eq_of_lt (by omega) (by omega)
  omega

/-- Left block of `w+1` bits, `2^32` blocks behind it: the number of block swaps wraps to 0 as well, but here the single overlapping
swap does the right thing. -/
theorem wp_rotate_wrap_fwd (S : ShiftSem w) {first nFirst last : BitIter w} {m : Mem w} {Q : BitIter w → Mem w → Prop}
    (hf : first.Valid) (hn : nFirst.Valid) (hl : last.Valid)
    (h1 : last.addr - first.addr = rotLimit w) (h2 : nFirst.addr - first.addr = w + 1)
    (hm : Mapped m first.addr last.addr)
    (hQ : ∀ m' (r : BitIter w), Rotated m m' first.addr nFirst.addr last.addr → Q r m') :
    wp (rotate S first nFirst last) m Q := by
  have hf' : first.pos < w := hf
  have hl' : last.pos < w := hl
  have hw : 0 < w := by omega
  have hfa : first.addr = first.base * w + first.pos := rfl
  have hla : last.addr = last.base * w + last.pos := rfl
  have hlim : rotLimit w = (2 ^ 32 + 1) * ((w : Int) + 1) := rfl
  unfold rotate
  rw [wp_bind, wp_assertViable]
  refine ⟨by omega, ?_⟩
  rw [wp_bind, wp_assertViable]
  refine ⟨by omega, ?_⟩
  rw [wp_bind, wp_assertViable]
  refine ⟨by omega, ?_⟩
  have hbeq : ¬ first.beq nFirst := by rw [BitIter.beq_iff hf hn]; omega
  rw [if_neg hbeq]
  rw [if_neg (by
    intro hsame
    split_ifs at hsame
    · rw [← hsame, Int.add_mul] at hla; omega
    · rw [← hsame, Int.add_zero] at hla; omega)]
  rw [if_neg (by rw [isWithin_iff w first nFirst hf hn (by omega)]; omega),
    if_neg (by rw [isWithin_iff w nFirst last hn hl (by omega)]; omega)]
  unfold rotateViaRaw
  dsimp only
  rw [BitIter.diff_eq, BitIter.diff_eq, if_neg (by omega), wp_bind]
  unfold rotLoop
  rw [if_pos (by omega), if_neg (by omega)]
  dsimp only
  rw [h2]
  generalize hk2w : (w : Int) + 1 = k2
  have hn' : last.addr - first.addr - k2 = 2 ^ 32 * k2 := by rw [h1, hlim, hk2w, Int.add_mul]; omega
  have hfs : (Int.tdiv (last.addr - first.addr - k2) k2) % 2 ^ 32 = 0 := by
    rw [hn', Int.mul_tdiv_cancel _ (by omega)]
    decide
  rw [hfs]
  show wp (rotFwdSwaps S k2 0 _ _ >>= _) m _
  unfold rotFwdSwaps
  rw [wp_bind, wp_pure]
  dsimp only
  generalize hrem : last.addr - first.addr - k2 - 0 * k2 = rem
  have e1 := BitIter.add_addr hw first k2
  have e2 := BitIter.add_addr hw first rem
  rw [wp_bind]
  refine wp_swapRanges S hf (BitIter.add_valid hw _ _) (BitIter.add_valid hw _ _) (by omega)
    (hm.sub (by omega) (by omega)) (hm.sub (by omega) (by omega)) (by omega) ?_
  intro m2 hs
  have hs' : SwapSeq m m2 first.addr (first.addr + k2) (last.addr - first.addr - k2) := hs.congr (by omega) (by omega) (by omega)
  have htm : Int.tmod (last.addr - first.addr) k2 = 0 := by
    rw [show last.addr - first.addr = (2 ^ 32 + 1) * k2 by rw [h1, hlim, hk2w], Int.mul_tmod_left]
  rw [htm, if_pos rfl, wp_pure, wp_pure]
  apply hQ
  intro i
  rw [hs' i, swapSeq_adjacent _ _ _ (by omega)]
  split_ifs <;> first | rfl | (exfalso; omega) | (congr 1; omega) | skip
  rename_i c1 c2 c3
  congr 1
  have : (i - first.addr) % k2 = i - first.addr - (last.addr - first.addr - k2) := by
    rw [hn']
    generalize hj : i - first.addr - 2 ^ 32 * k2 = j
    rw [show i - first.addr = j + k2 * 2 ^ 32 by rw [Int.mul_comm]; omega, Int.add_mul_emod_self_left]
    exact Int.emod_eq_of_lt (by omega) (by omega)
  omega

/-- A right part of more than `w` bits and a left part of at least `2^32` times as many: `unsigned int full_swaps` overflows, and the bit
that should have come from the beginning of the range comes from `2 * (last - n_first)` bits after the beginning. -/
theorem wp_rotLoop_overflow (S : ShiftSem w) {fuel : Nat} {p : BitIter w} {k n : Int} {m : Mem w} {Q : Unit → Mem w → Prop}
    (hp : p.Valid) (hf : n ≤ fuel) (hkn : k < n) (hwn : (w : Int) < n - k) (hov : 2 ^ 32 * (n - k) ≤ k)
    (hm : Mapped m p.addr (p.addr + n))
    (hQ : ∀ m', bitAt m' (p.addr + (n - k)) = bitAt m (p.addr + 2 * (n - k)) → Q () m') :
    wp (rotLoop S (fuel + 1) p k n) m Q := by
  have hw : 0 < w := Nat.lt_of_le_of_lt (Nat.zero_le _) hp
  have hpn := BitIter.add_addr hw p n
  unfold rotLoop
  rw [if_neg (by omega)]
  dsimp only
  generalize hk2 : n - k = k2 at *
  have hpk := BitIter.sub_addr hw (p.add n) k2
  rw [if_neg (by omega)]
  have hk : k = n - k2 := by omega
  rw [hk] at hov
  have htd : Int.tdiv (n - k2) k2 = (n - k2) / k2 := Int.tdiv_eq_ediv_of_nonneg (by omega)
  have hqk := Int.emod_add_mul_ediv (n - k2) k2
  have hr0 : 0 ≤ (n - k2) % k2 := Int.emod_nonneg _ (by omega)
  have hq : 2 ^ 32 ≤ (n - k2) / k2 := (Int.le_ediv_iff_mul_le (by omega)).mpr hov
  generalize hfs : (Int.tdiv (n - k2) k2) % 2 ^ 32 = fs
  rw [htd] at hfs
  have hfs0 : 0 ≤ fs := by rw [← hfs]; exact Int.emod_nonneg _ (by decide)
  have hfsq : fs ≤ (n - k2) / k2 - 2 ^ 32 := by omega
  have hfst : (fs.toNat : Int) = fs := by omega
  have hfsk0 : 0 ≤ fs * k2 := Int.mul_nonneg hfs0 (by omega)
  have hbig : 2 ^ 32 * k2 ≤ n - k2 - fs * k2 := by
    have h1 : fs * k2 ≤ ((n - k2) / k2 - 2 ^ 32) * k2 := Int.mul_le_mul_of_nonneg_right hfsq (by omega)
    rw [Int.sub_mul, Int.mul_comm ((n - k2) / k2)] at h1
    omega
  generalize hrem : n - k2 - fs * k2 = rem at *
  rw [wp_bind]
  refine wp_rotBwdSwaps S (k := k2) (e := p.addr + n) (m0 := m) (by omega) fs.toNat (BitIter.sub_valid hw _ _) (BitIter.add_valid hw _ _)
    (by omega) (by omega) ?_ ?_ ?_
  · rw [hfst]; exact hm.sub (by omega) (by omega)
  · intro i
    split_ifs <;> first | rfl | (exfalso; omega) | (congr 1; omega)
  intro m1 p1 q1 hp1 hq1 hpa hqa h1 sm1
  rw [hfst] at hpa hqa
  have hm1 := sm1.mapped hm
  dsimp only
  have hp1r := BitIter.sub_addr hw p1 rem
  have hq1r := BitIter.sub_addr hw q1 rem
  have hp1e := BitIter.add_addr hw (p1.sub rem) rem
  rw [wp_bind]
  refine wp_swapRanges S (BitIter.sub_valid hw _ _) (BitIter.add_valid hw _ _) (BitIter.sub_valid hw _ _) (by omega)
    (hm1.sub (by omega) (by omega)) (hm1.sub (by omega) (by omega)) (by omega) ?_
  intro m2 h2
  have h2' : SwapSeq m1 m2 p.addr (p.addr + k2) rem := h2.congr (by omega) (by omega) (by omega)
  have sm2 := h2.sameMapped (hm1.sub (by omega) (by omega)) (hm1.sub (by omega) (by omega))
  have hb : bitAt m2 (p.addr + k2) = bitAt m (p.addr + 2 * k2) := by
    rw [h2' _, swapSeq_adjacent _ _ _ (by omega), if_pos (by omega), h1, if_neg (by omega), if_neg (by omega)]
    congr 1; omega
  have hn0 : 0 ≤ n % k2 := Int.emod_nonneg _ (by omega)
  have hnk : n % k2 < k2 := Int.emod_lt_of_pos _ (by omega)
  rw [show Int.tmod n k2 = n % k2 from Int.tmod_eq_emod_of_nonneg (by omega)]
  by_cases hz : n % k2 = 0
  · rw [if_pos hz, wp_pure]
    exact hQ _ hb
  · rw [if_neg hz]
    refine wp_rotLoop_frame S fuel (BitIter.sub_valid hw _ _) (by omega) (by omega) (by omega) (by omega)
      ((sm2.mapped hm1).sub (by omega) (by omega)) ?_
    intro m3 h3
    apply hQ
    rw [h3.1 _ (by omega), hb]

theorem wp_rotate_overflow (S : ShiftSem w) {first nFirst last : BitIter w} {m : Mem w} {Q : BitIter w → Mem w → Prop}
    (hf : first.Valid) (hn : nFirst.Valid) (hl : last.Valid)
    (h1 : (w : Int) < last.addr - nFirst.addr) (h2 : 2 ^ 32 * (last.addr - nFirst.addr) ≤ nFirst.addr - first.addr)
    (hm : Mapped m first.addr last.addr)
    (hQ : ∀ m' (r : BitIter w),
      bitAt m' (first.addr + (last.addr - nFirst.addr)) = bitAt m (first.addr + 2 * (last.addr - nFirst.addr)) → Q r m') :
    wp (rotate S first nFirst last) m Q := by
  have hf' : first.pos < w := hf
  have hl' : last.pos < w := hl
  have hw : 0 < w := by omega
  have hfa : first.addr = first.base * w + first.pos := rfl
  have hla : last.addr = last.base * w + last.pos := rfl
  unfold rotate
  rw [wp_bind, wp_assertViable]
  refine ⟨by omega, ?_⟩
  rw [wp_bind, wp_assertViable]
  refine ⟨by omega, ?_⟩
  rw [wp_bind, wp_assertViable]
  refine ⟨by omega, ?_⟩
  have hbeq : ¬ first.beq nFirst := by rw [BitIter.beq_iff hf hn]; omega
  rw [if_neg hbeq]
  rw [if_neg (by
    intro hsame
    split_ifs at hsame
    · rw [← hsame, Int.add_mul] at hla; omega
    · rw [← hsame, Int.add_zero] at hla; omega)]
  rw [if_neg (by rw [isWithin_iff w first nFirst hf hn (by omega)]; omega),
    if_neg (by rw [isWithin_iff w nFirst last hn hl (by omega)]; omega)]
  unfold rotateViaRaw
  dsimp only
  rw [BitIter.diff_eq, BitIter.diff_eq, if_neg (by omega), wp_bind]
  have e : last.addr - first.addr - (nFirst.addr - first.addr) = last.addr - nFirst.addr := by omega
  refine wp_rotLoop_overflow S hf (by omega) (by omega) (by rwa [e]) (by rwa [e]) (hm.sub (by omega) (by omega)) ?_
  intro m' hb
  rw [wp_pure]
  rw [e] at hb
  exact hQ _ _ hb

end BitLib
