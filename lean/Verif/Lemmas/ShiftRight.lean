import Verif.Lemmas.ShiftLeft
/- Proofs for `shift_right`. -/
namespace BitLib
variable {w : Nat}

/-- A mapped bit makes its whole word mapped. -/
theorem Mapped.word_start {m : Mem w} {it : BitIter w} {b : Int} (hv : it.Valid) (hm : Mapped m it.addr b)
    (hlt : it.addr < b) : Mapped m (it.base * w) b := by
  have hv' : it.pos < w := hv
  have hw : 0 < w := by omega
  have ha : it.addr = it.base * w + it.pos := rfl
  intro i h1 h2
  by_cases h : it.addr ≤ i
  · exact hm i h h2
  · obtain ⟨x, hx⟩ := mapped_word hw (a := it.base) (by omega) (by omega) (hm it.addr (by omega) hlt)
    rw [bitAt_of_word hx h1 (by omega)]
    rfl

theorem wp_shiftRightLoop (S : ShiftSem w) {offset : Nat} {fb : Int} (h0 : 0 < offset) (ho : offset < w) :
    ∀ (fuel : Nat) {lbp mbp : Int} {m : Mem w} {Q : Int × Int → Mem w → Prop},
    (mbp - fb < fuel) → fb ≤ mbp → mbp < lbp → Mapped m (fb * w) (lbp * w + w) →
    Mapped m (fb * w) (mbp * w + w + offset) →
    (∀ m', Copied m m' (fb * w + w + offset) ((lbp - (mbp - fb)) * w + w) ((mbp - fb) * w) →
      Q (lbp - (mbp - fb), fb) m') →
    wp (shiftRightLoop S offset fb fuel lbp mbp) m Q := by
  have hw : 0 < w := by omega
  intro fuel
  induction fuel with
  | zero => intro lbp mbp m Q hfu hlt; omega
  | succ fuel ih =>
    intro lbp mbp m Q hfu hlt hle hm hms hQ
    unfold shiftRightLoop
    have e1 : (mbp + 1) * (w : Int) = mbp * w + w := by ring
    have e1' : (mbp - 1) * (w : Int) = mbp * w - w := by ring
    have e2 : (lbp - 1) * (w : Int) = lbp * w - w := by ring
    have e5 : (mbp - fb) * (w : Int) = mbp * w - fb * w := by ring
    have e6 : (lbp - (mbp - fb)) * (w : Int) = lbp * w - (mbp * w - fb * w) := by ring
    have b1 := base_lt_mul (w := w) hle
    rw [e5, e6] at hQ
    by_cases h : mbp > fb
    · have b2 := base_lt_mul (w := w) h
      rw [if_pos h, wp_bind]
      refine wp_load_bits hw (mbp * w) (by omega) (by omega) (hm _ (by omega) (by omega)) ?_
      intro x hx
      rw [wp_bind]
      refine wp_load_bits hw ((mbp + 1) * w) (by omega) (by omega) (hms _ (by omega) (by omega)) ?_
      intro y hy
      rw [wp_bind]
      refine wp_shrd S h0 ho ?_
      intro z hz
      rw [wp_bind]
      refine wp_store_bits hw (lbp * w) (by omega) (by omega) (hm _ (by omega) (by omega)) ?_
      intro m1 hm1
      have h1 : Copied m m1 (mbp * w + offset) (lbp * w) w := by
        refine copied_of_wrote hm1 ?_
        intro k hk
        rw [show (lbp * (w : Int) + (k : Int) - lbp * (w : Int)).toNat = k by omega, hz k hk]
        split_ifs with hc
        · rw [show mbp * (w : Int) + offset + k = mbp * w + ((offset + k : Nat) : Int) by omega, hx _ (by omega)]
        · rw [show mbp * (w : Int) + offset + k = (mbp + 1) * w + ((k - (w - offset) : Nat) : Int) by omega,
            hy _ (by omega)]
      have hs : Mapped m (mbp * w + offset) (mbp * w + offset + w) := hms.sub (by omega) (by omega)
      refine ih (by omega) (by omega) (by omega) ?_ ?_ ?_
      · rw [e2]
        exact (h1.mapped hs hm).sub (by omega) (by omega)
      · rw [e1']
        exact (h1.mapped hs hms).sub (by omega) (by omega)
      · intro m2 h2
        have e3 : (mbp - 1 - fb) * (w : Int) = mbp * w - fb * w - w := by ring
        have e4 : (lbp - 1 - (mbp - 1 - fb)) * (w : Int) = lbp * w - (mbp * w - fb * w) := by ring
        rw [e3, e4] at h2
        have h1' := h1.congr (s' := fb * w + w + offset + (mbp * w - fb * w - w))
          (d' := lbp * w - (mbp * w - fb * w) + w + (mbp * w - fb * w - w)) (n' := (w : Int)) (by omega) (by omega) rfl
        have := hQ m2 ((h1'.compBack (by omega) (by omega) h2 (by omega)).congr rfl rfl (by omega))
        rwa [show lbp - 1 - (mbp - 1 - fb) = lbp - (mbp - fb) by omega]
    · rw [if_neg h, wp_pure]
      have hz : mbp = fb := by omega
      subst hz
      have := hQ m (Copied.zero.congr rfl rfl (by omega))
      rwa [Int.sub_self, Int.sub_zero] at this

theorem wp_shiftRightTail (S : ShiftSem w) {first middle last : BitIter w} {n : Int} {m : Mem w}
    {Q : BitIter w → Mem w → Prop}
    (hf : first.Valid) (hmi : middle.Valid) (hn : 0 < n)
    (h1 : first.addr ≤ middle.addr) (h2 : middle.addr < first.addr + w)
    (hmid : last.addr = middle.addr + n) (hm : Mapped m first.addr last.addr)
    (hQ : ∀ m', Copied m m' first.addr (first.addr + n) (middle.addr - first.addr) → Q (first.add n) m') :
    wp (shiftRightTail S first middle last n) m Q := by
  have hf' : first.pos < w := hf
  have hmi' : middle.pos < w := hmi
  have hw : 0 < w := by omega
  have hfa : first.addr = first.base * w + first.pos := rfl
  have hma : middle.addr = middle.base * w + middle.pos := rfl
  unfold shiftRightTail
  by_cases hp : first.pos ≠ middle.pos
  · rw [if_pos hp, wp_bind, wp_distance]
    refine ⟨h1, ?_⟩
    obtain ⟨k, hk⟩ : ∃ k : Nat, middle.addr - first.addr = k := ⟨(middle.addr - first.addr).toNat, by omega⟩
    have hk0 : 0 < k := by
      by_contra hc
      have : middle = first := BitIter.addr_inj hmi hf (by omega)
      exact hp (by rw [this])
    rw [hk, Int.toNat_natCast, wp_bind]
    refine wp_getWord S hf (by omega) hk0 (hm.sub (by omega) (by omega)) ?_
    intro x hx
    rw [wp_bind]
    have ea := BitIter.sub_addr hw last k
    refine wp_writeWord S (BitIter.sub_valid hw _ _) (by omega) hk0 ?_ ?_
    · rw [ea]; exact hm.sub (by omega) (by omega)
    intro m' hm'
    rw [wp_pure]
    apply hQ
    rw [ea] at hm'
    refine (copied_of_wrote (s := first.addr) hm' ?_).congr rfl (by omega) (by omega)
    intro j hj
    rw [hx j hj]
    congr 2; omega
  · rw [if_neg hp, wp_pure]
    apply hQ
    have hb : first.base = middle.base := by
      by_contra hc
      rcases Int.lt_or_gt_of_ne hc with h | h
      · have := base_lt_mul (w := w) h; omega
      · have := base_lt_mul (w := w) h; omega
    have : middle.addr = first.addr := by rw [hma, hfa, hb]; omega
    exact Copied.zero.congr rfl rfl (by omega)

theorem wp_stdCopyBackwardN' (hw : 0 < w) (n : Nat) {s d : Int} {m : Mem w} {Q : Int → Mem w → Prop}
    (hm1 : Mapped m (s * w - n * w) (s * w)) (hm2 : Mapped m (d * w - n * w) (d * w))
    (hov : s * w ≤ d * w)
    (hQ : ∀ r m', Copied m m' (s * w - n * w) (d * w - n * w) (n * w) → Q r m') : wp (stdCopyBackwardN n s d) m Q := by
  refine wp_stdCopyBackwardN hw n hm1 hm2 (Or.inl hov) ?_
  intro m' hm'
  exact hQ _ m' (copied_of_mapd hm')

theorem ShiftedRAll.of_copied {m m' : Mem w} {a b n e : Int} (hmany : ¬ a / (w : Int) = (b - 1) / w)
    (he : leaked w a b n = e)
    (h : Copied m m' (a - e) (a + n - e) (b - a - n + e)) : ShiftedRAll m m' a b n := by
  intro i
  rw [h i, he]
  by_cases h1 : a + n - e ≤ i ∧ i < b
  · rw [if_pos h1, if_pos (by omega)]
    beta_reduce
    rw [show a - e + (i - (a + n - e)) = i - n by omega]
  · rw [if_neg h1, if_neg (by omega), if_neg (by tauto)]

theorem sub_ediv_of_dvd {k n : Int} {r : Nat} (hr : r < w) (h1 : n % (w : Int) = 0) :
    (k * (w : Int) + r - n) / (w : Int) = k - n / w := by
  have hn : n = n / w * w := by have := Int.emod_add_mul_ediv n w; rw [Int.mul_comm] at this; omega
  rw [show k * (w : Int) + r - n = (k - n / w) * w + r by rw [Int.sub_mul, ← hn]; omega,
    mul_add_ediv (by omega) (by omega) (by omega)]

/-- The bits that stay in the range end in the word of `first`: nothing leaks. -/
theorem leak_none {first last : BitIter w} {n : Int} (hl : last.Valid)
    (h : last.addr - n - first.addr ≤ last.pos) (h1 : n % (w : Int) = 0)
    (h2 : first.addr / (w : Int) < (last.addr - n) / (w : Int)) : False := by
  have hl' : last.pos < w := hl
  have hla : last.addr = last.base * w + last.pos := rfl
  have hn : n = n / w * w := by have := Int.emod_add_mul_ediv n w; rw [Int.mul_comm] at this; omega
  rw [hla, sub_ediv_of_dvd hl' h1] at h2
  have : (last.base - n / w) * (w : Int) ≤ first.addr := by rw [Int.sub_mul, ← hn]; omega
  have := (Int.le_ediv_iff_mul_le (show 0 < (w : Int) by omega)).2 this
  omega

/-- What leaks, in the terms of the code: the bits before `first` of its word, when `middle` is at the start of a word. -/
theorem leak_mid {first middle last : BitIter w} {n : Int} (hf : first.Valid) (hmi : middle.Valid) (hl : last.Valid)
    (h0 : 0 < n) (h : middle.addr = last.addr - last.pos - n) (hlt : first.addr < middle.addr) :
    leaked w first.addr last.addr n = if middle.pos = 0 then (first.pos : Int) else 0 := by
  have hf' : first.pos < w := hf
  have hm' : middle.pos < w := hmi
  have hl' : last.pos < w := hl
  have hfa : first.addr = first.base * w + first.pos := rfl
  have hla : last.addr = last.base * w + last.pos := rfl
  have hma : middle.addr = middle.base * w + middle.pos := rfl
  have hiff : n % (w : Int) = 0 ↔ middle.pos = 0 := by
    have hn : n = (last.base - middle.base) * w - middle.pos := by rw [Int.sub_mul]; omega
    constructor
    · intro h0
      have hd : (w : Int) ∣ n := Int.dvd_of_emod_eq_zero h0
      have : (w : Int) ∣ middle.pos := by
        rw [show (middle.pos : Int) = (last.base - middle.base) * w - n by omega]
        exact Int.dvd_sub (Int.dvd_mul_left _ _) hd
      have := Int.eq_zero_of_dvd_of_nonneg_of_lt (by omega) (by omega) this
      omega
    · intro h0
      rw [hn, h0, show ((0 : Nat) : Int) = 0 from rfl, Int.sub_zero, Int.mul_emod_left]
  unfold leaked
  rw [show first.addr % (w : Int) = first.pos by rw [hfa, mul_add_emod (by omega) (by omega)]]
  have hn0 := h0
  by_cases h0 : middle.pos = 0
  · rw [if_pos h0, if_pos]
    refine ⟨hn0, hiff.2 h0, ?_⟩
    rw [hla, sub_ediv_of_dvd hl' (hiff.2 h0), hfa, mul_add_ediv (by omega) (by omega) (by omega)]
    have hn : n = n / w * w := by have := Int.emod_add_mul_ediv n w; rw [Int.mul_comm] at this; have := hiff.2 h0; omega
    by_contra hc
    have := base_le_mul (w := w) (a := last.base - n / w) (b := first.base) (by omega)
    rw [Int.sub_mul, ← hn] at this
    omega
  · rw [if_neg h0, if_neg (by tauto)]

theorem wp_shiftRightMain (S : ShiftSem w) {first middle last : BitIter w} {n : Int} {m : Mem w}
    {Q : BitIter w → Mem w → Prop}
    (hf : first.Valid) (hmi : middle.Valid) (hl : last.Valid) (hn : 0 < n) (hp : last.pos = 0)
    (hmid : middle.addr = last.addr - n) (hlt : first.addr < middle.addr) (hm : Mapped m (first.base * w) last.addr)
    (hQ : ∀ m' (e : Int), 0 ≤ e → e ≤ n → e ≤ first.pos → e = (if middle.pos = 0 then (first.pos : Int) else 0) →
      Copied m m' (first.addr - e) (first.addr + n - e) (middle.addr - first.addr + e) → Q (first.add n) m') :
    wp (shiftRightMain S first middle last n) m Q := by
  have hf' : first.pos < w := hf
  have hmi' : middle.pos < w := hmi
  have hl' : last.pos < w := hl
  have hw : 0 < w := by omega
  have hfa : first.addr = first.base * w + first.pos := rfl
  have hma : middle.addr = middle.base * w + middle.pos := rfl
  have hla : last.addr = last.base * w := by
    show last.base * (w : Int) + last.pos = _; omega
  have hb0 : first.base ≤ middle.base := base_le_of_addr hmi (by omega)
  have hb0m := base_le_mul (w := w) hb0
  unfold shiftRightMain
  dsimp only
  by_cases ho : middle.pos = 0
  · rw [if_pos ho]
    have hdiv : Int.tdiv n w = last.base - middle.base := by
      have : n = (last.base - middle.base) * w := by rw [Int.sub_mul]; omega
      rw [this, Int.mul_tdiv_cancel _ (by omega)]
    have hgt : first.base < middle.base := by
      by_contra hc
      have : first.base = middle.base := by omega
      rw [this] at hfa
      omega
    have hgt2 : middle.base < last.base := by
      by_contra hc
      have := base_le_mul (w := w) (a := last.base) (b := middle.base) (by omega)
      omega
    have hgt2m := base_lt_mul (w := w) hgt2
    rw [hdiv, wp_bind]
    unfold wordShiftRight
    rw [if_neg (by omega), if_neg (by omega)]
    unfold stdCopyBackward
    rw [show last.base - (last.base - middle.base) = middle.base by omega, wp_bind, wp_bind, wp_wordDist]
    refine ⟨by omega, ?_⟩
    obtain ⟨N, hN⟩ : ∃ N : Nat, middle.base = first.base + N := ⟨(middle.base - first.base).toNat, by omega⟩
    have hNw : middle.base * (w : Int) = first.base * w + N * w := by rw [hN]; ring
    have hNpos : 0 ≤ (N : Int) * w := Int.mul_nonneg (by omega) (by omega)
    rw [show (middle.base - first.base).toNat = N by omega]
    refine wp_stdCopyBackwardN' hw N (hm.sub (by omega) (by omega)) (hm.sub (by omega) (by omega)) (by omega) ?_
    intro r m1 h1
    rw [wp_pure, wp_pure]
    exact hQ m1 first.pos (by omega) (by omega) (by omega) (by rw [if_pos ho]) (h1.congr (by omega) (by omega) (by omega))
  · rw [if_neg ho, wp_bind, wp_distance]
    refine ⟨by omega, ?_⟩
    by_cases hdm : middle.addr - first.addr ≥ w
    · rw [if_pos hdm, wp_bind]
      unfold shiftRightWords
      rw [wp_bind]
      have e1 : (last.base - 1) * (w : Int) = last.base * w - w := by ring
      have e2 : (middle.base - 1) * (w : Int) = middle.base * w - w := by ring
      have hb1 : first.base ≤ middle.base - 1 := by
        by_contra hc
        have := base_le_mul (w := w) (a := middle.base) (b := first.base) (by omega)
        omega
      have hb2 : middle.base < last.base := by
        by_contra hc
        have := base_le_mul (w := w) (a := last.base) (b := middle.base) (by omega)
        omega
      refine wp_shiftRightLoop S (by omega) hmi' _ (by omega) hb1 (by omega) (hm.sub (by omega) (by omega))
        (hm.sub (by omega) (by omega)) ?_
      intro m1 h1
      have e3 : (last.base - 1 - (middle.base - 1 - first.base)) * (w : Int)
          = last.base * w - (middle.base * w - first.base * w) := by ring
      have e4 : (middle.base - 1 - first.base) * (w : Int) = middle.base * w - first.base * w - w := by ring
      have e5 : (first.base + 1) * (w : Int) = first.base * w + w := by ring
      have b3 := base_lt_mul (w := w) (a := first.base) (b := middle.base) (by omega)
      rw [e3, e4] at h1
      have hm1 : Mapped m1 (first.base * w) last.addr := h1.mapped (hm.sub (by omega) (by omega)) hm
      dsimp only
      by_cases hpp : first.pos ≤ middle.pos
      · rw [if_pos hpp, wp_bind]
        refine wp_load_bits hw (first.base * w) (by omega) (by omega) (hm1 _ (by omega) (by omega)) ?_
        intro x hx
        rw [wp_bind]
        refine wp_load_bits hw ((first.base + 1) * w) (by omega) (by omega) (hm1 _ (by omega) (by omega)) ?_
        intro y hy
        rw [wp_bind]
        refine wp_shrd S (by omega) hmi' ?_
        intro z hz
        rw [wp_bind]
        refine wp_store_bits hw ((last.base - 1 - (middle.base - 1 - first.base)) * w) (by omega) (by omega)
          (hm1 _ (by omega) (by omega)) ?_
        intro m2 hm2
        rw [e3] at hm2
        have h2 := copied_of_wrote (s := first.base * w + middle.pos) hm2 (by
          intro k hk
          rw [show (last.base * (w : Int) - (middle.base * w - first.base * w) + (k : Int) -
            (last.base * (w : Int) - (middle.base * w - first.base * w))).toNat = k by omega, hz k hk]
          split_ifs with hc
          · rw [show first.base * (w : Int) + middle.pos + k = first.base * w + ((middle.pos + k : Nat) : Int) by omega, hx _ (by omega)]
          · rw [show first.base * (w : Int) + middle.pos + k = (first.base + 1) * w + ((k - (w - middle.pos) : Nat) : Int) by omega,
              hy _ (by omega)])
        have h12 := (h1.congr (s' := first.base * w + middle.pos + w) (n' := middle.base * w - first.base * w - w)
          (by omega) rfl rfl).compBack (by omega) (by omega) h2 (by omega)
        have hm2m : Mapped m2 (first.base * w) last.addr := h12.mapped (hm.sub (by omega) (by omega)) hm
        rw [wp_bind, wp_pure]
        dsimp only
        rw [wp_pure]
        dsimp only
        have ea1 : (⟨first.base - 1 + 1, middle.pos⟩ : BitIter w).addr = first.base * w + middle.pos := by
          show (first.base - 1 + 1) * (w : Int) + (middle.pos : Nat) = _
          rw [Int.sub_add_cancel]
        have ea2 : (⟨last.base - 1 - (middle.base - 1 - first.base) - 1 + 1, last.pos⟩ : BitIter w).addr
            = last.base * w - (middle.base * w - first.base * w) := by
          show (last.base - 1 - (middle.base - 1 - first.base) - 1 + 1) * (w : Int) + (last.pos : Nat) = _
          rw [Int.sub_add_cancel]; omega
        refine wp_shiftRightTail S hf (show middle.pos < w from hmi') hn (by rw [ea1]; omega) (by rw [ea1]; omega)
          (by rw [ea1, ea2]; omega) ?_ ?_
        · rw [ea2]; exact hm2m.sub (by omega) (by omega)
        intro m3 h3
        rw [ea1] at h3
        refine hQ m3 0 (by omega) (by omega) (by omega) (by rw [if_neg ho]) ?_
        have h12' := h12.congr (s' := first.addr + (first.base * w + middle.pos - first.addr))
          (d' := first.addr + n + (first.base * w + middle.pos - first.addr))
          (n' := middle.base * w - first.base * w) (by omega) (by omega) (by omega)
        exact (h12'.compBack (by omega) (by omega) h3 (by omega)).congr (by omega) (by omega) (by omega)
      · rw [if_neg hpp, wp_bind, wp_pure]
        dsimp only
        rw [wp_pure]
        dsimp only
        have ea1 : (⟨first.base + 1, middle.pos⟩ : BitIter w).addr = first.base * w + w + middle.pos := by
          show (first.base + 1) * (w : Int) + (middle.pos : Nat) = _
          omega
        have ea2 : (⟨last.base - 1 - (middle.base - 1 - first.base) + 1, last.pos⟩ : BitIter w).addr
            = last.base * w - (middle.base * w - first.base * w) + w := by
          show (last.base - 1 - (middle.base - 1 - first.base) + 1) * (w : Int) + (last.pos : Nat) = _
          rw [Int.add_mul, e3]; omega
        refine wp_shiftRightTail S hf (show middle.pos < w from hmi') hn (by rw [ea1]; omega) (by rw [ea1]; omega)
          (by rw [ea1, ea2]; omega) ?_ ?_
        · rw [ea2]; exact hm1.sub (by omega) (by omega)
        intro m3 h3
        rw [ea1] at h3
        refine hQ m3 0 (by omega) (by omega) (by omega) (by rw [if_neg ho]) ?_
        have h1' := h1.congr (s' := first.addr + (first.base * w + w + middle.pos - first.addr))
          (d' := first.addr + n + (first.base * w + w + middle.pos - first.addr))
          (n' := middle.base * w - first.base * w - w) (by omega) (by omega) (by omega)
        exact (h1'.compBack (by omega) (by omega) h3 (by omega)).congr (by omega) (by omega) (by omega)
    · rw [if_neg hdm]
      refine wp_shiftRightTail S hf hmi hn (by omega) (by omega) (by omega) (hm.sub (by omega) (by omega)) ?_
      intro m3 h3
      exact hQ m3 0 (by omega) (by omega) (by omega) (by rw [if_neg ho]) (h3.congr (by omega) (by omega) (by omega))

theorem wp_shiftRightAll (S : ShiftSem w) {first last : BitIter w} {n : Int} {m : Mem w}
    {Q : BitIter w → Mem w → Prop}
    (hf : first.Valid) (hl : last.Valid) (hle : first.addr ≤ last.addr) (hm : Mapped m first.addr last.addr)
    (hfull : ¬ (first.pos = 0 ∧ last.addr - first.addr = w ∧ 0 < n ∧ n < w) ∨ S.FullShiftOk)
    (hQ0 : n ≤ 0 → Q first m) (hQ1 : 0 < n → last.addr - first.addr ≤ n → Q last m)
    (hQ : 0 < n → n < last.addr - first.addr → ∀ m',
      ShiftedRAll m m' first.addr last.addr n → Q (first.add n) m') :
    wp (shiftRight S first last n) m Q := by
  have hf' : first.pos < w := hf
  have hl' : last.pos < w := hl
  have hw : 0 < w := by omega
  have hfa : first.addr = first.base * w + first.pos := rfl
  have hla : last.addr = last.base * w + last.pos := rfl
  have hbb := base_le_of_addr hl hle
  have hma := BitIter.sub_addr hw last n
  unfold shiftRight
  rw [wp_bind, wp_distance]
  refine ⟨hle, ?_⟩
  dsimp only
  by_cases hn0 : n ≤ 0
  · rw [if_pos hn0, wp_pure]; exact hQ0 hn0
  rw [if_neg hn0]
  by_cases hnd : n ≥ last.addr - first.addr
  · rw [if_pos hnd, wp_pure]; exact hQ1 (by omega) hnd
  rw [if_neg hnd]
  replace hQ := hQ (by omega) (by omega)
  by_cases hsame : first.base + (if last.pos = 0 then 1 else 0) = last.base
  · rw [if_pos hsame]
    generalize hlp : (if last.pos = 0 then w else last.pos) = lp
    have hlast : last.addr = first.base * w + lp := by
      by_cases h0 : last.pos = 0
      · rw [if_pos h0] at hsame hlp
        rw [hla, ← hsame, Int.add_mul]; omega
      · rw [if_neg h0, Int.add_zero] at hsame
        rw [if_neg h0] at hlp
        rw [hla, ← hsame]; omega
    have hlpw : lp ≤ w := by split_ifs at hlp <;> omega
    obtain ⟨k, hk⟩ : ∃ k : Nat, n = k := ⟨n.toNat, by omega⟩
    subst hk
    rw [wp_bind, wp_shl S hf', wp_bind]
    refine wp_load_bits hw first.addr (by omega) (by omega) (hm _ (by omega) (by omega)) ?_
    intro x hx
    rw [wp_bind, Int.toNat_natCast, wp_shl S (by omega), wp_bind]
    refine wp_blendAt S (by omega) (by omega) ?_ (hm _ (by omega) (by omega)) ?_
    · rcases hfull with h | h
      · left; omega
      · exact Or.inr h
    intro m' hm'
    rw [wp_pure]
    refine hQ m' ?_
    rw [show first.base * (w : Int) + (first.pos : Int) + ((lp - first.pos : Nat) : Int) = last.addr by omega, ← hfa] at hm'
    have hone : first.addr / (w : Int) = (last.addr - 1) / w := by
      rw [hlast, hfa, mul_add_ediv hw (by omega) (by omega),
        show first.base * (w : Int) + lp - 1 = first.base * w + (lp - 1) by omega, mul_add_ediv hw (by omega) (by omega)]
    have hleak : leaked w first.addr last.addr k = 0 := by
      unfold leaked
      rw [if_neg]
      rintro ⟨_, h1, _⟩
      rw [Int.emod_eq_of_lt (by omega) (by omega)] at h1
      omega
    intro i
    rw [hm' i, hleak]
    by_cases h1 : first.addr ≤ i ∧ i < last.addr
    · rw [if_pos h1]
      obtain ⟨j, hj⟩ : ∃ j : Nat, i = first.base * w + j := ⟨(i - first.base * w).toNat, by omega⟩
      subst hj
      beta_reduce
      rw [show (first.base * (w : Int) + j - first.base * w).toNat = j by omega, BitVec.getLsbD_shiftLeft,
        BitVec.getLsbD_and, BitVec.getLsbD_shiftLeft]
      by_cases h2 : first.addr + k ≤ first.base * (w : Int) + j
      · rw [if_pos ⟨by omega, h1.2⟩,
          show first.base * (w : Int) + j - k = first.base * w + ((j - k : Nat) : Int) by omega, hx _ (by omega)]
        simp [show j < w by omega, show ¬ j < k by omega, show j - k < w by omega, show ¬ j - k < first.pos by omega,
          show j - k - first.pos < w by omega]
      · rw [if_neg (by omega), if_pos ⟨h1.1, by omega, hone⟩]
        by_cases h3 : j < k
        · simp [h3]
        · simp [show j - k < first.pos by omega]
    · rw [if_neg h1, if_neg (by omega), if_neg (by omega)]
  · rw [if_neg hsame]
    have hmany : ¬ first.addr / (w : Int) = (last.addr - 1) / w := not_one_word hf hl hsame
    have hmw : Mapped m (first.base * w) last.addr := hm.word_start hf (by omega)
    by_cases hlp : last.pos ≠ 0
    · rw [if_pos hlp, wp_bind, wp_distance]
      refine ⟨by omega, ?_⟩
      obtain ⟨d, hd⟩ : ∃ d : Nat, (last.sub n).addr - first.addr = d := ⟨((last.sub n).addr - first.addr).toNat, by omega⟩
      rw [hd, Int.toNat_natCast]
      generalize hb : min last.pos d = b
      have hb0 : 0 < b := by omega
      have hb1 : b ≤ last.pos := by omega
      have hb2 : b ≤ d := by omega
      have ha1 := BitIter.sub_addr hw (last.sub n) b
      have ha2 := BitIter.sub_addr hw last b
      rw [wp_bind]
      refine wp_getWord S (BitIter.sub_valid hw _ _) (by omega) hb0 ?_ ?_
      · rw [ha1]; exact hm.sub (by omega) (by omega)
      intro x hx
      rw [wp_bind]
      refine wp_writeWord S (BitIter.sub_valid hw _ _) (by omega) hb0 ?_ ?_
      · rw [ha2]; exact hm.sub (by omega) (by omega)
      intro m1 hm1
      rw [ha1] at hx
      rw [ha2] at hm1
      have h1 := copied_of_wrote (s := (last.sub n).addr - b) hm1 (by
        intro j hj
        rw [hx j hj]
        congr 2; omega)
      by_cases hbeq : ((last.sub n).sub b).beq first
      · rw [if_pos hbeq, wp_pure]
        rw [BitIter.beq_iff (BitIter.sub_valid hw _ _) hf] at hbeq
        apply hQ
        refine ShiftedRAll.of_copied (e := 0) hmany ?_ ?_
        · unfold leaked
          rw [if_neg]
          rintro ⟨_, h3, h4⟩
          exact leak_none hl (by omega) h3 h4
        exact h1.congr (by omega) (by omega) (by omega)
      · rw [if_neg hbeq]
        rw [BitIter.beq_iff (BitIter.sub_valid hw _ _) hf] at hbeq
        have hbl : b = last.pos := by omega
        have hlz : last.sub b = ⟨last.base, 0⟩ := by
          refine BitIter.addr_inj (BitIter.sub_valid hw _ _) (b := ⟨last.base, 0⟩) hw ?_
          rw [ha2, hla]
          show _ = last.base * (w : Int) + (0 : Nat)
          omega
        have hm1m : Mapped m1 (first.base * w) last.addr := h1.mapped (hm.sub (by omega) (by omega)) hmw
        refine wp_shiftRightMain S hf (BitIter.sub_valid hw _ _) (BitIter.sub_valid hw _ _) (by omega)
          (by rw [hlz]) (by omega) (by omega) (hm1m.sub (by omega) (by omega)) ?_
        intro m2 e he0 he1 he2 he h2
        apply hQ
        refine ShiftedRAll.of_copied (e := e) hmany ?_ ?_
        · rw [he]
          exact leak_mid hf (BitIter.sub_valid hw _ _) hl (by omega) (by omega) (by omega)
        have h1' := h1.congr (s' := first.addr - e + (((last.sub n).sub b).addr - first.addr + e))
          (d' := first.addr + n - e + (((last.sub n).sub b).addr - first.addr + e)) (n' := (b : Int))
          (by omega) (by omega) rfl
        exact (h1'.compBack (by omega) (by omega) h2 (by omega)).congr rfl rfl (by omega)
    · rw [if_neg hlp]
      refine wp_shiftRightMain S hf (BitIter.sub_valid hw _ _) hl (by omega)
        (by omega) (by omega) (by omega) hmw ?_
      intro m2 e he0 he1 he2 he h2
      apply hQ
      refine ShiftedRAll.of_copied (e := e) hmany ?_ ?_
      · rw [he]
        exact leak_mid hf (BitIter.sub_valid hw _ _) hl (by omega) (by omega) (by omega)
      exact h2.congr rfl rfl (by omega)

theorem ShiftedRAll.shiftedR {m m' : Mem w} {a b n : Int} (hw : 0 < w) (h0 : 0 < n) (hn : n < b - a)
    (hm : Mapped m a b) (h : ShiftedRAll m m' a b n) : ShiftedR m m' a b n := by
  have hmod := Int.emod_nonneg a (show (w : Int) ≠ 0 by omega)
  have hlt := Int.emod_lt_of_pos a (show 0 < (w : Int) by omega)
  have hl : 0 ≤ leaked w a b n ∧ leaked w a b n ≤ a % w ∧ leaked w a b n ≤ n := by
    unfold leaked
    split_ifs with hc
    · have : (w : Int) ≤ n := Int.le_of_dvd h0 (Int.dvd_of_emod_eq_zero hc.2.1)
      omega
    · omega
  have hmw : Mapped m (a - a % w) b := by
    have hd := Int.emod_add_mul_ediv a w
    rw [Int.mul_comm] at hd
    have ha : (⟨a / w, (a % w).toNat⟩ : BitIter w).addr = a := by
      show a / w * (w : Int) + ((a % w).toNat : Int) = a
      omega
    have := Mapped.word_start (it := ⟨a / w, (a % w).toNat⟩) (show (a % w).toNat < w by omega) (by rw [ha]; exact hm)
      (by rw [ha]; omega)
    rwa [show a - a % (w : Int) = a / w * w by omega]
  refine ⟨?_, ?_, ?_⟩
  · intro i h1 h2
    rw [h i, if_pos (by omega)]
  · intro i h1
    rw [h i, if_neg (by omega), if_neg (by omega)]
  · intro i
    rw [h i]
    split_ifs with h1 h2
    · rw [hm i (by omega) (by omega), hmw _ (by omega) (by omega)]
    · rw [hm i (by omega) (by omega)]; rfl
    · rfl

theorem wp_shiftRight (S : ShiftSem w) {first last : BitIter w} {n : Int} {m : Mem w}
    {Q : BitIter w → Mem w → Prop}
    (hf : first.Valid) (hl : last.Valid) (hle : first.addr ≤ last.addr) (hm : Mapped m first.addr last.addr)
    (hfull : ¬ (first.pos = 0 ∧ last.addr - first.addr = w ∧ 0 < n ∧ n < w) ∨ S.FullShiftOk)
    (hQ0 : n ≤ 0 → Q first m) (hQ1 : 0 < n → last.addr - first.addr ≤ n → Q last m)
    (hQ : 0 < n → n < last.addr - first.addr → ∀ m',
      ShiftedR m m' first.addr last.addr n → Q (first.add n) m') :
    wp (shiftRight S first last n) m Q :=
  wp_shiftRightAll S hf hl hle hm hfull hQ0 hQ1 fun h0 h1 m' h =>
    hQ h0 h1 m' (h.shiftedR (Nat.lt_of_le_of_lt (Nat.zero_le _) hf) h0 h1 hm)

end BitLib
