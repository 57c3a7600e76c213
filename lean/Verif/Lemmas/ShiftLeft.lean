import Verif.Lemmas.Map
import Verif.Lemmas.CopyBackward
import Verif.Lemmas.Query
import Verif.Model.Shift
/- Proofs for `shift_left`. -/
namespace BitLib
variable {w : Nat}

theorem Copied.zero {m : Mem w} {s d : Int} : Copied m m s d 0 := by
  intro i
  rw [if_neg (by omega)]

theorem Copied.comp {m m1 m2 : Mem w} {s d n k : Int} (hn : 0 ≤ n) (hk : 0 ≤ k)
    (h1 : Copied m m1 s d n) (h2 : Copied m1 m2 (s + n) (d + n) k)
    (hov : d ≤ s ∨ s + n + k ≤ d) : Copied m m2 s d (n + k) := by
  intro i
  rw [h2 i]
  beta_reduce
  rw [h1 i, h1 (s + n + (i - (d + n)))]
  beta_reduce
  split_ifs <;> first | rfl | (exfalso; omega) | (congr 1; omega)

theorem Copied.compBack {m m1 m2 : Mem w} {s d n k : Int} (hn : 0 ≤ n) (hk : 0 ≤ k)
    (h1 : Copied m m1 (s + k) (d + k) n) (h2 : Copied m1 m2 s d k)
    (hov : s ≤ d ∨ d + k + n ≤ s) : Copied m m2 s d (k + n) := by
  intro i
  rw [h2 i]
  beta_reduce
  rw [h1 i, h1 (s + (i - d))]
  beta_reduce
  split_ifs <;> first | rfl | (exfalso; omega) | (congr 1; omega)

theorem Copied.mapped {m m' : Mem w} {s d n a b : Int} (h : Copied m m' s d n)
    (hs : Mapped m s (s + n)) (hm : Mapped m a b) : Mapped m' a b := by
  intro i h1 h2
  rw [h i]
  split_ifs
  · exact hs _ (by omega) (by omega)
  · exact hm i h1 h2

theorem copied_of_wrote {m m' : Mem w} {s d : Int} {n : Nat} {g : Int → Option Bool}
    (h : Wrote m m' d (d + n) g) (hg : ∀ k : Nat, k < n → g (d + k) = bitAt m (s + k)) : Copied m m' s d n := by
  intro i
  rw [h i]
  split_ifs with hi
  · have := hg (i - d).toNat (by omega)
    rw [show d + ((i - d).toNat : Int) = i by omega] at this
    rw [this]
    congr 1; omega
  · rfl

theorem Copied.congr {m m' : Mem w} {s d n s' d' n' : Int} (h : Copied m m' s d n)
    (hs : s = s') (hd : d = d') (hn : n = n') : Copied m m' s' d' n' := by
  subst hs hd hn; exact h

theorem Copied.sameMapped {m m' : Mem w} {s d n : Int} (h : Copied m m' s d n)
    (hs : Mapped m s (s + n)) (hd : Mapped m d (d + n)) : SameMapped m m' := by
  intro i
  rw [h i]
  split_ifs with hc
  · rw [hs _ (by omega) (by omega), hd i (by omega) (by omega)]
  · rfl

theorem wp_shrd (S : ShiftSem w) {x y : BitVec w} {n : Nat} {m : Mem w} {Q : BitVec w → Mem w → Prop}
    (h0 : 0 < n) (hn : n < w)
    (hQ : ∀ z : BitVec w, (∀ i, i < w → z.getLsbD i = if i < w - n then x.getLsbD (n + i)
      else y.getLsbD (i - (w - n))) → Q z m) : wp (lift (shrd S x y n)) m Q := by
  rw [wp_lift]
  refine ⟨x >>> n ||| y <<< (w - n), ?_, ?_⟩
  · unfold shrd
    rw [if_pos hn, S.shr_ok hn, S.shl_ok (by omega)]
    rfl
  · apply hQ
    intro i hi
    rw [BitVec.getLsbD_or, BitVec.getLsbD_ushiftRight, BitVec.getLsbD_shiftLeft]
    split_ifs with h
    · simp [h]
    · rw [BitVec.getLsbD_of_ge x _ (by omega)]
      simp [hi, show ¬ i < w - n by omega]

theorem wp_shiftLeftAlign (S : ShiftSem w) {first middle : BitIter w} {d n : Int} {m : Mem w}
    {Q : BitIter w × BitIter w → Mem w → Prop}
    (hf : first.Valid) (hmi : middle.Valid) (hn : 0 < n) (hmid : middle.addr = first.addr + n)
    (hp : first.pos ≠ 0) (hd : d - n > w) (hm : Mapped m first.addr (first.addr + d))
    (hQ : ∀ m' (first' middle' : BitIter w), first'.Valid → middle'.Valid → first'.pos = 0 →
      first'.addr = first.addr + (w - first.pos : Nat) → middle'.addr = middle.addr + (w - first.pos : Nat) →
      Copied m m' middle.addr first.addr (w - first.pos : Nat) → Q (first', middle') m') :
    wp (shiftLeftAlign S first middle d n) m Q := by
  have hf' : first.pos < w := hf
  have hmi' : middle.pos < w := hmi
  have hw : 0 < w := by omega
  have hfa : first.addr = first.base * w + first.pos := rfl
  have hma : middle.addr = middle.base * w + middle.pos := rfl
  unfold shiftLeftAlign
  dsimp only
  have fin : ∀ m', Copied m m' middle.addr first.addr (w - first.pos : Nat) →
      Q (first.add (min (d - n) ((w - first.pos : Nat) : Int)),
        middle.add (min (d - n) ((w - first.pos : Nat) : Int))) m' := by
    intro m' hm'
    rw [show min (d - n) ((w - first.pos : Nat) : Int) = (w - first.pos : Nat) by omega]
    have hnext : (first.add ((w - first.pos : Nat) : Int)) = ⟨first.base + 1, 0⟩ := by
      refine BitIter.addr_inj (BitIter.add_valid hw _ _) (b := ⟨first.base + 1, 0⟩) hw ?_
      rw [BitIter.add_addr hw, hfa]
      show _ = (first.base + 1) * (w : Int) + (0 : Nat)
      rw [Int.add_mul]; omega
    refine hQ m' _ _ (BitIter.add_valid hw _ _) (BitIter.add_valid hw _ _) (by rw [hnext])
      (BitIter.add_addr hw _ _) (BitIter.add_addr hw _ _) hm'
  by_cases hge : first.pos ≥ middle.pos
  · rw [if_pos hge, wp_bind]
    refine wp_load_bits hw middle.addr (by omega) (by omega) (hm _ (by omega) (by omega)) ?_
    intro x hx
    rw [wp_bind, wp_shl S (by omega), wp_bind]
    refine wp_blendAt S (by omega) (by omega) (Or.inl (by omega)) (hm _ (by omega) (by omega)) ?_
    intro m' hm'
    rw [wp_pure]
    apply fin
    rw [← hfa] at hm'
    refine copied_of_wrote hm' ?_
    intro k hk
    rw [show (first.addr + (k : Int) - first.base * (w : Int)).toNat = first.pos + k by omega,
      BitVec.getLsbD_shiftLeft, hma,
      show middle.base * (w : Int) + middle.pos + k = middle.base * w + ((middle.pos + k : Nat) : Int) by omega,
      hx _ (by omega)]
    simp only [show first.pos + k < w by omega, show ¬ first.pos + k < first.pos - middle.pos by omega, decide_true,
      decide_false, Bool.not_false, Bool.true_and]
    congr 2; omega
  · rw [if_neg hge, wp_bind]
    refine wp_load_bits hw middle.addr (by omega) (by omega) (hm _ (by omega) (by omega)) ?_
    intro x hx
    rw [wp_bind, wp_shr S (by omega), wp_bind]
    refine wp_blendAt S (by omega) (by omega) (Or.inl (by omega)) (hm _ (by omega) (by omega)) ?_
    intro m1 hm1
    rw [← hfa] at hm1
    have h1 : Copied m m1 middle.addr first.addr ((w - middle.pos : Nat) : Int) := by
      refine copied_of_wrote hm1 ?_
      intro k hk
      rw [show (first.addr + (k : Int) - first.base * (w : Int)).toNat = first.pos + k by omega,
        BitVec.getLsbD_ushiftRight, hma,
        show middle.base * (w : Int) + middle.pos + k = middle.base * w + ((middle.pos + k : Nat) : Int) by omega,
        hx _ (by omega)]
      congr 2; omega
    have hm1m : Mapped m1 first.addr (first.addr + d) :=
      h1.mapped (hm.sub (by omega) (by omega)) hm
    have e1 : (middle.base + 1) * (w : Int) = middle.base * w + w := by ring
    rw [wp_bind]
    refine wp_load_bits hw ((middle.base + 1) * w) (by omega) (by omega) (hm1m _ (by omega) (by omega)) ?_
    intro y hy
    rw [wp_bind, wp_shl S (by omega), wp_bind]
    refine wp_blendAt S (by omega) (by omega) (Or.inl (by omega)) (hm1m _ (by omega) (by omega)) ?_
    intro m2 hm2
    rw [wp_pure]
    apply fin
    rw [show first.base * (w : Int) + ((first.pos + (w - middle.pos) : Nat) : Int)
      = first.addr + ((w - middle.pos : Nat) : Int) by omega] at hm2
    have h2 := copied_of_wrote (s := middle.addr + ((w - middle.pos : Nat) : Int)) hm2 (by
      intro k hk
      rw [show (first.addr + ((w - middle.pos : Nat) : Int) + (k : Int) - first.base * (w : Int)).toNat
          = first.pos + (w - middle.pos) + k by omega,
        BitVec.getLsbD_shiftLeft,
        show middle.addr + ((w - middle.pos : Nat) : Int) + k = (middle.base + 1) * (w : Int) + (k : Nat) by omega,
        hy _ (by omega)]
      simp only [show first.pos + (w - middle.pos) + k < w by omega,
        show ¬ first.pos + (w - middle.pos) + k < w - (w - first.pos - (w - middle.pos)) by omega, decide_true,
        decide_false, Bool.not_false, Bool.true_and]
      congr 2; omega)
    exact (h1.comp (by omega) (by omega) h2 (by omega)).congr rfl rfl (by omega)

theorem wp_shiftLeftLoop (S : ShiftSem w) {offset : Nat} {lb : Int} (h0 : 0 < offset) (ho : offset < w) :
    ∀ (fuel : Nat) {fb mb : Int} {m : Mem w} {Q : Int × Int → Mem w → Prop},
    (lb - mb < fuel) → mb < lb → fb ≤ mb → Mapped m (fb * w) (lb * w) →
    (∀ m', Copied m m' (mb * w + offset) (fb * w) ((lb - 1 - mb) * w) → Q (fb + (lb - 1 - mb), lb - 1) m') →
    wp (shiftLeftLoop S offset lb fuel fb mb) m Q := by
  have hw : 0 < w := by omega
  intro fuel
  induction fuel with
  | zero => intro fb mb m Q hfu hlt; omega
  | succ fuel ih =>
    intro fb mb m Q hfu hlt hle hm hQ
    unfold shiftLeftLoop
    have e1 : (mb + 1) * (w : Int) = mb * w + w := by ring
    have e2 : (fb + 1) * (w : Int) = fb * w + w := by ring
    have b1 := base_le_mul (w := w) hle
    by_cases h : mb + 1 < lb
    · have b2 := base_lt_mul (w := w) h
      rw [if_pos h, wp_bind]
      refine wp_load_bits hw (mb * w) (by omega) (by omega) (hm _ (by omega) (by omega)) ?_
      intro x hx
      rw [wp_bind]
      refine wp_load_bits hw ((mb + 1) * w) (by omega) (by omega) (hm _ (by omega) (by omega)) ?_
      intro y hy
      rw [wp_bind]
      refine wp_shrd S h0 ho ?_
      intro z hz
      rw [wp_bind]
      refine wp_store_bits hw (fb * w) (by omega) (by omega) (hm _ (by omega) (by omega)) ?_
      intro m1 hm1
      have h1 : Copied m m1 (mb * w + offset) (fb * w) w := by
        refine copied_of_wrote hm1 ?_
        intro k hk
        rw [show (fb * (w : Int) + (k : Int) - fb * (w : Int)).toNat = k by omega, hz k hk]
        split_ifs with hc
        · rw [show mb * (w : Int) + offset + k = mb * w + ((offset + k : Nat) : Int) by omega, hx _ (by omega)]
        · rw [show mb * (w : Int) + offset + k = (mb + 1) * w + ((k - (w - offset) : Nat) : Int) by omega,
            hy _ (by omega)]
      refine ih (by omega) h (by omega) ?_ ?_
      · rw [e2]
        exact (h1.mapped (hm.sub (by omega) (by omega)) hm).sub (by omega) (by omega)
      · intro m2 h2
        have e3 : (lb - 1 - (mb + 1)) * (w : Int) = (lb - 1 - mb) * w - w := by ring
        have e4 : 0 ≤ (lb - 1 - (mb + 1)) * (w : Int) := Int.mul_nonneg (by omega) (by omega)
        have h3 : Copied m1 m2 (mb * w + offset + w) (fb * w + w) ((lb - 1 - (mb + 1)) * w) :=
          h2.congr (by omega) (by omega) rfl
        have := hQ m2 ((h1.comp (by omega) (by omega) h3 (by omega)).congr rfl rfl (by omega))
        rwa [show fb + 1 + (lb - 1 - (mb + 1)) = fb + (lb - 1 - mb) by omega]
    · rw [if_neg h, wp_pure]
      have hz : lb - 1 - mb = 0 := by omega
      have := hQ m (Copied.zero.congr rfl rfl (by rw [hz]; omega))
      rwa [hz, Int.add_zero, show lb - 1 = mb by omega] at this

theorem wp_stdCopyN (hw : 0 < w) (n : Nat) {s d : Int} {m : Mem w} {Q : Int → Mem w → Prop}
    (hm1 : Mapped m (s * w) (s * w + n * w)) (hm2 : Mapped m (d * w) (d * w + n * w))
    (hov : d * w ≤ s * w ∨ s * w + n * w ≤ d * w)
    (hQ : ∀ m', Copied m m' (s * w) (d * w) (n * w) → Q (d + n) m') : wp (stdCopyN n s d) m Q := by
  rw [stdCopyN_eq]
  refine wp_stdTransformN hw (op := id) (f := id) (fun _ _ _ => rfl) n hm1 hm2 hov ?_
  intro m' hm'
  exact hQ m' (copied_of_mapd hm')

theorem wp_shiftLeftMain (S : ShiftSem w) {first middle last : BitIter w} {n : Int} {m : Mem w}
    {Q : BitIter w → Mem w → Prop}
    (hf : first.Valid) (hmi : middle.Valid) (hl : last.Valid) (hn : 0 < n) (hp : first.pos = 0)
    (hmid : middle.addr = first.addr + n) (hlt : middle.addr < last.addr) (hm : Mapped m first.addr last.addr)
    (hQ : ∀ m' (r : BitIter w), r.Valid → r.addr = last.addr - n →
      Copied m m' middle.addr first.addr (last.addr - middle.addr) → Q r m') :
    wp (shiftLeftMain S first middle last n) m Q := by
  have hf' : first.pos < w := hf
  have hmi' : middle.pos < w := hmi
  have hl' : last.pos < w := hl
  have hw : 0 < w := by omega
  have hfa : first.addr = first.base * w := by
    show first.base * (w : Int) + first.pos = _; omega
  have hma : middle.addr = middle.base * w + middle.pos := rfl
  have hla : last.addr = last.base * w + last.pos := rfl
  have hb1 : middle.base ≤ last.base := base_le_of_addr hl (by omega)
  have hb0 : first.base ≤ middle.base := base_le_of_addr hmi (by omega)
  have hb0m := base_le_mul (w := w) hb0
  unfold shiftLeftMain
  by_cases hsame : middle.base = last.base
  · rw [if_pos hsame]
    rw [← hsame] at hla
    dsimp only
    rw [if_pos (by omega), wp_bind]
    refine wp_load_bits hw middle.addr (by omega) (by omega) (hm _ (by omega) (by omega)) ?_
    intro x hx
    rw [wp_bind, wp_shr S hmi', wp_bind]
    refine wp_blendAt S (by omega) (by omega) (Or.inl (by omega)) (hm _ (by omega) (by omega)) ?_
    intro m' hm'
    rw [wp_pure]
    refine hQ m' _ (BitIter.add_valid hw _ _) (by rw [BitIter.add_addr hw]; omega) ?_
    rw [show first.base * (w : Int) + ((0 : Nat) : Int) = first.addr by omega] at hm'
    refine (copied_of_wrote (s := middle.addr) hm' ?_).congr rfl rfl (by omega)
    intro k hk
    rw [show (first.addr + (k : Int) - first.base * (w : Int)).toNat = k by omega, BitVec.getLsbD_ushiftRight, hma,
        show middle.base * (w : Int) + middle.pos + k = middle.base * w + ((middle.pos + k : Nat) : Int) by omega,
        hx _ (by omega)]
  · rw [if_neg hsame, wp_bind, wp_distance]
    refine ⟨by omega, ?_⟩
    have hb2 : middle.base + 1 ≤ last.base := by omega
    have hb2m := base_le_mul (w := w) hb2
    have e1 : (middle.base + 1) * (w : Int) = middle.base * w + w := by ring
    obtain ⟨N, hN⟩ : ∃ N : Nat, last.base = middle.base + N := ⟨(last.base - middle.base).toNat, by omega⟩
    have hNw : last.base * (w : Int) = middle.base * w + N * w := by rw [hN]; ring
    have hNpos : 0 ≤ (N : Int) * w := Int.mul_nonneg (by omega) (by omega)
    dsimp only
    by_cases ho : middle.pos = 0
    · rw [if_pos ho]
      have hdiv : Int.tdiv n w = middle.base - first.base := by
        have : n = (middle.base - first.base) * w := by rw [Int.sub_mul]; omega
        rw [this, Int.mul_tdiv_cancel _ (by omega)]
      have hgt : first.base < middle.base := by
        by_contra hc
        have : first.base = middle.base := by omega
        rw [this] at hfa
        omega
      rw [hdiv, wp_bind]
      unfold wordShiftLeft
      rw [if_neg (by omega), if_neg (by omega)]
      unfold stdCopy
      rw [wp_bind, wp_wordDist]
      rw [show first.base + (middle.base - first.base) = middle.base by omega]
      refine ⟨by omega, ?_⟩
      rw [show (last.base - middle.base).toNat = N by omega]
      refine wp_stdCopyN hw N (hm.sub (by omega) (by omega)) (hm.sub (by omega) (by omega)) (by omega) ?_
      intro m1 h1
      have e2 : (first.base + N) * (w : Int) = first.base * w + N * w := by ring
      by_cases hlp : last.pos ≠ 0
      · rw [if_pos hlp, wp_bind]
        have hm1 : Mapped m1 first.addr last.addr := h1.mapped (hm.sub (by omega) (by omega)) hm
        refine wp_load_bits hw (last.base * w) (by omega) (by omega) (hm1 _ (by omega) (by omega)) ?_
        intro x hx
        have ea : (⟨first.base + N, 0⟩ : BitIter w).addr = first.base * w + N * w := by
          show (first.base + (N : Int)) * (w : Int) + (0 : Nat) = _
          omega
        rw [wp_bind]
        refine wp_writeWord S (show 0 < w from hw) (by omega) (by omega) ?_ ?_
        · rw [ea]; exact hm1.sub (by omega) (by omega)
        intro m2 hm2
        rw [ea] at hm2
        rw [wp_pure]
        refine hQ m2 _ (BitIter.add_valid hw _ _) (by rw [BitIter.add_addr hw, ea]; omega) ?_
        have h2 := copied_of_wrote (s := middle.base * w + N * w) hm2 (by
          intro k hk
          rw [show (first.base * (w : Int) + N * w + (k : Int) - (first.base * w + N * w)).toNat = k by omega,
            ← hNw, hx k (by omega)])
        exact (h1.comp (by omega) (by omega) h2 (by omega)).congr (by omega) (by omega) (by omega)
      · rw [if_neg hlp, wp_pure]
        refine hQ m1 _ (show 0 < w from hw) ?_ (h1.congr (by omega) (by omega) (by omega))
        show (first.base + (N : Int)) * (w : Int) + (0 : Nat) = _
        omega
    · rw [if_neg ho, wp_bind]
      refine wp_shiftLeftLoop S (by omega) hmi' _ (by omega) (by omega) hb0 (hm.sub (by omega) (by omega)) ?_
      intro m1 h1
      dsimp only
      rw [if_pos (by omega), wp_bind]
      have e3 : (last.base - 1) * (w : Int) = last.base * w - w := by ring
      have e4 : (last.base - 1 - middle.base) * (w : Int) = N * w - w := by
        rw [hN]; ring
      have e5 : (first.base + (last.base - 1 - middle.base)) * (w : Int) = first.base * w + (N * w - w) := by
        rw [Int.add_mul, e4]
      rw [e4] at h1
      have hm1 : Mapped m1 first.addr last.addr := h1.mapped (hm.sub (by omega) (by omega)) hm
      refine wp_load_bits hw ((last.base - 1) * w) (by omega) (by omega) (hm1 _ (by omega) (by omega)) ?_
      intro x hx
      rw [wp_bind, wp_shr S hmi', wp_bind]
      refine wp_blendAt S (by omega) (by omega) (Or.inl (by omega)) (hm1 _ (by omega) (by omega)) ?_
      intro m2 hm2
      have h2 := copied_of_wrote (s := (last.base - 1) * w + middle.pos) hm2 (by
        intro k hk
        rw [show (((first.base + (last.base - 1 - middle.base)) * (w : Int) + ((0 : Nat) : Int) + (k : Int))
          - (first.base + (last.base - 1 - middle.base)) * (w : Int)).toNat = k by omega,
          BitVec.getLsbD_ushiftRight,
          show (last.base - 1) * (w : Int) + middle.pos + k = (last.base - 1) * w + ((middle.pos + k : Nat) : Int) by omega,
          hx _ (by omega)])
      have h2' : Copied m m2 (middle.base * w + middle.pos) (first.base * w) ((N : Int) * w - w + (w - middle.pos : Nat)) :=
        h1.comp (by omega) (by omega) (h2.congr (by omega) (by omega) rfl) (by omega)
      rw [wp_bind, wp_pure]
      dsimp only
      have ea : (⟨first.base + (last.base - 1 - middle.base), 0⟩ : BitIter w).addr = first.base * w + (N * w - w) := by
        show (first.base + (last.base - 1 - middle.base)) * (w : Int) + (0 : Nat) = _
        omega
      have hmid2 : (BitIter.add ⟨last.base - 1, middle.pos⟩ ((w - middle.pos : Nat) : Int) : BitIter w) = ⟨last.base, 0⟩ := by
        refine BitIter.addr_inj (BitIter.add_valid hw _ _) (b := ⟨last.base, 0⟩) hw ?_
        rw [BitIter.add_addr hw]
        show (last.base - 1) * (w : Int) + (middle.pos : Nat) + _ = last.base * (w : Int) + (0 : Nat)
        omega
      by_cases hlp : last.pos ≠ 0
      · rw [if_pos hlp, wp_bind, hmid2]
        have hm2m : Mapped m2 first.addr last.addr := h2'.mapped (hm.sub (by omega) (by omega)) hm
        dsimp only
        rw [toSize_nonneg (by omega), show ((last.pos : Int) - ((0 : Nat) : Int)).toNat = last.pos by omega]
        have eb : (⟨last.base, 0⟩ : BitIter w).addr = last.base * w := by
          show last.base * (w : Int) + (0 : Nat) = _; omega
        refine wp_getWord S (show 0 < w from hw) (by omega) (by omega) ?_ ?_
        · rw [eb]; exact hm2m.sub (by omega) (by omega)
        intro y hy
        rw [eb] at hy
        rw [wp_bind]
        have ec : (BitIter.add ⟨first.base + (last.base - 1 - middle.base), 0⟩ ((w - middle.pos : Nat) : Int) : BitIter w).addr
            = first.base * w + (N * w - w + (w - middle.pos : Nat)) := by
          rw [BitIter.add_addr hw, ea]; omega
        refine wp_writeWord S (BitIter.add_valid hw _ _) (by omega) (by omega) ?_ ?_
        · rw [ec]; exact hm2m.sub (by omega) (by omega)
        intro m3 hm3
        rw [ec] at hm3
        rw [wp_pure]
        refine hQ m3 _ (BitIter.add_valid hw _ _) (by rw [BitIter.add_addr hw, ec]; omega) ?_
        have h3 := copied_of_wrote (s := last.base * w) hm3 (by
          intro k hk
          rw [hy k hk]
          congr 2; omega)
        exact (h2'.comp (by omega) (by omega) (h3.congr (by omega) rfl rfl) (by omega)).congr (by omega) (by omega) (by omega)
      · rw [if_neg hlp, wp_pure]
        refine hQ m2 _ (BitIter.add_valid hw _ _) (by rw [BitIter.add_addr hw, ea]; omega) (h2'.congr (by omega) (by omega) (by omega))

theorem mul_add_ediv (hw : 0 < w) {b r : Int} (h0 : 0 ≤ r) (h1 : r < w) : (b * (w : Int) + r) / (w : Int) = b := by
  rw [Int.add_comm, Int.add_mul_ediv_right _ _ (by omega), Int.ediv_eq_zero_of_lt h0 h1, Int.zero_add]

theorem mul_add_emod {b r : Int} (h0 : 0 ≤ r) (h1 : r < w) : (b * (w : Int) + r) % (w : Int) = r := by
  rw [Int.add_comm, Int.add_mul_emod_self_right, Int.emod_eq_of_lt h0 h1]

theorem not_one_word {first last : BitIter w} (hf : first.Valid) (hl : last.Valid)
    (h : ¬ first.base + (if last.pos = 0 then 1 else 0) = last.base) :
    ¬ first.addr / (w : Int) = (last.addr - 1) / w := by
  have hf' : first.pos < w := hf
  have hl' : last.pos < w := hl
  have hw : 0 < w := by omega
  have hfa : first.addr = first.base * w + first.pos := rfl
  have hla : last.addr = last.base * w + last.pos := rfl
  rw [hfa, mul_add_ediv hw (by omega) (by omega)]
  by_cases h0 : last.pos = 0
  · rw [if_pos h0] at h
    rw [hla, show last.base * (w : Int) + last.pos - 1 = (last.base - 1) * w + (w - 1) by rw [h0, Int.sub_mul]; omega,
      mul_add_ediv hw (by omega) (by omega)]
    omega
  · rw [if_neg h0] at h
    rw [hla, show last.base * (w : Int) + last.pos - 1 = last.base * w + (last.pos - 1) by omega,
      mul_add_ediv hw (by omega) (by omega)]
    omega

theorem ShiftedLAll.of_copied {m m' : Mem w} {a b n : Int} (hmany : ¬ a / (w : Int) = (b - 1) / w)
    (h : Copied m m' (a + n) a (b - a - n)) : ShiftedLAll m m' a b n := by
  intro i
  rw [h i]
  by_cases h1 : a ≤ i ∧ i < b - n
  · rw [if_pos h1, if_pos (by omega)]
    beta_reduce
    rw [show a + n + (i - a) = i + n by omega]
  · rw [if_neg h1, if_neg (by omega), if_neg (by tauto)]

theorem wp_shiftLeftAll (S : ShiftSem w) {first last : BitIter w} {n : Int} {m : Mem w}
    {Q : BitIter w → Mem w → Prop}
    (hf : first.Valid) (hl : last.Valid) (hle : first.addr ≤ last.addr) (hm : Mapped m first.addr last.addr)
    (hfull : ¬ (first.pos = 0 ∧ last.addr - first.addr = w ∧ 0 < n ∧ n < w) ∨ S.FullShiftOk)
    (hQ0 : n ≤ 0 → Q last m) (hQ1 : 0 < n → last.addr - first.addr ≤ n → Q first m)
    (hQ : 0 < n → n < last.addr - first.addr → ∀ m' (r : BitIter w), r.Valid → r.addr = last.addr - n →
      ShiftedLAll m m' first.addr last.addr n → Q r m') :
    wp (shiftLeft S first last n) m Q := by
  have hf' : first.pos < w := hf
  have hl' : last.pos < w := hl
  have hw : 0 < w := by omega
  have hfa : first.addr = first.base * w + first.pos := rfl
  have hla : last.addr = last.base * w + last.pos := rfl
  have hbb := base_le_of_addr hl hle
  have hma := BitIter.add_addr hw first n
  unfold shiftLeft
  rw [wp_bind, wp_assertViable]
  refine ⟨hle, ?_⟩
  rw [wp_bind, wp_distance]
  refine ⟨hle, ?_⟩
  dsimp only
  by_cases hn0 : n ≤ 0
  · rw [if_pos hn0, wp_pure]; exact hQ0 hn0
  rw [if_neg hn0]
  by_cases hnd : n ≥ last.addr - first.addr
  · rw [if_pos hnd, wp_pure]; exact hQ1 (by omega) hnd
  rw [if_neg hnd]
  replace hQ := hQ (by omega) (by omega)
  have hret : ((first.add (last.addr - first.addr)).sub n).addr = last.addr - n := by
    rw [BitIter.sub_addr hw, BitIter.add_addr hw]; omega
  by_cases hsame : first.base + (if last.pos = 0 then 1 else 0) = last.base
  · rw [if_pos hsame]
    generalize hlp : (if last.pos = 0 then w else last.pos) = lp
    have hlast : last.addr = first.base * w + lp := by
      by_cases h0 : last.pos = 0
      · rw [if_pos h0] at hsame hlp
        rw [hla, ← hsame, Int.add_mul]; omega
      · rw [if_neg h0, Int.add_zero] at hsame
        rw [if_neg h0] at hlp
        rw [hla, ← hsame]; omega
    have hlpw : lp ≤ w := by split_ifs at hlp <;> omega
    have hlp0 : 0 < lp := by split_ifs at hlp <;> omega
    obtain ⟨k, hk⟩ : ∃ k : Nat, n = k := ⟨n.toNat, by omega⟩
    subst hk
    rw [wp_bind, wp_shr S (by omega), wp_bind]
    refine wp_load_bits hw first.addr (by omega) (by omega) (hm _ (by omega) (by omega)) ?_
    intro x hx
    rw [wp_bind, Int.toNat_natCast, wp_shr S (by omega), wp_bind]
    refine wp_blendAt S (by omega) (by omega) ?_ (hm _ (by omega) (by omega)) ?_
    · rcases hfull with h | h
      · left; omega
      · exact Or.inr h
    intro m' hm'
    rw [wp_pure]
    refine hQ m' _ (BitIter.sub_valid hw _ _) hret ?_
    rw [show first.base * (w : Int) + (first.pos : Int) + ((lp - first.pos : Nat) : Int) = last.addr by omega, ← hfa] at hm'
    intro i
    rw [hm' i]
    have hone : first.addr / (w : Int) = (last.addr - 1) / w := by
      rw [hlast, hfa, mul_add_ediv hw (by omega) (by omega),
        show first.base * (w : Int) + lp - 1 = first.base * w + (lp - 1) by omega, mul_add_ediv hw (by omega) (by omega)]
    by_cases h1 : first.addr ≤ i ∧ i < last.addr
    · rw [if_pos h1]
      obtain ⟨j, hj⟩ : ∃ j : Nat, i = first.base * w + j := ⟨(i - first.base * w).toNat, by omega⟩
      subst hj
      beta_reduce
      rw [show (first.base * (w : Int) + j - first.base * w).toNat = j by omega, BitVec.getLsbD_ushiftRight,
        BitVec.getLsbD_and, BitVec.getLsbD_ushiftRight]
      by_cases h2 : first.base * (w : Int) + j < last.addr - k
      · rw [if_pos ⟨h1.1, h2⟩,
          show first.base * (w : Int) + j + k = first.base * w + ((k + j : Nat) : Int) by omega, hx _ (by omega)]
        simp [show w - lp + (k + j) < w by omega]
      · rw [if_neg (by omega), if_pos ⟨by omega, h1.2, hone⟩]
        simp [show ¬ w - lp + (k + j) < w by omega]
    · rw [if_neg h1, if_neg (by omega), if_neg (by omega)]
  · rw [if_neg hsame]
    have hmany : ¬ first.addr / (w : Int) = (last.addr - 1) / w := not_one_word hf hl hsame
    by_cases hshort : last.addr - first.addr - n ≤ w
    · rw [if_pos hshort, wp_bind]
      obtain ⟨k, hk⟩ : ∃ k : Nat, last.addr - first.addr - n = k := ⟨(last.addr - first.addr - n).toNat, by omega⟩
      rw [hk, Int.toNat_natCast]
      refine wp_getWord S (BitIter.add_valid hw _ _) (by omega) (by omega) ?_ ?_
      · rw [hma]; exact hm.sub (by omega) (by omega)
      intro x hx
      rw [wp_bind]
      refine wp_writeWord S hf (by omega) (by omega) (hm.sub (by omega) (by omega)) ?_
      intro m' hm'
      rw [wp_pure]
      refine hQ m' _ (BitIter.sub_valid hw _ _) hret ?_
      refine ShiftedLAll.of_copied hmany ?_
      refine (copied_of_wrote (s := first.addr + n) hm' ?_).congr rfl rfl (by omega)
      intro j hj
      rw [hma] at hx
      rw [hx j hj]
      congr 2; omega
    · rw [if_neg hshort, wp_bind]
      refine wp_load_bits hw first.addr (by omega) (by omega) (hm _ (by omega) (by omega)) ?_
      intro x0 _
      have main : wp (if first.pos ≠ 0 then do
            let (first, middle) ← shiftLeftAlign S first (first.add n) (last.addr - first.addr) n
            shiftLeftMain S first middle last n
          else shiftLeftMain S first (first.add n) last n) m Q := by
        by_cases hfp : first.pos ≠ 0
        · rw [if_pos hfp, wp_bind]
          refine wp_shiftLeftAlign S hf (BitIter.add_valid hw _ _) (by omega) hma hfp (by omega)
            (hm.sub (by omega) (by omega)) ?_
          intro m1 f1 mi1 hv1 hv2 hp1 ha1 ha2 h1
          dsimp only
          have hm1 : Mapped m1 first.addr last.addr := h1.mapped (hm.sub (by omega) (by omega)) hm
          refine wp_shiftLeftMain S hv1 hv2 hl (by omega) hp1 (by omega) (by omega) (hm1.sub (by omega) (by omega)) ?_
          intro m2 r hr hra h2
          refine hQ m2 r hr hra ?_
          refine ShiftedLAll.of_copied hmany ?_
          rw [ha1, ha2] at h2
          exact (h1.comp (by omega) (by omega) h2 (by omega)).congr (by omega) rfl (by omega)
        · rw [if_neg hfp]
          refine wp_shiftLeftMain S hf (BitIter.add_valid hw _ _) hl (by omega) (by omega) hma (by omega) hm ?_
          intro m2 r hr hra h2
          refine hQ m2 r hr hra ?_
          refine ShiftedLAll.of_copied hmany ?_
          exact h2.congr (by omega) rfl (by omega)
      by_cases hlp : last.pos ≠ 0
      · rw [if_pos hlp, wp_bind]
        refine wp_load_bits hw (last.base * w) (by omega) (by omega) (hm _ (by omega) (by omega)) ?_
        intro x1 _
        exact main
      · rw [if_neg hlp]
        exact main

theorem ShiftedLAll.shiftedL {m m' : Mem w} {a b n : Int} (h0 : 0 < n) (hn : n < b - a) (hm : Mapped m a b)
    (h : ShiftedLAll m m' a b n) : ShiftedL m m' a b n := by
  refine ⟨?_, ?_, ?_⟩
  · intro i h1 h2
    rw [h i, if_pos ⟨h1, h2⟩]
  · intro i h1
    rw [h i, if_neg (by omega), if_neg (by omega)]
  · intro i
    rw [h i]
    split_ifs with h1 h2
    · rw [hm i (by omega) (by omega), hm _ (by omega) (by omega)]
    · rw [hm i (by omega) (by omega)]; rfl
    · rfl

theorem wp_shiftLeft (S : ShiftSem w) {first last : BitIter w} {n : Int} {m : Mem w}
    {Q : BitIter w → Mem w → Prop}
    (hf : first.Valid) (hl : last.Valid) (hle : first.addr ≤ last.addr) (hm : Mapped m first.addr last.addr)
    (hfull : ¬ (first.pos = 0 ∧ last.addr - first.addr = w ∧ 0 < n ∧ n < w) ∨ S.FullShiftOk)
    (hQ0 : n ≤ 0 → Q last m) (hQ1 : 0 < n → last.addr - first.addr ≤ n → Q first m)
    (hQ : 0 < n → n < last.addr - first.addr → ∀ m' (r : BitIter w), r.Valid → r.addr = last.addr - n →
      ShiftedL m m' first.addr last.addr n → Q r m') :
    wp (shiftLeft S first last n) m Q :=
  wp_shiftLeftAll S hf hl hle hm hfull hQ0 hQ1 fun h0 h1 m' r hv ha h => hQ h0 h1 m' r hv ha (h.shiftedL h0 h1 hm)

end BitLib
