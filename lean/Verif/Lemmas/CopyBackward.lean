import Verif.Lemmas.Map
/- Proofs for `copy_backward`. -/
namespace BitLib
variable {w : Nat}

theorem Mapd.compBack {f : Bool → Bool} {m m1 m2 : Mem w} {s d n k : Int} (hn : 0 ≤ n) (hk : 0 ≤ k)
    (h1 : Mapd f m m1 (s + k) (d + k) n) (h2 : Mapd f m1 m2 s d k)
    (hov : s ≤ d ∨ d + k + n ≤ s) : Mapd f m m2 s d (k + n) := by
  intro i
  rw [h2 i]
  beta_reduce
  rw [h1 i, h1 (s + (i - d))]
  beta_reduce
  split_ifs <;> first | rfl | (exfalso; omega) | (congr 2; omega)

theorem wp_copyBackwardHead (S : ShiftSem w) {last d : BitIter w} {total : Nat} {m : Mem w}
    {Q : Nat × BitIter w → Mem w → Prop} (hl : last.Valid) (hd : d.Valid) (ht : 0 < total)
    (hm1 : Mapped m (last.addr - total) last.addr) (hm2 : Mapped m (d.addr - total) d.addr)
    (hQ : ∀ m' (k : Nat) (last' : BitIter w), k = min total d.pos → last'.Valid → last'.addr = last.addr - k →
      (k < total → d.base * (w : Int) = d.addr - k) →
      Mapd id m m' (last.addr - k) (d.addr - k) k → Q (total - k, last') m') :
    wp (copyBackwardHead S last d total) m Q := by
  have hd' : d.pos < w := hd
  have hw : 0 < w := by omega
  have hda : d.addr = d.base * w + d.pos := rfl
  unfold copyBackwardHead
  by_cases hp : d.pos ≠ 0
  · rw [if_pos hp, wp_bind]
    generalize hk : min total d.pos = k
    have hk1 : k ≤ total := by omega
    have hk2 : k ≤ d.pos := by omega
    have hk3 : 0 < k := by omega
    have e1 : (last.sub k).addr = last.addr - k := BitIter.sub_addr hw _ _
    refine wp_getWord S (BitIter.sub_valid hw _ _) (by omega) hk3 ?_ ?_
    · rw [e1]; exact hm1.sub (by omega) (by omega)
    intro x hx
    rw [e1] at hx
    rw [wp_bind, wp_shl S (by omega), wp_bind]
    refine wp_blendAt S (by omega) hk3 (Or.inl (by omega)) (hm2 _ (by omega) (by omega)) ?_
    intro m' hm'
    rw [wp_pure]
    refine hQ m' k _ hk.symm (BitIter.add_valid hw _ _) ?_ ?_ ?_
    · rw [BitIter.add_addr hw]; omega
    · intro h; omega
    · have := mapd_of_wrote (op := id) (f := id) (fun _ _ _ => rfl) (by omega) hx hm'
      rwa [show d.base * (w : Int) + ((d.pos - k : Nat) : Int) = d.addr - k by omega] at this
  · rw [if_neg hp, wp_pure]
    have := hQ m 0 last (by omega) hl (by omega) (by intro _; omega) (by
      simpa using Mapd.zero)
    simpa using this

theorem wp_copyBackwardTail (S : ShiftSem w) {last : BitIter w} {it : Int} {rem : Nat} {m : Mem w}
    {Q : Unit → Mem w → Prop} (hl : last.Valid) (hr : rem ≤ w) (hfull : rem < w ∨ S.FullShiftOk)
    (hm1 : Mapped m (last.addr - rem) last.addr) (hm2 : Mapped m (it * w + w - rem) (it * w + w))
    (hQ : ∀ m', Mapd id m m' (last.addr - rem) (it * w + w - rem) rem → Q () m') :
    wp (copyBackwardTail S rem last it) m Q := by
  have hw : 0 < w := Nat.lt_of_le_of_lt (Nat.zero_le _) hl
  unfold copyBackwardTail
  by_cases h0 : rem > 0
  · rw [if_pos h0, wp_bind]
    have e1 : (last.sub rem).addr = last.addr - rem := BitIter.sub_addr hw _ _
    refine wp_getWord S (BitIter.sub_valid hw _ _) (by omega) h0 ?_ ?_
    · rw [e1]; exact hm1.sub (by omega) (by omega)
    intro x hx
    rw [e1] at hx
    rw [wp_bind, wp_shl S (by omega)]
    refine wp_blendAt S (by omega) h0 hfull (hm2 _ (by omega) (by omega)) ?_
    intro m' hm'
    apply hQ
    have := mapd_of_wrote (op := id) (f := id) (fun _ _ _ => rfl) (by omega) hx hm'
    rwa [show it * (w : Int) + ((w - rem : Nat) : Int) = it * w + w - rem by omega] at this
  · rw [if_neg h0, wp_pure]
    apply hQ
    rw [show rem = 0 by omega]
    simpa using Mapd.zero

theorem wp_copyBackwardLoop (S : ShiftSem w) :
    ∀ (fuel rem : Nat) {last : BitIter w} {it : Int} {m : Mem w}
    {Q : Unit → Mem w → Prop}, last.Valid → rem < fuel →
    Mapped m (last.addr - rem) last.addr → Mapped m (it * w - rem) (it * w) →
    (last.addr ≤ it * w ∨ it * w + rem ≤ last.addr) →
    (∀ m', Mapd id m m' (last.addr - rem) (it * w - rem) rem → Q () m') →
    wp (copyBackwardLoop S fuel rem last it) m Q := by
  intro fuel
  induction fuel with
  | zero => intro rem last it m Q hf h; omega
  | succ fuel ih =>
    intro rem last it m Q hl hfu hm1 hm2 hov hQ
    have hw : 0 < w := Nat.lt_of_le_of_lt (Nat.zero_le _) hl
    have e2 : (it - 1) * (w : Int) = it * w - w := by ring
    unfold copyBackwardLoop
    by_cases h : rem ≥ w
    · rw [if_pos h, wp_bind]
      have e1 : (last.sub w).addr = last.addr - w := BitIter.sub_addr hw _ _
      refine wp_getWord S (BitIter.sub_valid hw _ _) (by omega) hw ?_ ?_
      · rw [e1]; exact hm1.sub (by omega) (by omega)
      intro x hx
      rw [e1] at hx
      rw [wp_bind]
      refine wp_store_bits hw (it * w - w) (by omega) (by omega) (hm2 _ (by omega) (by omega)) ?_
      intro m1 hm1'
      have hmd : Mapd id m m1 (last.addr - w) (it * w - w) w := by
        have := mapd_of_wrote (m := m) (m' := m1) (p := 0) (n := w) (a := it - 1) (s := last.addr - w) (x := x)
          (op := id) (f := id) (fun _ _ _ => rfl) (by omega) hx (by simpa using hm1')
        rw [e2] at this
        simpa using this
      have hsub : Mapped m (last.addr - w) (last.addr - w + w) := hm1.sub (by omega) (by omega)
      have e3 : (last.add (-(w : Int))).addr = last.addr - w := by rw [BitIter.add_addr hw]; omega
      refine ih (rem - w) (BitIter.add_valid hw _ _) (by omega) ?_ ?_ ?_ ?_
      · rw [e3]; exact (hmd.mapped hsub hm1).sub (by omega) (by omega)
      · rw [e2]; exact (hmd.mapped hsub hm2).sub (by omega) (by omega)
      · rw [e3, e2]; omega
      · intro m2 hm2'
        apply hQ
        rw [e3, e2] at hm2'
        have h1 : last.addr - w = last.addr - rem + ((rem - w : Nat) : Int) := by omega
        have h2 : it * (w : Int) - w = it * w - rem + ((rem - w : Nat) : Int) := by omega
        rw [h1, h2] at hmd
        rw [show last.addr - w - ((rem - w : Nat) : Int) = last.addr - rem by omega,
          show it * (w : Int) - w - ((rem - w : Nat) : Int) = it * w - rem by omega] at hm2'
        have := Mapd.compBack (by omega) (by omega) hmd hm2' (by omega)
        rwa [show ((rem - w : Nat) : Int) + (w : Int) = rem by omega] at this
    · rw [if_neg h]
      refine wp_copyBackwardTail S hl (by omega) (Or.inl (by omega)) hm1 ?_ ?_
      · rw [e2]; exact hm2.sub (by omega) (by omega)
      · intro m' hm'
        apply hQ
        rwa [e2, show it * (w : Int) - w + w - rem = it * w - rem by omega] at hm'

theorem wp_stdCopyBackwardN (hw : 0 < w) :
    ∀ (n : Nat) {l dl : Int} {m : Mem w} {Q : Int → Mem w → Prop},
    Mapped m (l * w - n * w) (l * w) → Mapped m (dl * w - n * w) (dl * w) →
    (l * w ≤ dl * w ∨ dl * w + n * w ≤ l * w) →
    (∀ m', Mapd id m m' (l * w - n * w) (dl * w - n * w) (n * w) → Q (dl - n) m') →
    wp (stdCopyBackwardN n l dl) m Q := by
  intro n
  induction n with
  | zero =>
    intro s d m Q hm1 hm2 hov hQ
    unfold stdCopyBackwardN
    rw [wp_pure]
    have := hQ m (by simpa using Mapd.zero)
    simpa using this
  | succ n ih =>
    intro l d m Q hm1 hm2 hov hQ
    have en : ((n + 1 : Nat) : Int) * (w : Int) = n * w + w := by push_cast; ring
    rw [en] at hm1 hm2 hov hQ
    have hnw : 0 ≤ (n : Int) * w := Int.mul_nonneg (by omega) (by omega)
    have e1 : (l - 1) * (w : Int) = l * w - w := by ring
    have e2 : (d - 1) * (w : Int) = d * w - w := by ring
    unfold stdCopyBackwardN
    rw [wp_bind]
    refine wp_load_bits hw (l * w - w) (by omega) (by omega) (hm1 _ (by omega) (by omega)) ?_
    intro x hx
    rw [wp_bind]
    refine wp_store_bits hw (d * w - w) (by omega) (by omega) (hm2 _ (by omega) (by omega)) ?_
    intro m1 hm1'
    have hmd : Mapd id m m1 (l * w - w) (d * w - w) w := by
      have := mapd_of_wrote (m := m) (m' := m1) (p := 0) (n := w) (a := d - 1) (s := (l - 1) * w) (x := x)
        (op := id) (f := id) (fun _ _ _ => rfl)
        (by omega) hx (by simpa using hm1')
      rw [e1, e2] at this
      simpa using this
    have hsub : Mapped m (l * w - w) (l * w - w + w) := hm1.sub (by omega) (by omega)
    refine ih ?_ ?_ ?_ ?_
    · rw [e1]; exact (hmd.mapped hsub hm1).sub (by omega) (by omega)
    · rw [e2]; exact (hmd.mapped hsub hm2).sub (by omega) (by omega)
    · rw [e1, e2]; omega
    · intro m2 hm2'
      rw [e1, e2] at hm2'
      have h1 : l * (w : Int) - w = l * w - (n * w + w) + n * w := by omega
      have h2 : d * (w : Int) - w = d * w - (n * w + w) + n * w := by omega
      rw [h1, h2] at hmd
      rw [show l * (w : Int) - w - n * w = l * w - (n * w + w) by omega,
        show d * (w : Int) - w - n * w = d * w - (n * w + w) by omega] at hm2'
      have h3 := Mapd.compBack (by omega) (by omega) hmd hm2' (by omega)
      have h4 := hQ m2 h3
      rwa [show d - 1 - (n : Int) = d - ((n + 1 : Nat) : Int) by omega]

/-- What remains after the destination end has been aligned. -/
def copyBackwardBody (S : ShiftSem w) (remaining : Nat) (first last : BitIter w) (db : Int) : M w Unit :=
  if remaining > 0 then
    if last.pos = 0 ∧ remaining > w then do
      let N := (last.base - first.base - 1).toNat
      let it ← stdCopyBackward (first.base + 1) last.base db
      copyBackwardTail S (subSize remaining (w * N)) (last.sub ((w : Int) * N)) (it - 1)
    else copyBackwardLoop S (remaining + 1) remaining last db
  else pure ()

theorem wp_copyBackwardBody (S : ShiftSem w) {first last : BitIter w} {it : Int} {rem : Nat} {m : Mem w}
    {Q : Unit → Mem w → Prop} (hf : first.Valid) (hl : last.Valid) (hfirst : 0 < rem → first.addr = last.addr - rem)
    (hfull : first.pos ≠ 0 ∨ last.pos ≠ 0 ∨ rem ≤ w ∨ S.FullShiftOk)
    (hm1 : Mapped m (last.addr - rem) last.addr) (hm2 : 0 < rem → Mapped m (it * w - rem) (it * w))
    (hov : 0 < rem → last.addr ≤ it * w ∨ it * w + rem ≤ last.addr)
    (hQ : ∀ m', Mapd id m m' (last.addr - rem) (it * w - rem) rem → Q () m') :
    wp (copyBackwardBody S rem first last it) m Q := by
  have hw : 0 < w := Nat.lt_of_le_of_lt (Nat.zero_le _) hf
  unfold copyBackwardBody
  by_cases h0 : rem > 0
  · rw [if_pos h0]
    replace hm2 := hm2 h0
    replace hov := hov h0
    replace hfirst := hfirst h0
    by_cases h1 : last.pos = 0 ∧ rem > w
    · rw [if_pos h1]
      have hla : last.addr = last.base * w := by
        show last.base * (w : Int) + last.pos = _
        omega
      have hfa : first.addr = first.base * w + first.pos := rfl
      have hf' : first.pos < w := hf
      have hbase : first.base + 1 ≤ last.base := by
        by_contra hc
        have := base_le_mul (w := w) (a := last.base) (b := first.base) (by omega)
        omega
      obtain ⟨N, hN⟩ : ∃ N : Nat, last.base = first.base + 1 + N := ⟨(last.base - first.base - 1).toNat, by omega⟩
      have eN : (last.base - first.base - 1).toNat = N := by omega
      have eN' : (last.base - (first.base + 1)).toNat = N := by omega
      have hNw : last.base * (w : Int) = first.base * w + w + N * w := by rw [hN]; ring
      have hNN : ((w * N : Nat) : Int) = N * w := by push_cast; ring
      have hNpos : 0 ≤ (N : Int) * w := Int.mul_nonneg (by omega) (by omega)
      rw [eN]
      dsimp only
      rw [wp_bind]
      unfold stdCopyBackward
      rw [wp_bind, wp_wordDist, eN']
      refine ⟨hbase, ?_⟩
      refine wp_stdCopyBackwardN hw N ?_ ?_ ?_ ?_
      · exact hm1.sub (by omega) (by omega)
      · exact hm2.sub (by omega) (by omega)
      · omega
      · intro m1 hm1'
        have hsub : Mapped m (last.base * w - N * w) (last.base * w - N * w + N * w) :=
          hm1.sub (by omega) (by omega)
        have hsz : subSize rem (w * N) = w - first.pos := by
          rw [subSize_le (by omega)]; omega
        rw [hsz]
        have e1 : (last.sub ((w : Int) * N)).addr = last.addr - N * w := by
          rw [BitIter.sub_addr hw]; ring
        have e2 : (it - N - 1) * (w : Int) = it * w - N * w - w := by ring
        have hfull' : w - first.pos < w ∨ S.FullShiftOk := by
          rcases hfull with hh | hh | hh | hh
          · left; omega
          · omega
          · omega
          · exact Or.inr hh
        refine wp_copyBackwardTail S (BitIter.sub_valid hw _ _) (by omega) hfull' ?_ ?_ ?_
        · rw [e1]; exact (hm1'.mapped hsub hm1).sub (by omega) (by omega)
        · rw [e2]; exact (hm1'.mapped hsub hm2).sub (by omega) (by omega)
        · intro m2 hm2'
          apply hQ
          rw [e1, e2] at hm2'
          have h1 : last.base * (w : Int) - N * w = last.addr - rem + ((w - first.pos : Nat) : Int) := by omega
          have h2 : it * (w : Int) - N * w = it * w - rem + ((w - first.pos : Nat) : Int) := by omega
          rw [h1, h2] at hm1'
          rw [show last.addr - N * w - ((w - first.pos : Nat) : Int) = last.addr - rem by omega,
            show it * (w : Int) - N * w - w + w - ((w - first.pos : Nat) : Int) = it * w - rem by omega] at hm2'
          have := Mapd.compBack (by omega) (by omega) hm1' hm2' (by omega)
          rwa [show ((w - first.pos : Nat) : Int) + (N : Int) * w = rem by omega] at this
    · rw [if_neg h1]
      exact wp_copyBackwardLoop S _ _ hl (by omega) hm1 hm2 hov hQ
  · rw [if_neg h0, wp_pure]
    apply hQ
    rw [show rem = 0 by omega]
    simpa using Mapd.zero

theorem copyBackward_eq_body (S : ShiftSem w) (first last d : BitIter w) :
    copyBackward S first last d = (do
      assertViable first last
      if first.beq last then pure d
      else do
        let dd ← distance first last
        let r ← copyBackwardHead S last d dd.toNat
        copyBackwardBody S r.1 first r.2 d.base
        pure (d.sub dd.toNat)) := by
  unfold copyBackward copyBackwardBody
  congr 1; funext _
  split_ifs
  · rfl
  · refine bind_congr fun dd => bind_congr fun r => ?_
    obtain ⟨rem, last'⟩ := r
    dsimp only
    split_ifs <;> simp

theorem wp_copyBackward (S : ShiftSem w) {first last d : BitIter w} {m : Mem w}
    {Q : BitIter w → Mem w → Prop} (hf : first.Valid) (hl : last.Valid) (hd : d.Valid)
    (hle : first.addr ≤ last.addr)
    (hfull : ¬ (first.pos = 0 ∧ last.pos = d.pos ∧ first.base + 2 ≤ last.base) ∨ S.FullShiftOk)
    (hm1 : Mapped m first.addr last.addr) (hm2 : Mapped m (d.addr - (last.addr - first.addr)) d.addr)
    (hov : last.addr ≤ d.addr ∨ d.addr ≤ first.addr)
    (hQ : ∀ m' (r : BitIter w), r.Valid → r.addr = d.addr - (last.addr - first.addr) →
      Copied m m' first.addr (d.addr - (last.addr - first.addr)) (last.addr - first.addr) → Q r m') :
    wp (copyBackward S first last d) m Q := by
  have hw : 0 < w := Nat.lt_of_le_of_lt (Nat.zero_le _) hf
  rw [copyBackward_eq_body, wp_bind, wp_assertViable]
  refine ⟨hle, ?_⟩
  by_cases h : first.beq last
  · rw [if_pos h, wp_pure]
    rw [BitIter.beq_iff hf hl] at h
    refine hQ m d hd (by omega) ?_
    rw [h, Int.sub_self]
    exact copied_of_mapd Mapd.zero
  · rw [if_neg h, wp_bind, wp_distance]
    refine ⟨hle, ?_⟩
    rw [BitIter.beq_iff hf hl] at h
    obtain ⟨n, hn⟩ : ∃ n : Nat, last.addr - first.addr = n := ⟨(last.addr - first.addr).toNat, by omega⟩
    rw [hn, Int.toNat_natCast, wp_bind]
    rw [hn] at hm2 hQ
    have hm1' : Mapped m (last.addr - n) last.addr := hm1.sub (by omega) (by omega)
    refine wp_copyBackwardHead S hl hd (by omega) hm1' hm2 ?_
    intro m1 k last' hk hl' hla hit hmd
    dsimp only
    have hms : Mapped m (last.addr - k) (last.addr - k + k) := hm1.sub (by omega) (by omega)
    rw [wp_bind]
    refine wp_copyBackwardBody S hf hl' (by omega) ?_ ?_ ?_ ?_ ?_
    · by_cases hc : n - k ≤ w
      · omega
      · rcases hfull with hh | hh
        · by_cases hfp : first.pos = 0
          swap
          · exact Or.inl hfp
          right; left
          intro h0
          apply hh
          have e1 : last'.base * (w : Int) + last'.pos = last.base * w + last.pos - k := hla
          have e2 : d.base * (w : Int) = d.base * w + d.pos - k := hit (by omega)
          have hlp : last.pos < w := hl
          have hdp : d.pos < w := hd
          have e3 : last.base * (w : Int) + last.pos = last'.base * w + d.pos := by omega
          have := congrArg (· % (w : Int)) e3
          simp only [emod_of_word _ _ hlp, emod_of_word _ _ hdp] at this
          refine ⟨hfp, by omega, ?_⟩
          by_contra hc2
          have e4 : first.addr = first.base * w + first.pos := rfl
          have e5 : last.addr = last.base * w + last.pos := rfl
          have := base_le_mul (w := w) (a := last.base) (b := first.base + 1) (by omega)
          rw [Int.add_mul] at this
          omega
        · exact Or.inr (Or.inr (Or.inr hh))
    · exact (hmd.mapped hms hm1').sub (by omega) (by omega)
    · intro h0; rw [hit (by omega)]; exact (hmd.mapped hms hm2).sub (by omega) (by omega)
    · intro h0; rw [hit (by omega)]; omega
    · intro m2 hm2'
      rw [wp_pure]
      refine hQ m2 _ (BitIter.sub_valid hw _ _) (BitIter.sub_addr hw _ _) (copied_of_mapd ?_)
      by_cases hkn : k < n
      · rw [hit hkn, hla] at hm2'
        rw [show last.addr - k = first.addr + ((n - k : Nat) : Int) by omega,
          show d.addr - k = d.addr - n + ((n - k : Nat) : Int) by omega] at hmd
        rw [show last.addr - k - ((n - k : Nat) : Int) = first.addr by omega,
          show d.addr - k - ((n - k : Nat) : Int) = d.addr - n by omega] at hm2'
        have := Mapd.compBack (by omega) (by omega) hmd hm2' (by omega)
        rwa [show ((n - k : Nat) : Int) + (k : Int) = n by omega] at this
      · have hkn' : k = n := by omega
        subst hkn'
        have : m2 = m1 := by
          apply mem_ext_bitAt hw
          intro i
          rw [hm2' i, if_neg (by omega)]
        rw [this]
        rwa [show last.addr - k = first.addr by omega] at hmd

end BitLib
