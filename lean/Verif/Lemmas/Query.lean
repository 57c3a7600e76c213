import Verif.Lemmas.Map
import Verif.Model.Query
/- Proofs for `fill`, `find`, `equal` and `count`. -/
namespace BitLib
variable {w : Nat}

/-! ### fill -/

theorem fillWord_get (v : Bool) (i : Nat) (hi : i < w) : (fillWord v : BitVec w).getLsbD i = v := by
  unfold fillWord
  cases v <;> simp [hi]

theorem Wrote.const_comp {m m1 m2 : Mem w} {a b c : Int} {v : Option Bool}
    (h1 : Wrote m m1 a b fun _ => v) (h2 : Wrote m1 m2 b c fun _ => v) (hab : a ≤ b) (hbc : b ≤ c) :
    Wrote m m2 a c fun _ => v := by
  intro i
  rw [h2 i]
  beta_reduce
  rw [h1 i]
  split_ifs <;> first | rfl | (exfalso; omega)

theorem wrote_empty {m : Mem w} {a : Int} {f : Int → Option Bool} : Wrote m m a a f := by
  intro i; rw [if_neg (by omega)]

theorem wp_writeFill (S : ShiftSem w) {v : Bool} {it : BitIter w} {len : Nat} {m : Mem w}
    {Q : Unit → Mem w → Prop} (hv : it.Valid) (hlen : len ≤ w) (h0 : 0 < len)
    (hm : Mapped m it.addr (it.addr + len))
    (hQ : ∀ m', Wrote m m' it.addr (it.addr + len) (fun _ => some v) → Q () m') :
    wp (writeWord S (fillWord v) it len) m Q := by
  refine wp_writeWord S hv hlen h0 hm ?_
  intro m' hm'
  apply hQ
  intro i
  rw [hm' i]
  split_ifs with h
  · beta_reduce; rw [fillWord_get v _ (by omega)]
  · rfl

theorem wp_stdFillN (hw : 0 < w) (v : Bool) :
    ∀ (n : Nat) {d : Int} {m : Mem w} {Q : Unit → Mem w → Prop},
    Mapped m (d * w) (d * w + n * w) →
    (∀ m', Wrote m m' (d * w) (d * w + n * w) (fun _ => some v) → Q () m') →
    wp (stdFillN (fillWord v) n d) m Q := by
  intro n
  induction n with
  | zero =>
    intro d m Q hm hQ
    unfold stdFillN
    rw [wp_pure]
    apply hQ
    simpa using wrote_empty
  | succ n ih =>
    intro d m Q hm hQ
    have en : ((n + 1 : Nat) : Int) * (w : Int) = n * w + w := by push_cast; ring
    have hnw : 0 ≤ (n : Int) * w := Int.mul_nonneg (by omega) (by omega)
    have e2 : (d + 1) * (w : Int) = d * w + w := by ring
    rw [en] at hm hQ
    unfold stdFillN
    rw [wp_bind]
    refine wp_store_bits hw (d * w) (by omega) (by omega) (hm _ (by omega) (by omega)) ?_
    intro m1 hm1
    have h1 : Wrote m m1 (d * w) (d * w + w) (fun _ => some v) := by
      intro i
      rw [hm1 i]
      split_ifs with h
      · beta_reduce; rw [fillWord_get v _ (by omega)]
      · rfl
    refine ih ?_ ?_
    · rw [e2]; exact (h1.mapped (fun _ _ _ => rfl) hm).sub (by omega) (by omega)
    · intro m2 h2
      apply hQ
      rw [e2] at h2
      have := h1.const_comp h2 (by omega) (by omega)
      rwa [show d * (w : Int) + w + n * w = d * w + (n * w + w) by omega] at this

theorem wp_stdFill (hw : 0 < w) (v : Bool) {a b : Int} {m : Mem w} {Q : Unit → Mem w → Prop} (hab : a ≤ b)
    (hm : Mapped m (a * w) (b * w))
    (hQ : ∀ m', Wrote m m' (a * w) (b * w) (fun _ => some v) → Q () m') :
    wp (stdFill a b (fillWord v)) m Q := by
  unfold stdFill
  rw [wp_bind, wp_wordDist]
  refine ⟨hab, ?_⟩
  obtain ⟨N, hN⟩ : ∃ N : Nat, b = a + N := ⟨(b - a).toNat, by omega⟩
  have hNw : b * (w : Int) = a * w + N * w := by rw [hN]; ring
  rw [show (b - a).toNat = N by omega]
  rw [hNw] at hm hQ
  exact wp_stdFillN hw v N hm hQ

/-- Order of bases from order of addresses. -/
theorem base_le_of_addr {a b : BitIter w} (hb : b.Valid) (h : a.addr ≤ b.addr) : a.base ≤ b.base := by
  by_contra hc
  have := base_lt_mul (w := w) (a := b.base) (b := a.base) (by omega)
  have h1 : a.base * (w : Int) + a.pos ≤ b.base * w + b.pos := h
  have h2 : b.pos < w := hb
  omega

theorem wp_fill (S : ShiftSem w) {first last : BitIter w} {v : Bool} {m : Mem w} {Q : Unit → Mem w → Prop}
    (hf : first.Valid) (hl : last.Valid) (hle : first.addr ≤ last.addr) (hm : Mapped m first.addr last.addr)
    (hQ : ∀ m', Wrote m m' first.addr last.addr (fun _ => some v) → Q () m') :
    wp (fill S first last v) m Q := by
  have hw : 0 < w := Nat.lt_of_le_of_lt (Nat.zero_le _) hf
  have hf' : first.pos < w := hf
  have hl' : last.pos < w := hl
  have hfa : first.addr = first.base * w + first.pos := rfl
  have hla : last.addr = last.base * w + last.pos := rfl
  unfold fill
  rw [wp_bind, wp_assertViable]
  refine ⟨hle, ?_⟩
  rw [wp_bind, wp_distance]
  refine ⟨hle, ?_⟩
  by_cases h0 : last.addr - first.addr = 0
  · rw [if_pos h0, wp_pure]
    apply hQ
    rw [show last.addr = first.addr by omega]
    exact wrote_empty
  · rw [if_neg h0]
    by_cases hwi : isWithin w first last
    · rw [if_pos hwi]
      rw [isWithin_iff w first last hf hl hle] at hwi
      refine wp_writeFill S hf (by omega) (by omega) (hm.sub (by omega) (by omega)) ?_
      intro m' hm'
      apply hQ
      rwa [show first.addr + ((last.addr - first.addr).toNat : Int) = last.addr by omega] at hm'
    · rw [if_neg hwi]
      rw [isWithin_iff w first last hf hl hle] at hwi
      have hb1 : first.base + 1 ≤ last.base := by
        by_contra hc
        have := base_le_mul (w := w) (a := last.base) (b := first.base) (by omega)
        omega
      have hb2 := base_le_mul (w := w) hb1
      have e1 : (first.base + 1) * (w : Int) = first.base * w + w := by ring
      have tail : ∀ m1, Wrote m m1 first.addr (last.base * w) (fun _ => some v) →
          wp (if last.pos ≠ 0 then writeWord S (fillWord v) (BitIter.aligned last.base) last.pos
            else pure ()) m1 Q := by
        intro m1 hm1
        by_cases hlp : last.pos ≠ 0
        · rw [if_pos hlp]
          have ea : (BitIter.aligned last.base : BitIter w).addr = last.base * w := by
            show last.base * (w : Int) + (0 : Nat) = _; omega
          refine wp_writeFill S (show 0 < w from hw) (by omega) (by omega) ?_ ?_
          · rw [ea]; exact (hm1.mapped (fun _ _ _ => rfl) hm).sub (by omega) (by omega)
          · intro m2 hm2
            apply hQ
            rw [ea, ← hla] at hm2
            exact hm1.const_comp hm2 (by omega) (by omega)
        · rw [if_neg hlp, wp_pure]
          apply hQ
          rwa [show last.addr = last.base * w by omega]
      dsimp only
      by_cases hfp : first.pos ≠ 0
      · rw [if_pos hfp, wp_bind]
        refine wp_writeFill S hf (by omega) (by omega) (hm.sub (by omega) (by omega)) ?_
        intro m1 hm1
        rw [show first.addr + ((w - first.pos : Nat) : Int) = (first.base + 1) * w by omega] at hm1
        rw [wp_bind]
        refine wp_stdFill hw v hb1 ?_ ?_
        · exact (hm1.mapped (fun _ _ _ => rfl) hm).sub (by omega) (by omega)
        · intro m2 hm2
          exact tail m2 (hm1.const_comp hm2 (by omega) (by omega))
      · rw [if_neg hfp, wp_bind]
        refine wp_stdFill hw v (by omega) (hm.sub (by omega) (by omega)) ?_
        intro m1 hm1
        apply tail
        rwa [show first.addr = first.base * w by omega]

/-! ### find -/

theorem tzcntAux_spec (x : BitVec w) : ∀ (k i : Nat),
    i ≤ tzcntAux x k i ∧ tzcntAux x k i ≤ i + k ∧
    (∀ j, i ≤ j → j < tzcntAux x k i → x.getLsbD j = false) ∧
    (tzcntAux x k i < i + k → x.getLsbD (tzcntAux x k i) = true) := by
  intro k
  induction k with
  | zero => intro i; unfold tzcntAux; refine ⟨?_, ?_, ?_, ?_⟩ <;> (try intros) <;> omega
  | succ k ih =>
    intro i
    unfold tzcntAux
    by_cases h : x.getLsbD i
    · rw [if_pos h]
      exact ⟨by omega, by omega, fun j h1 h2 => by omega, fun _ => h⟩
    · rw [if_neg h]
      obtain ⟨h1, h2, h3, h4⟩ := ih (i + 1)
      refine ⟨by omega, by omega, ?_, fun hh => h4 (by omega)⟩
      intro j hj1 hj2
      by_cases hj : j = i
      · subst hj; simpa using h
      · exact h3 j (by omega) hj2

theorem tzFor_spec (v : Bool) (x : BitVec w) :
    tzFor v x ≤ w ∧ (∀ j, j < tzFor v x → x.getLsbD j = !v) ∧ (tzFor v x < w → x.getLsbD (tzFor v x) = v) := by
  cases v
  · obtain ⟨h1, h2, h3, h4⟩ := tzcntAux_spec (~~~x) w 0
    show tzcntAux (~~~x) w 0 ≤ w ∧ (∀ j, j < tzcntAux (~~~x) w 0 → _) ∧ (tzcntAux (~~~x) w 0 < w → _)
    refine ⟨by omega, ?_, ?_⟩
    · intro j hj
      have := h3 j (by omega) hj
      rw [BitVec.getLsbD_not] at this
      simpa [show j < w by omega] using this
    · intro hh
      have := h4 (by omega)
      rw [BitVec.getLsbD_not] at this
      show x.getLsbD (tzcntAux (~~~x) w 0) = false
      revert this
      generalize tzcntAux (~~~x) w 0 = t at hh
      cases x.getLsbD t <;> simp
  · obtain ⟨h1, h2, h3, h4⟩ := tzcntAux_spec x w 0
    show tzcntAux x w 0 ≤ w ∧ (∀ j, j < tzcntAux x w 0 → _) ∧ (tzcntAux x w 0 < w → _)
    exact ⟨by omega, fun j hj => by simpa using h3 j (by omega) hj, fun hh => h4 (by omega)⟩

theorem wp_stdFindIfN (hw : 0 < w) (p : BitVec w → Bool) :
    ∀ (n : Nat) {a : Int} {m : Mem w} {Q : Int → Mem w → Prop},
    Mapped m (a * w) (a * w + n * w) →
    (∀ k : Nat, k ≤ n → (∀ j : Nat, j < k → ∃ x, m (a + j) = some x ∧ p x = false) →
      (k < n → ∃ x, m (a + k) = some x ∧ p x = true) → Q (a + k) m) →
    wp (stdFindIfN p n a) m Q := by
  intro n
  induction n with
  | zero =>
    intro a m Q hm hQ
    unfold stdFindIfN
    rw [wp_pure]
    have := hQ 0 (by omega) (by intro j hj; omega) (by intro h; omega)
    simpa using this
  | succ n ih =>
    intro a m Q hm hQ
    have en : ((n + 1 : Nat) : Int) * (w : Int) = n * w + w := by push_cast; ring
    have hnw : 0 ≤ (n : Int) * w := Int.mul_nonneg (by omega) (by omega)
    have e2 : (a + 1) * (w : Int) = a * w + w := by ring
    rw [en] at hm
    unfold stdFindIfN
    rw [wp_bind, wp_load]
    obtain ⟨x, hx⟩ := mapped_word hw (m := m) (a := a) (i := a * w) (by omega) (by omega) (hm _ (by omega) (by omega))
    refine ⟨x, hx, ?_⟩
    by_cases hp : p x
    · rw [if_pos hp, wp_pure]
      have := hQ 0 (by omega) (by intro j hj; omega) (by intro _; exact ⟨x, by simpa using hx, hp⟩)
      simpa using this
    · rw [if_neg hp]
      refine ih ?_ ?_
      · rw [e2]; exact hm.sub (by omega) (by omega)
      · intro k hk h1 h2
        have := hQ (k + 1) (by omega) ?_ ?_
        · rwa [show a + 1 + (k : Int) = a + ((k + 1 : Nat) : Int) by omega]
        · intro j hj
          cases j with
          | zero => exact ⟨x, by simpa using hx, by simpa using hp⟩
          | succ j =>
            obtain ⟨y, hy1, hy2⟩ := h1 j (by omega)
            exact ⟨y, by rwa [show a + ((j + 1 : Nat) : Int) = a + 1 + j by omega], hy2⟩
        · intro hlt
          obtain ⟨y, hy1, hy2⟩ := h2 (by omega)
          exact ⟨y, by rwa [show a + ((k + 1 : Nat) : Int) = a + 1 + k by omega], hy2⟩

theorem wp_stdFindIf (hw : 0 < w) (p : BitVec w → Bool) {a b : Int} {m : Mem w} {Q : Int → Mem w → Prop}
    (hab : a ≤ b) (hm : Mapped m (a * w) (b * w))
    (hQ : ∀ c : Int, a ≤ c → c ≤ b → (∀ j : Int, a ≤ j → j < c → ∃ x, m j = some x ∧ p x = false) →
      (c < b → ∃ x, m c = some x ∧ p x = true) → Q c m) :
    wp (stdFindIf a b p) m Q := by
  unfold stdFindIf
  rw [wp_bind, wp_wordDist]
  refine ⟨hab, ?_⟩
  obtain ⟨N, hN⟩ : ∃ N : Nat, b = a + N := ⟨(b - a).toNat, by omega⟩
  have hNw : b * (w : Int) = a * w + N * w := by rw [hN]; ring
  rw [show (b - a).toNat = N by omega]
  rw [hNw] at hm
  refine wp_stdFindIfN hw p N hm ?_
  intro k hk h1 h2
  refine hQ _ (by omega) (by omega) ?_ ?_
  · intro j hj1 hj2
    obtain ⟨x, hx⟩ := h1 (j - a).toNat (by omega)
    rw [show a + ((j - a).toNat : Int) = j by omega] at hx
    exact ⟨x, hx⟩
  · intro hlt
    exact h2 (by omega)

theorem bitAt_of_word {m : Mem w} {a i : Int} {x : BitVec w} (hx : m a = some x)
    (h1 : a * (w : Int) ≤ i) (h2 : i < a * w + w) : bitAt m i = some (x.getLsbD (i - a * w).toNat) := by
  obtain ⟨k, hk⟩ : ∃ k : Nat, i = a * w + k := ⟨(i - a * w).toNat, by omega⟩
  subst hk
  rw [bitAt_word _ _ _ (by omega), hx]
  simp

theorem wp_findWords {last : BitIter w} {v : Bool} {a : Int} {m : Mem w} {Q : BitIter w → Mem w → Prop}
    (hl : last.Valid) (hab : a ≤ last.base) (hm : Mapped m (a * w) last.addr)
    (hQ : ∀ r : BitIter w, r.Valid → FirstAt m v (a * w) last.addr r.addr → Q r m) :
    wp (findWords a last v) m Q := by
  have hw : 0 < w := Nat.lt_of_le_of_lt (Nat.zero_le _) hl
  have hl' : last.pos < w := hl
  have hla : last.addr = last.base * w + last.pos := rfl
  have hbm := base_le_mul (w := w) hab
  unfold findWords
  rw [wp_bind]
  refine wp_stdFindIf hw _ hab (hm.sub (by omega) (by omega)) ?_
  intro c hac hcb hall hc
  -- all bits before word `c` differ from `v`
  have hbefore : ∀ i, a * (w : Int) ≤ i → i < c * w → bitAt m i = some (!v) := by
    intro i h1 h2
    obtain ⟨b, q, hq, rfl⟩ := word_decomp hw i
    have hb1 : a ≤ b := by
      by_contra hcc
      have := base_lt_mul (w := w) (a := b) (b := a) (by omega)
      omega
    have hb2 : b < c := by
      by_contra hcc
      have := base_le_mul (w := w) (a := c) (b := b) (by omega)
      omega
    obtain ⟨x, hx, hp⟩ := hall b hb1 hb2
    rw [bitAt_word _ _ _ hq, hx]
    cases v
    · simp only [decide_eq_false_iff_not, Decidable.not_not, Bool.false_eq_true, if_false] at hp
      subst hp
      simp [hq]
    · simp only [decide_eq_false_iff_not, Decidable.not_not, if_true] at hp
      subst hp
      simp
  have hcm := base_le_mul (w := w) hcb
  have hacm := base_le_mul (w := w) hac
  by_cases hcl : c ≠ last.base
  · rw [if_pos hcl, wp_bind, wp_load]
    obtain ⟨x, hx, hp⟩ := hc (by omega)
    refine ⟨x, hx, ?_⟩
    rw [wp_mk?]
    have hcm' := base_lt_mul (w := w) (a := c) (b := last.base) (by omega)
    obtain ⟨t1, t2, t3⟩ := tzFor_spec v x
    have hlt : tzFor v x < w := by
      by_contra hcc
      have : x = if v then 0#w else BitVec.allOnes w := by
        apply BitVec.eq_of_getLsbD_eq
        intro i hi
        rw [t2 i (by omega)]
        cases v <;> simp [hi]
      rw [this] at hp
      cases v <;> simp at hp
    refine ⟨hlt, hQ _ hlt ⟨?_, ?_, ?_, ?_⟩⟩
    · show a * (w : Int) ≤ c * w + (tzFor v x : Nat); omega
    · show c * (w : Int) + (tzFor v x : Nat) ≤ _; omega
    · intro i h1 h2
      replace h2 : i < c * (w : Int) + (tzFor v x : Nat) := h2
      by_cases h3 : i < c * w
      · exact hbefore i h1 h3
      · rw [bitAt_of_word hx (by omega) (by omega), t2 _ (by omega)]
    · intro _
      show bitAt m (c * (w : Int) + (tzFor v x : Nat)) = _
      rw [bitAt_word _ _ _ hlt, hx]
      simp [t3 hlt]
  · rw [if_neg hcl]
    have hcl' : c = last.base := by omega
    subst hcl'
    by_cases hlp : last.pos ≠ 0
    · rw [if_pos hlp, wp_bind]
      refine wp_load.2 ?_
      obtain ⟨x, hx⟩ := mapped_word hw (m := m) (a := last.base) (i := last.base * w) (by omega) (by omega)
        (hm _ (by omega) (by omega))
      refine ⟨x, hx, ?_⟩
      obtain ⟨t1, t2, t3⟩ := tzFor_spec v x
      rw [wp_mk?]
      have hmin : min (tzFor v x) last.pos < w := by omega
      refine ⟨hmin, hQ _ hmin ⟨?_, ?_, ?_, ?_⟩⟩
      · show a * (w : Int) ≤ last.base * w + (min (tzFor v x) last.pos : Nat); omega
      · show last.base * (w : Int) + (min (tzFor v x) last.pos : Nat) ≤ _; omega
      · intro i h1 h2
        replace h2 : i < last.base * (w : Int) + (min (tzFor v x) last.pos : Nat) := h2
        by_cases h3 : i < last.base * w
        · exact hbefore i h1 h3
        · rw [bitAt_of_word hx (by omega) (by omega), t2 _ (by omega)]
      · intro h2
        replace h2 : last.base * (w : Int) + (min (tzFor v x) last.pos : Nat) < last.addr := h2
        show bitAt m (last.base * (w : Int) + (min (tzFor v x) last.pos : Nat)) = _
        rw [bitAt_word _ _ _ hmin, hx, show min (tzFor v x) last.pos = tzFor v x by omega]
        simp [t3 (by omega)]
    · rw [if_neg hlp, wp_pure]
      refine hQ _ hl ⟨by omega, by omega, ?_, fun h => by omega⟩
      intro i h1 h2
      exact hbefore i h1 (by omega)

theorem wp_find (S : ShiftSem w) {first last : BitIter w} {v : Bool} {m : Mem w} {Q : BitIter w → Mem w → Prop}
    (hf : first.Valid) (hl : last.Valid) (hle : first.addr ≤ last.addr) (hm : Mapped m first.addr last.addr)
    (hne : first.addr < last.addr ∨ first.pos = 0 ∨ (bitAt m first.addr).isSome)
    (hQ : ∀ r : BitIter w, r.Valid → FirstAt m v first.addr last.addr r.addr → Q r m) :
    wp (find S first last v) m Q := by
  have hw : 0 < w := Nat.lt_of_le_of_lt (Nat.zero_le _) hf
  have hf' : first.pos < w := hf
  have hl' : last.pos < w := hl
  have hfa : first.addr = first.base * w + first.pos := rfl
  have hla : last.addr = last.base * w + last.pos := rfl
  have hbb := base_le_of_addr hl hle
  unfold find
  by_cases hfp : first.pos ≠ 0
  · rw [if_pos hfp, wp_bind, wp_load]
    have hmap : (bitAt m first.addr).isSome := by
      rcases hne with h | h | h
      · exact hm _ (by omega) h
      · exact absurd h hfp
      · exact h
    obtain ⟨x, hx⟩ := mapped_word hw (m := m) (a := first.base) (i := first.addr) (by omega) (by omega) hmap
    refine ⟨x, hx, ?_⟩
    rw [wp_bind, wp_shr S hf']
    obtain ⟨t1, t2, t3⟩ := tzFor_spec v (x >>> first.pos)
    simp only [BitVec.getLsbD_ushiftRight] at t2 t3
    dsimp only
    generalize htz : tzFor v (x >>> first.pos) = num at t1 t2 t3
    have hbit : ∀ k : Nat, first.pos + k < w → bitAt m (first.addr + k) = some (x.getLsbD (first.pos + k)) := by
      intro k hk
      rw [hfa, show first.base * (w : Int) + first.pos + k = first.base * w + ((first.pos + k : Nat) : Int) by omega,
        bitAt_word _ _ _ hk, hx]
      rfl
    have hbelow : ∀ i, first.addr ≤ i → i < first.addr + num → i < first.base * w + w → bitAt m i = some (!v) := by
      intro i h1 h2 h3
      have := hbit (i - first.addr).toNat (by omega)
      rw [t2 _ (by omega), show first.addr + ((i - first.addr).toNat : Int) = i by omega] at this
      exact this
    by_cases hsame : first.base + (if last.pos = 0 then 1 else 0) = last.base
    · rw [if_pos hsame, wp_bind, wp_distance]
      refine ⟨hle, ?_⟩
      rw [wp_pure]
      have hd : last.addr - first.addr ≤ w - first.pos := by
        by_cases hlp : last.pos = 0
        · rw [if_pos hlp] at hsame
          rw [hla, ← hsame, hfa, Int.add_mul]; omega
        · rw [if_neg hlp] at hsame
          rw [Int.add_zero] at hsame
          rw [hla, ← hsame, hfa]; omega
      refine hQ _ (BitIter.add_valid hw _ _) ?_
      rw [BitIter.add_addr hw]
      refine ⟨by omega, by omega, ?_, ?_⟩
      · intro i h1 h2
        exact hbelow i h1 (by omega) (by omega)
      · intro h2
        have hmin : min num (last.addr - first.addr).toNat = num := by omega
        rw [hmin] at h2 ⊢
        rw [hbit num (by omega), t3 (by omega)]
    · rw [if_neg hsame]
      -- the range extends beyond the first word
      have hbig : first.base * (w : Int) + w ≤ last.base * w := by
        have : first.base + 1 ≤ last.base := by
          by_contra hc
          have hbe : first.base = last.base := by omega
          by_cases hlp : last.pos = 0
          · rw [hbe] at hfa; omega
          · rw [if_neg hlp] at hsame; omega
        exact base_lt_mul (by omega)
      by_cases hnum : num + first.pos < w
      · rw [if_pos hnum, wp_pure]
        refine hQ _ (BitIter.add_valid hw _ _) ?_
        rw [BitIter.add_addr hw]
        refine ⟨by omega, by omega, ?_, ?_⟩
        · intro i h1 h2
          exact hbelow i h1 h2 (by omega)
        · intro _
          rw [hbit num (by omega), t3 (by omega)]
      · rw [if_neg hnum]
        have hnext : (first.add ((w - first.pos : Nat) : Int)) = ⟨first.base + 1, 0⟩ := by
          refine BitIter.addr_inj (BitIter.add_valid hw _ _) (b := ⟨first.base + 1, 0⟩) hw ?_
          rw [BitIter.add_addr hw, hfa]
          show _ = (first.base + 1) * (w : Int) + (0 : Nat)
          rw [Int.add_mul]; omega
        rw [hnext]
        have e1 : (first.base + 1) * (w : Int) = first.base * w + w := by ring
        refine wp_findWords hl ?_ ?_ ?_
        · show first.base + 1 ≤ last.base
          by_contra hc
          have := base_le_mul (w := w) (a := last.base) (b := first.base) (by omega)
          omega
        · show Mapped m ((first.base + 1) * (w : Int)) last.addr
          rw [e1]; exact hm.sub (by omega) (by omega)
        · intro r hr hfr
          replace hfr : FirstAt m v ((first.base + 1) * (w : Int)) last.addr r.addr := hfr
          rw [e1] at hfr
          obtain ⟨g1, g2, g3, g4⟩ := hfr
          refine hQ r hr ⟨by omega, g2, ?_, g4⟩
          intro i h1 h2
          by_cases h3 : i < first.base * w + w
          · exact hbelow i h1 (by omega) h3
          · exact g3 i (by omega) h2
  · rw [if_neg hfp]
    refine wp_findWords hl hbb (hm.sub (by omega) (by omega)) ?_
    intro r hr hfr
    refine hQ r hr ?_
    rwa [show first.base * (w : Int) = first.addr by omega] at hfr

/-! ### equal -/

theorem EqBits.append {m : Mem w} {s d n k : Int} (hn : 0 ≤ n) (hk : 0 ≤ k) :
    EqBits m s d (n + k) ↔ EqBits m s d n ∧ EqBits m (s + n) (d + n) k := by
  constructor
  · intro h
    refine ⟨fun i h1 h2 => h i h1 (by omega), fun i h1 h2 => ?_⟩
    have := h (n + i) (by omega) (by omega)
    rwa [← Int.add_assoc, ← Int.add_assoc] at this
  · rintro ⟨h1, h2⟩ i h3 h4
    by_cases hi : i < n
    · exact h1 i h3 hi
    · have := h2 (i - n) (by omega) (by omega)
      rwa [show s + n + (i - n) = s + i by omega, show d + n + (i - n) = d + i by omega] at this

theorem masked_eq_iff {m : Mem w} {msk x y : BitVec w} {s d : Int} {p n : Nat} (hpn : p + n ≤ w)
    (hmsk : ∀ i, i < w → msk.getLsbD i = decide (p ≤ i ∧ i < p + n))
    (hx : ∀ i : Nat, i < n → bitAt m (d + i) = some (x.getLsbD (p + i)))
    (hy : ∀ i : Nat, i < n → bitAt m (s + i) = some (y.getLsbD (p + i))) :
    msk &&& x = msk &&& y ↔ EqBits m s d n := by
  constructor
  · intro h i h1 h2
    obtain ⟨k, rfl⟩ : ∃ k : Nat, i = k := ⟨i.toNat, by omega⟩
    rw [hx k (by omega), hy k (by omega)]
    have := congrArg (fun z => BitVec.getLsbD z (p + k)) h
    simp only [BitVec.getLsbD_and, hmsk (p + k) (by omega)] at this
    simpa [show k < n by omega] using this.symm
  · intro h
    apply BitVec.eq_of_getLsbD_eq
    intro i hi
    rw [BitVec.getLsbD_and, BitVec.getLsbD_and, hmsk i hi]
    by_cases hc : p ≤ i ∧ i < p + n
    · have := h ((i - p : Nat) : Int) (by omega) (by omega)
      rw [hx _ (by omega), hy _ (by omega), show p + (i - p) = i by omega] at this
      simp only [Option.some.injEq] at this
      rw [this]
    · simp [hc]

theorem wp_equalTail (S : ShiftSem w) {first : BitIter w} {it : Int} {rem : Nat} {m : Mem w}
    {Q : Bool → Mem w → Prop} (hf : first.Valid) (hr : rem < w)
    (hm1 : Mapped m first.addr (first.addr + rem)) (hm2 : Mapped m (it * w) (it * w + rem))
    (hQ : ∀ b : Bool, (b = true ↔ EqBits m first.addr (it * w) rem) → Q b m) :
    wp (equalTail S rem first it) m Q := by
  have hw : 0 < w := by omega
  unfold equalTail
  by_cases h0 : rem > 0
  · rw [if_pos h0, wp_bind]
    refine wp_lowMask S hr ?_
    intro k hk
    rw [wp_bind]
    refine wp_getWord S hf (by omega) h0 hm1 ?_
    intro y hy
    rw [wp_bind]
    refine wp_load_bits hw (it * w) (by omega) (by omega) (hm2 _ (by omega) (by omega)) ?_
    intro x hx
    rw [wp_pure]
    apply hQ
    rw [decide_eq_true_iff]
    refine masked_eq_iff (p := 0) (n := rem) (by omega) ?_ ?_ ?_
    · intro i hi; rw [hk i hi]; simp
    · intro i hi; rw [hx i (by omega)]; simp
    · intro i hi; rw [hy i hi]; simp
  · rw [if_neg h0, wp_pure]
    apply hQ
    simp only [true_iff]
    intro i h1 h2; omega

theorem wp_equalLoop (S : ShiftSem w) :
    ∀ (fuel rem : Nat) {first : BitIter w} {it : Int} {m : Mem w}
    {Q : Bool → Mem w → Prop}, first.Valid → rem < fuel →
    Mapped m first.addr (first.addr + rem) → Mapped m (it * w) (it * w + rem) →
    (∀ b : Bool, (b = true ↔ EqBits m first.addr (it * w) rem) → Q b m) →
    wp (equalLoop S fuel rem first it) m Q := by
  intro fuel
  induction fuel with
  | zero => intro rem first it m Q hf h; omega
  | succ fuel ih =>
    intro rem first it m Q hf hfu hm1 hm2 hQ
    have hw : 0 < w := Nat.lt_of_le_of_lt (Nat.zero_le _) hf
    unfold equalLoop
    by_cases h : rem ≥ w
    · rw [if_pos h, wp_bind]
      refine wp_load_bits hw (it * w) (by omega) (by omega) (hm2 _ (by omega) (by omega)) ?_
      intro x hx
      rw [wp_bind]
      refine wp_getWord S hf (by omega) hw (hm1.sub (by omega) (by omega)) ?_
      intro y hy
      have key : x = y ↔ EqBits m first.addr (it * w) w := by
        have := masked_eq_iff (m := m) (msk := BitVec.allOnes w) (x := x) (y := y) (s := first.addr) (d := it * w)
          (p := 0) (n := w) (by omega) (by intro i hi; simp [hi])
          (by intro i hi; rw [hx i hi]; simp) (by intro i hi; rw [hy i hi]; simp)
        simpa using this
      have happ := EqBits.append (m := m) (s := first.addr) (d := it * w) (n := w) (k := ((rem - w : Nat) : Int))
        (by omega) (by omega)
      rw [show (w : Int) + ((rem - w : Nat) : Int) = rem by omega] at happ
      by_cases hxy : x = y
      · rw [if_pos hxy]
        have e1 : (first.add w).addr = first.addr + w := BitIter.add_addr hw _ _
        have e2 : (it + 1) * (w : Int) = it * w + w := by ring
        refine ih (rem - w) (BitIter.add_valid hw _ _) (by omega) ?_ ?_ ?_
        · rw [e1]; exact hm1.sub (by omega) (by omega)
        · rw [e2]; exact hm2.sub (by omega) (by omega)
        · intro b hb
          apply hQ
          rw [e1, e2] at hb
          rw [hb, happ]
          exact ⟨fun h' => ⟨key.1 hxy, h'⟩, fun h' => h'.2⟩
      · rw [if_neg hxy, wp_pure]
        apply hQ
        simp only [Bool.false_eq_true, false_iff]
        intro h'
        exact hxy (key.2 (happ.1 h').1)
    · rw [if_neg h]
      exact wp_equalTail S hf (by omega) hm1 hm2 hQ

theorem wp_stdEqualN (hw : 0 < w) :
    ∀ (n : Nat) {s d : Int} {m : Mem w} {Q : Bool → Mem w → Prop},
    Mapped m (s * w) (s * w + n * w) → Mapped m (d * w) (d * w + n * w) →
    (∀ b : Bool, (b = true ↔ EqBits m (s * w) (d * w) (n * w)) → Q b m) →
    wp (stdEqualN n s d) m Q := by
  intro n
  induction n with
  | zero =>
    intro s d m Q hm1 hm2 hQ
    unfold stdEqualN
    rw [wp_pure]
    apply hQ
    simp only [true_iff]
    intro i h1 h2; simp at h2; omega
  | succ n ih =>
    intro s d m Q hm1 hm2 hQ
    have en : ((n + 1 : Nat) : Int) * (w : Int) = w + n * w := by push_cast; ring
    rw [en] at hm1 hm2 hQ
    have hnw : 0 ≤ (n : Int) * w := Int.mul_nonneg (by omega) (by omega)
    unfold stdEqualN
    rw [wp_bind]
    refine wp_load_bits hw (s * w) (by omega) (by omega) (hm1 _ (by omega) (by omega)) ?_
    intro x hx
    rw [wp_bind]
    refine wp_load_bits hw (d * w) (by omega) (by omega) (hm2 _ (by omega) (by omega)) ?_
    intro y hy
    have key : x = y ↔ EqBits m (s * w) (d * w) w := by
      have := masked_eq_iff (m := m) (msk := BitVec.allOnes w) (x := y) (y := x) (s := s * w) (d := d * w)
        (p := 0) (n := w) (by omega) (by intro i hi; simp [hi])
        (by intro i hi; rw [hy i hi]; simp) (by intro i hi; rw [hx i hi]; simp)
      rw [eq_comm]
      simpa using this
    have happ := EqBits.append (m := m) (s := s * w) (d := d * w) (n := w) (k := n * w)
      (by omega) (by omega)
    have e1 : (s + 1) * (w : Int) = s * w + w := by ring
    have e2 : (d + 1) * (w : Int) = d * w + w := by ring
    by_cases hxy : x = y
    · rw [if_pos hxy]
      refine ih ?_ ?_ ?_
      · rw [e1]; exact hm1.sub (by omega) (by omega)
      · rw [e2]; exact hm2.sub (by omega) (by omega)
      · intro b hb
        apply hQ
        rw [e1, e2] at hb
        rw [hb, happ]
        exact ⟨fun h' => ⟨key.1 hxy, h'⟩, fun h' => h'.2⟩
    · rw [if_neg hxy, wp_pure]
      apply hQ
      simp only [Bool.false_eq_true, false_iff]
      intro h'
      exact hxy (key.2 (happ.1 h').1)

theorem wp_equalBody (S : ShiftSem w) {first last : BitIter w} {it : Int} {rem : Nat} {m : Mem w}
    {Q : Bool → Mem w → Prop} (hf : first.Valid) (hl : last.Valid) (hlast : 0 < rem → last.addr = first.addr + rem)
    (hm1 : Mapped m first.addr (first.addr + rem)) (hm2 : 0 < rem → Mapped m (it * w) (it * w + rem))
    (hQ : ∀ b : Bool, (b = true ↔ EqBits m first.addr (it * w) rem) → Q b m) :
    wp (equalBody S rem first last it) m Q := by
  have hw : 0 < w := Nat.lt_of_le_of_lt (Nat.zero_le _) hf
  unfold equalBody
  by_cases h0 : rem > 0
  · rw [if_pos h0]
    replace hm2 := hm2 h0
    replace hlast := hlast h0
    by_cases h1 : first.pos = 0 ∧ rem ≥ w
    · rw [if_pos h1, wp_bind, wp_wordDist]
      have hfa : first.addr = first.base * w := by
        show first.base * (w : Int) + first.pos = _
        omega
      have hla : last.addr = last.base * w + last.pos := rfl
      have hl' : last.pos < w := hl
      have hbase : first.base ≤ last.base := base_le_of_addr hl (by omega)
      obtain ⟨N, hN⟩ : ∃ N : Nat, last.base = first.base + N := ⟨(last.base - first.base).toNat, by omega⟩
      have eN : (last.base - first.base).toNat = N := by omega
      have hNw : last.base * (w : Int) = first.base * w + N * w := by rw [hN]; ring
      have hNN : ((w * N : Nat) : Int) = N * w := by push_cast; ring
      have hNpos : 0 ≤ (N : Int) * w := Int.mul_nonneg (by omega) (by omega)
      refine ⟨hbase, ?_⟩
      rw [eN, wp_bind]
      unfold stdEqual
      rw [wp_bind, wp_wordDist, eN]
      refine ⟨hbase, ?_⟩
      refine wp_stdEqualN hw N (hm1.sub (by omega) (by omega)) (hm2.sub (by omega) (by omega)) ?_
      intro b hb
      have hsz : subSize rem (w * N) = last.pos := by
        rw [subSize_le (by omega)]; omega
      have e1 : (first.add ((w : Int) * N)).addr = first.base * w + N * w := by
        rw [BitIter.add_addr hw, hfa]; ring
      have e2 : (it + N) * (w : Int) = it * w + N * w := by ring
      have happ := EqBits.append (m := m) (s := first.base * w) (d := it * w) (n := N * w) (k := last.pos)
        (by omega) (by omega)
      rw [show (N : Int) * w + last.pos = rem by omega, ← hfa] at happ
      rw [← hfa] at hb
      by_cases hbt : b = true
      · rw [if_pos hbt, hsz]
        refine wp_equalTail S (BitIter.add_valid hw _ _) hl' ?_ ?_ ?_
        · rw [e1]; exact hm1.sub (by omega) (by omega)
        · rw [e2]; exact hm2.sub (by omega) (by omega)
        · intro c hc
          apply hQ
          rw [e1, e2, ← hfa] at hc
          rw [hc, happ]
          exact ⟨fun h => ⟨hb.1 hbt, h⟩, fun h => h.2⟩
      · rw [if_neg hbt, wp_pure]
        apply hQ
        simp only [Bool.false_eq_true, false_iff]
        intro h
        exact hbt (hb.2 (happ.1 h).1)
    · rw [if_neg h1]
      exact wp_equalLoop S _ _ hf (by omega) hm1 hm2 hQ
  · rw [if_neg h0, wp_pure]
    apply hQ
    simp only [true_iff]
    intro i h1 h2; omega

theorem wp_equal (S : ShiftSem w) {first last d : BitIter w} {m : Mem w}
    {Q : Bool → Mem w → Prop} (hf : first.Valid) (hl : last.Valid) (hd : d.Valid)
    (hle : first.addr ≤ last.addr)
    (hm1 : Mapped m first.addr last.addr) (hm2 : Mapped m d.addr (d.addr + (last.addr - first.addr)))
    (hQ : ∀ b : Bool, (b = true ↔ EqBits m first.addr d.addr (last.addr - first.addr)) → Q b m) :
    wp (equal S first last d) m Q := by
  have hw : 0 < w := Nat.lt_of_le_of_lt (Nat.zero_le _) hf
  have hd' : d.pos < w := hd
  have hda : d.addr = d.base * w + d.pos := rfl
  unfold equal
  rw [wp_bind, wp_assertViable]
  refine ⟨hle, ?_⟩
  by_cases h : first.beq last
  · rw [if_pos h, wp_pure]
    rw [BitIter.beq_iff hf hl] at h
    apply hQ
    simp only [true_iff]
    intro i h1 h2; omega
  · rw [if_neg h, wp_bind, wp_distance]
    refine ⟨hle, ?_⟩
    rw [BitIter.beq_iff hf hl] at h
    obtain ⟨n, hn⟩ : ∃ n : Nat, last.addr - first.addr = n := ⟨(last.addr - first.addr).toNat, by omega⟩
    rw [hn, Int.toNat_natCast]
    rw [hn] at hm2 hQ
    have hm1' : Mapped m first.addr (first.addr + n) := hm1.sub (by omega) (by omega)
    dsimp only
    by_cases hp : d.pos ≠ 0
    · rw [if_pos hp, wp_bind]
      generalize hk : min n (w - d.pos) = k
      have hk1 : k ≤ n := by omega
      have hk2 : k ≤ w - d.pos := by omega
      have hk3 : 0 < k := by omega
      refine wp_lowMask S (by omega) ?_
      intro msk hmsk
      rw [wp_bind, wp_shl S hd', wp_bind]
      refine wp_getWord S hf (by omega) hk3 (hm1'.sub (by omega) (by omega)) ?_
      intro x hx
      rw [wp_bind, wp_shl S hd', wp_bind]
      refine wp_load_bits hw d.addr (by omega) (by omega) (hm2 _ (by omega) (by omega)) ?_
      intro y hy
      have key := masked_eq_iff (m := m) (msk := msk <<< d.pos) (x := y) (y := x <<< d.pos) (s := first.addr)
        (d := d.addr) (p := d.pos) (n := k) (by omega)
        (by
          intro i hi
          rw [BitVec.getLsbD_shiftLeft, hmsk (i - d.pos) (by omega)]
          simp only [hi, decide_true, Bool.true_and, ← decide_not, ← Bool.decide_and]
          congr 1
          apply propext; omega)
        (by
          intro i hi
          rw [hda, show d.base * (w : Int) + d.pos + i = d.base * w + ((d.pos + i : Nat) : Int) by omega,
            hy _ (by omega)])
        (by
          intro i hi
          rw [hx i hi, BitVec.getLsbD_shiftLeft]
          simp [show d.pos + i < w by omega])
      have happ := EqBits.append (m := m) (s := first.addr) (d := d.addr) (n := k) (k := ((n - k : Nat) : Int))
        (by omega) (by omega)
      rw [show (k : Int) + ((n - k : Nat) : Int) = n by omega] at happ
      by_cases hc : (msk <<< d.pos) &&& y = (msk <<< d.pos) &&& (x <<< d.pos)
      · rw [if_pos hc]
        have e1 : (first.add k).addr = first.addr + k := BitIter.add_addr hw _ _
        have e2 : k < n → (d.base + 1) * (w : Int) = d.addr + k := by
          intro _; rw [Int.add_mul]; omega
        refine wp_equalBody S (BitIter.add_valid hw _ _) hl (by rw [e1]; omega) ?_ ?_ ?_
        · rw [e1]; exact hm1'.sub (by omega) (by omega)
        · intro h0; rw [e2 (by omega)]; exact hm2.sub (by omega) (by omega)
        · intro b hb
          apply hQ
          rw [hb, happ, e1]
          by_cases hkn : k < n
          · rw [e2 hkn]
            exact ⟨fun h => ⟨key.1 hc, h⟩, fun h => h.2⟩
          · have : n - k = 0 := by omega
            rw [this]
            refine ⟨fun _ => ⟨key.1 hc, fun i h1 h2 => ?_⟩, fun _ i h1 h2 => ?_⟩ <;> simp at h2 <;> omega
      · rw [if_neg hc, wp_pure]
        apply hQ
        simp only [Bool.false_eq_true, false_iff]
        intro h'
        exact hc (key.2 (happ.1 h').1)
    · rw [if_neg hp]
      have e1 : d.base * (w : Int) = d.addr := by omega
      refine wp_equalBody S hf hl (by omega) hm1' (by intro _; rwa [e1]) ?_
      intro b hb
      apply hQ
      rwa [e1] at hb

/-! ### count -/

theorem countIn_zero (m : Mem w) (v : Bool) (a : Int) : countIn m v a 0 = 0 := rfl

theorem countIn_succ (m : Mem w) (v : Bool) (a : Int) (n : Nat) :
    countIn m v a (n + 1) = countIn m v a n + if bitAt m (a + n) = some v then 1 else 0 := by
  unfold countIn
  rw [List.range_succ, List.countP_append, List.countP_singleton]
  simp

theorem countIn_add (m : Mem w) (v : Bool) (a : Int) (n k : Nat) :
    countIn m v a (n + k) = countIn m v a n + countIn m v (a + n) k := by
  induction k with
  | zero => simp [countIn_zero]
  | succ k ih =>
    rw [← Nat.add_assoc, countIn_succ, ih, countIn_succ, Nat.add_assoc]
    congr 3
    push_cast
    rw [Int.add_assoc]

theorem countIn_compl (m : Mem w) (a : Int) (n : Nat) (hm : Mapped m a (a + n)) :
    countIn m false a n + countIn m true a n = n := by
  induction n with
  | zero => rfl
  | succ n ih =>
    have := ih (hm.sub (by omega) (by omega))
    rw [countIn_succ, countIn_succ]
    have h2 := hm (a + n) (by omega) (by omega)
    cases hb : bitAt m (a + n) with
    | none => rw [hb] at h2; cases h2
    | some b => cases b <;> simp <;> omega

theorem popcntBits_zero (y : BitVec w) (j : Nat) (h : ∀ i, i < j → y.getLsbD i = false) : popcntBits y j = 0 := by
  induction j with
  | zero => rfl
  | succ j ih =>
    unfold popcntBits
    rw [ih (fun i hi => h i (by omega)), h j (by omega)]
    rfl

theorem popcntBits_add (m : Mem w) (y : BitVec w) (a : Int) (j n : Nat)
    (h : ∀ i : Nat, i < n → bitAt m (a + i) = some (y.getLsbD (j + i))) :
    popcntBits y (j + n) = popcntBits y j + countIn m true a n := by
  induction n with
  | zero => rfl
  | succ n ih =>
    rw [← Nat.add_assoc]
    show popcntBits y (j + n) + (if y.getLsbD (j + n) then 1 else 0) = _
    rw [ih (fun i hi => h i (by omega)), countIn_succ, h n (by omega), Nat.add_assoc]
    simp

theorem popcntBits_high (y : BitVec w) (j n : Nat) (h : ∀ i, i < n → y.getLsbD (j + i) = false) :
    popcntBits y (j + n) = popcntBits y j := by
  induction n with
  | zero => rfl
  | succ n ih =>
    rw [← Nat.add_assoc]
    show popcntBits y (j + n) + (if y.getLsbD (j + n) then 1 else 0) = _
    rw [ih (fun i hi => h i (by omega)), h n (by omega)]
    rfl

/-- The low `n` bits of `y` are the bits at `a`, the others are zero. -/
theorem popcnt_low (m : Mem w) (y : BitVec w) (a : Int) (n : Nat) (hn : n ≤ w)
    (h : ∀ i : Nat, i < n → bitAt m (a + i) = some (y.getLsbD i)) (h0 : ∀ i, n ≤ i → y.getLsbD i = false) :
    popcnt y = countIn m true a n := by
  unfold popcnt
  have h1 := popcntBits_add m y a 0 n (by simpa using h)
  have h2 := popcntBits_high y n (w - n) (fun i _ => h0 _ (by omega))
  rw [show n + (w - n) = w by omega] at h2
  rw [h2]
  rw [Nat.zero_add] at h1
  rw [h1]
  simp [popcntBits]

/-- The top `n` bits of `y` are the bits at `a`, the others are zero. -/
theorem popcnt_high (m : Mem w) (y : BitVec w) (a : Int) (n : Nat) (hn : n ≤ w)
    (h : ∀ i : Nat, i < n → bitAt m (a + i) = some (y.getLsbD (w - n + i)))
    (h0 : ∀ i, i < w - n → y.getLsbD i = false) :
    popcnt y = countIn m true a n := by
  unfold popcnt
  have h1 := popcntBits_add m y a (w - n) n h
  rw [show w - n + n = w by omega, popcntBits_zero y _ h0] at h1
  omega

theorem wp_popcntWords (hw : 0 < w) :
    ∀ (n : Nat) {a : Int} {m : Mem w} {Q : Nat → Mem w → Prop},
    Mapped m (a * w) (a * w + n * w) →
    Q (countIn m true (a * w) (n * w)) m → wp (popcntWords n a) m Q := by
  intro n
  induction n with
  | zero =>
    intro a m Q hm hQ
    unfold popcntWords
    rw [wp_pure]
    rw [Nat.zero_mul] at hQ
    exact hQ
  | succ n ih =>
    intro a m Q hm hQ
    have hnw : 0 ≤ (n : Int) * w := Int.mul_nonneg (by omega) (by omega)
    have en : ((n + 1 : Nat) : Int) * (w : Int) = w + n * w := by push_cast; ring
    have e2 : (a + 1) * (w : Int) = a * w + w := by ring
    rw [en] at hm
    unfold popcntWords
    rw [wp_bind]
    refine wp_load_bits hw (a * w) (by omega) (by omega) (hm _ (by omega) (by omega)) ?_
    intro x hx
    rw [wp_bind]
    refine ih (by rw [e2]; exact hm.sub (by omega) (by omega)) ?_
    rw [wp_pure, popcnt_low m x (a * w) w (le_refl _) hx (fun i hi => BitVec.getLsbD_of_ge x i hi), e2,
      ← countIn_add, show w + n * w = (n + 1) * w by ring]
    exact hQ

theorem wp_bextr (S : ShiftSem w) {x : BitVec w} {start len : Nat} {m : Mem w} {Q : BitVec w → Mem w → Prop}
    (hs : start < w) (hl : len < S.pw ∨ S.Lenient)
    (hQ : ∀ y : BitVec w, (∀ i, i < w → y.getLsbD i = (decide (i < len) && x.getLsbD (start + i))) → Q y m) :
    wp (lift (bextr S x start len)) m Q := by
  obtain ⟨a, ha, hmask⟩ := mask_ok S len hl
  rw [wp_lift]
  refine ⟨x >>> start &&& ((a * boolWord (decide (len < w)) - 1#w) * boolWord (decide (start < w))), ?_, ?_⟩
  · unfold bextr
    rw [ha, S.shr_ok hs]
    rfl
  · apply hQ
    intro i hi
    rw [show decide (start < w) = true by simp [hs], boolWord_true_mul, BitVec.getLsbD_and, hmask i hi,
      BitVec.getLsbD_ushiftRight, Bool.and_comm]

theorem wp_count (S : ShiftSem w) {first last : BitIter w} {v : Bool} {m : Mem w} {Q : Int → Mem w → Prop}
    (hf : first.Valid) (hl : last.Valid) (hle : first.addr ≤ last.addr) (hm : Mapped m first.addr last.addr)
    (hne : first.addr < last.addr ∨ (bitAt m first.addr).isSome)
    (hQ : Q (countIn m v first.addr (last.addr - first.addr).toNat) m) :
    wp (count S first last v) m Q := by
  have hw : 0 < w := Nat.lt_of_le_of_lt (Nat.zero_le _) hf
  have hf' : first.pos < w := hf
  have hl' : last.pos < w := hl
  have hfa : first.addr = first.base * w + first.pos := rfl
  have hla : last.addr = last.base * w + last.pos := rfl
  have hbb := base_le_of_addr hl hle
  obtain ⟨n, hn⟩ : ∃ n : Nat, last.addr = first.addr + n := ⟨(last.addr - first.addr).toNat, by omega⟩
  have hmn : Mapped m first.addr (first.addr + n) := by rwa [hn] at hm
  rw [show (last.addr - first.addr).toNat = n by omega] at hQ
  unfold count
  rw [wp_bind, wp_assertViable]
  refine ⟨hle, ?_⟩
  have fin : wp (pure (if v then ((countIn m true first.addr n : Nat) : Int)
      else last.diff first - (countIn m true first.addr n : Nat))) m Q := by
    rw [wp_pure]
    have hc := countIn_compl m first.addr n hmn
    cases v
    · rw [BitIter.diff_eq]
      simp only [Bool.false_eq_true, if_false]
      rwa [show last.addr - first.addr - ((countIn m true first.addr n : Nat) : Int)
        = (countIn m false first.addr n : Nat) by omega]
    · simpa using hQ
  dsimp only
  by_cases hbase : first.base ≠ last.base
  · rw [if_pos hbase]
    have hb1 : first.base + 1 ≤ last.base := by omega
    have hb2 := base_lt_mul (w := w) (a := first.base) (b := last.base) (by omega)
    have e1 : (first.base + 1) * (w : Int) = first.base * w + w := by ring
    -- words and the last partial word
    have rest : ∀ (it : Int) (r0 k : Nat), it ≤ last.base → it * (w : Int) = first.addr + k →
        r0 = countIn m true first.addr k →
        wp (do
          let n ← wordDist it last.base
          let r1 ← popcntWords n it
          if last.pos ≠ 0 then do
            let x ← load last.base
            let x ← lift (S.shl x (w - last.pos))
            let ones ← pure (r0 + r1 + popcnt x)
            pure (if v then (ones : Int) else last.diff first - (ones : Int))
          else do
            let ones ← pure (r0 + r1)
            pure (if v then (ones : Int) else last.diff first - (ones : Int))) m Q := by
      intro it r0 k hit hik hr0
      rw [wp_bind, wp_wordDist]
      refine ⟨hit, ?_⟩
      obtain ⟨N, hN⟩ : ∃ N : Nat, last.base = it + N := ⟨(last.base - it).toNat, by omega⟩
      have hNw : last.base * (w : Int) = it * w + N * w := by rw [hN]; ring
      have hNpos : 0 ≤ (N : Int) * w := Int.mul_nonneg (by omega) (by omega)
      have hNN : ((N * w : Nat) : Int) = N * w := by push_cast; ring
      rw [show (last.base - it).toNat = N by omega, wp_bind]
      refine wp_popcntWords hw N (hm.sub (by omega) (by omega)) ?_
      have hsum : r0 + countIn m true (it * w) (N * w) = countIn m true first.addr (k + N * w) := by
        rw [countIn_add, hr0, hik]
      rw [hsum]
      by_cases hlp : last.pos ≠ 0
      · rw [if_pos hlp, wp_bind]
        refine wp_load_bits hw (last.base * w) (by omega) (by omega) (hm _ (by omega) (by omega)) ?_
        intro x hx
        rw [wp_bind, wp_shl S (by omega), wp_bind, wp_pure]
        have hpx : popcnt (x <<< (w - last.pos)) = countIn m true (last.base * w) last.pos := by
          refine popcnt_high m _ _ _ (by omega) ?_ ?_
          · intro i hi
            rw [hx i (by omega), BitVec.getLsbD_shiftLeft]
            simp [show w - last.pos + i < w by omega]
          · intro i hi
            rw [BitVec.getLsbD_shiftLeft]
            simp [hi]
        rw [hpx, show last.base * (w : Int) = first.addr + ((k + N * w : Nat) : Int) by push_cast; omega,
          ← countIn_add, show k + N * w + last.pos = n by omega]
        exact fin
      · rw [if_neg hlp, wp_bind, wp_pure, show k + N * w = n by omega]
        exact fin
    by_cases hfp : first.pos ≠ 0
    · rw [if_pos hfp, wp_bind]
      refine wp_load_bits hw first.addr (by omega) (by omega) (hm _ (by omega) (by omega)) ?_
      intro x hx
      rw [wp_bind, wp_shr S hf', wp_bind, wp_pure]
      have hpx : popcnt (x >>> first.pos) = countIn m true first.addr (w - first.pos) := by
        refine popcnt_low m _ _ _ (by omega) ?_ ?_
        · intro i hi
          rw [hfa, show first.base * (w : Int) + first.pos + i = first.base * w + ((first.pos + i : Nat) : Int) by omega,
            hx _ (by omega), BitVec.getLsbD_ushiftRight]
        · intro i hi
          rw [BitVec.getLsbD_ushiftRight, BitVec.getLsbD_of_ge _ _ (by omega)]
      exact rest (first.base + 1) _ _ hb1 (by omega) hpx
    · rw [if_neg hfp, wp_bind, wp_pure]
      exact rest first.base 0 0 (by omega) (by omega) rfl
  · rw [if_neg hbase, wp_bind]
    have hbe : first.base = last.base := by omega
    have hmap : (bitAt m first.addr).isSome := by
      rcases hne with h | h
      · exact hm _ (by omega) h
      · exact h
    refine wp_load_bits hw first.addr (by omega) (by omega) hmap ?_
    intro x hx
    have hpp : last.pos = first.pos + n := by rw [← hbe] at hla; omega
    rw [wp_bind, subSize_le (by omega), show last.pos - first.pos = n by omega]
    refine wp_bextr S hf' (lt_pw S (by omega)) ?_
    intro y hy
    rw [wp_bind, wp_pure]
    have hpx : popcnt y = countIn m true first.addr n := by
      refine popcnt_low m _ _ _ (by omega) ?_ ?_
      · intro i hi
        rw [hy i (by omega), hfa,
          show first.base * (w : Int) + first.pos + i = first.base * w + ((first.pos + i : Nat) : Int) by omega,
          hx _ (by omega)]
        simp [hi]
      · intro i hi
        by_cases hiw : i < w
        · rw [hy i hiw]; simp [show ¬ i < n by omega]
        · exact BitVec.getLsbD_of_ge _ _ (by omega)
    rw [hpx]
    exact fin

end BitLib
