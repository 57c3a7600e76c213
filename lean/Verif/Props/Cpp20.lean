import Verif.Lemmas.Cpp20Keep
import Verif.Props.Shift
import Verif.Props.Rotate
import Verif.Props.Exact
/-
C96: the library built as C++20, where `std::shift_left` and `std::shift_right` move the words (Model/Cpp20.lean).

A result that holds "for every library" quantifies over `J : Vacated w`, what the standard library leaves in the words it vacates. The
standard only promises "valid but unspecified". Known libraries leave the words as they are, `Vacated.keep`, and then nothing changes.
-/
namespace BitLib
variable {w : Nat}

/-! ### Libraries that leave the words alone -/

/-- C96: with a library that leaves the vacated words as they are, the C++20 build runs exactly the programs of the other build. -/
theorem C96_keep (S : ShiftSem w) (P : Policy) :
    (∀ first last n, shiftLeft20 Vacated.keep S first last n = shiftLeft S first last n) ∧
    (∀ first last n, shiftRight20 Vacated.keep S first last n = shiftRight S first last n) ∧
    (∀ first last, reverse20 Vacated.keep S first last = reverse S first last) ∧
    (∀ first nFirst last, rotate20 Vacated.keep S first nFirst last = rotate S first nFirst last) ∧
    ∀ vs (op : Op w), op.exec20 Vacated.keep S P vs = op.exec S P vs :=
  ⟨shiftLeft_keep S, shiftRight_keep S, reverse_keep S, rotate_keep S, exec_keep S P⟩

/-! ### `shift_left` and `shift_right` -/

/-- C96: `shift_left` keeps its contract (C16) in a C++20 build, with every library. -/
theorem C96_shift_left (J : Vacated w) (S : ShiftSem w) (m : Mem w) (first last : BitIter w) (n : Int) (hr : Range m first last)
    (h0 : 0 < n) (hn : n < len first last) (hfull : ¬ (first.pos = 0 ∧ len first last = w) ∨ S.FullShiftOk) :
    ∃ r m', shiftLeft20 J S first last n m = .ok (r, m') ∧ r.Valid ∧ r.addr = last.addr - n ∧ ShiftedL m m' first.addr last.addr n := by
  unfold len at *
  exact wp_shiftLeft20 J S hr.1 hr.2 hr.3 hr.4 (hfull.imp (fun h h' => h ⟨h'.1, h'.2.1⟩) id)
    (Q := fun r m' => r.Valid ∧ r.addr = last.addr - n ∧ ShiftedL m m' first.addr last.addr n)
    (by omega) (by omega) (fun _ _ m' r h1 h2 h3 => ⟨h1, h2, h3⟩)

/-- The hypotheses of `C96_shift_left`, for a shift by two words of a range that starts inside a word. -/
example : Range (memOf [0xA5, 0x3C, 0x7E, 0x81, 0xFF]) (⟨0, 3⟩ : BitIter 8) ⟨4, 5⟩ ∧ (16 : Int) < len (⟨0, 3⟩ : BitIter 8) ⟨4, 5⟩ :=
  ⟨range_memOf (by decide) (by decide) (by decide) (by decide) (by decide), by decide⟩

/-- C96: what `shift_right` does in a C++20 build with every library: it returns `first + n`, the moved bits are right, and every bit outside
`[a, last)` keeps its value, where `a` is the first bit of the word of `first`. -/
theorem C96_shift_right (J : Vacated w) (S : ShiftSem w) (m : Mem w) (first last : BitIter w) (n : Int) (hr : Range m first last)
    (h0 : 0 < n) (hn : n < len first last) (hfull : ¬ (first.pos = 0 ∧ len first last = w) ∨ S.FullShiftOk) :
    ∃ m', shiftRight20 J S first last n m = .ok (first.add n, m') ∧ SameMapped m m' ∧
      (∀ i, first.addr + n ≤ i → i < last.addr → bitAt m' i = bitAt m (i - n)) ∧
      ∀ i, (i < first.base * w ∨ last.addr ≤ i) → bitAt m' i = bitAt m i := by
  have hf' : first.pos < w := hr.1
  have hw : 0 < w := by omega
  unfold len at *
  have hfa : first.addr = first.base * w + first.pos := rfl
  refine wp_shiftRight20_any J S (n := n) hr.1 hr.2 hr.3 hr.4 (hfull.imp (fun h h' => h ⟨h'.1, h'.2.1⟩) id)
    (Q := fun r m' => r = first.add n ∧ SameMapped m m' ∧ (∀ i, first.addr + n ≤ i → i < last.addr → bitAt m' i = bitAt m (i - n)) ∧
      ∀ i, (i < first.base * w ∨ last.addr ≤ i) → bitAt m' i = bitAt m i)
    (by omega) (by omega) ?_ |>.elim ?_
  · rintro - - m1 ⟨s1, s2, s3⟩
    refine ⟨rfl, ?_⟩
    split_ifs with hwm
    · have hsc := hwm.scale
      have he : (first.base + n / (w : Int)) * (w : Int) = first.base * w + n := by rw [Int.add_mul, hsc]
      refine ⟨fun i => by rw [scribbled_same i, s3 i], ?_, ?_⟩
      · intro i h1 h2
        rw [scribbled_off hw (by rw [he]; omega)]
        exact s1 i h1 h2
      · intro i hi
        rw [scribbled_off hw (by rw [he]; omega)]
        exact s2 i (by omega)
    · exact ⟨s3, s1, fun i hi => s2 i (by omega)⟩
  · rintro r ⟨m', e, rfl, q⟩
    exact ⟨m', e, q⟩

/-- C96: `shift_right` keeps its contract (C17) with every library exactly when no bits leak in the other build (C77): `n` is not a multiple
of the word width, or the range starts at a word boundary, or the bits that stay do not reach into a later word. -/
theorem C96_shift_right_exact (S : ShiftSem w) (m : Mem w) (first last : BitIter w) (n : Int) (hr : Range m first last)
    (h0 : 0 < n) (hn : n < len first last) (hfull : ¬ (first.pos = 0 ∧ len first last = w) ∨ S.FullShiftOk) :
    (∀ J, ∃ r m', shiftRight20 J S first last n m = .ok (r, m') ∧ r.Valid ∧ r.addr = first.addr + n ∧
      ShiftedR m m' first.addr last.addr n) ↔ leaked w first.addr last.addr n = 0 := by
  have hf' : first.pos < w := hr.1
  have hw : 0 < w := by omega
  have hpos := pos_eq hw hr.1
  have hfa : first.addr = first.base * w + first.pos := rfl
  have hl : leaked w first.addr last.addr n = 0 ↔ first.pos = 0 ∨ ¬ WordMove w first.addr last.addr n := by
    unfold leaked WordMove
    split_ifs with hc
    · constructor
      · intro h; left; omega
      · rintro (h | h)
        · omega
        · exact absurd hc.2 h
    · exact ⟨fun _ => .inr fun h => hc ⟨h0, h⟩, fun _ => rfl⟩
  rw [hl]
  unfold len at *
  have hfull' : ¬ (first.pos = 0 ∧ last.addr - first.addr = w ∧ 0 < n ∧ n < w) ∨ S.FullShiftOk :=
    hfull.imp (fun h h' => h ⟨h'.1, h'.2.1⟩) id
  constructor
  · intro h
    by_contra hc
    have hp : first.pos ≠ 0 := fun h' => hc (.inl h')
    have hq : WordMove w first.addr last.addr n := by
      by_contra h'
      exact hc (.inr h')
    obtain ⟨r, m', e, -, -, -, t2, -⟩ := h Vacated.flip
    refine wp_shiftRight20_any Vacated.flip S (n := n) hr.1 hr.2 hr.3 hr.4 hfull'
      (Q := fun _ m2 => bitAt m2 (first.base * w) ≠ bitAt m (first.base * w)) (by omega) (by omega) ?_ |>.elim ?_
    · rintro - - m1 ⟨s1, s2, s3⟩
      rw [if_pos hq]
      have hd : first.base * (w : Int) / w = first.base := Int.mul_ediv_cancel _ (by omega)
      have hmod : first.base * (w : Int) % w = 0 := Int.mul_emod_left _ _
      have hnw : 0 < n / (w : Int) := by
        have h2 := hq.scale
        by_contra hc
        have := Int.mul_le_mul_of_nonneg_right (show n / (w : Int) ≤ 0 by omega) (show (0 : Int) ≤ w by omega)
        omega
      have h2 := hr.4 first.addr (by omega) (by omega)
      have h3 : first.addr / (w : Int) = first.base := by rw [hfa, mul_add_ediv hw (by omega) (by omega)]
      rw [← s3] at h2
      unfold bitAt at h2
      rw [h3] at h2
      rw [← s2 _ (.inl (by omega))]
      unfold scribbled
      rw [bitAt_scribble, hd, if_pos (by omega), hmod]
      unfold bitAt
      rw [hd, hmod]
      cases hc : m1 first.base with
      | none => rw [hc] at h2; cases h2
      | some y =>
        simp only [Vacated.flip, hc]
        simp [hw]
    · rintro r2 ⟨m2, e2, hne⟩
      rw [e] at e2
      cases e2
      exact hne (t2 _ (.inl (by omega)))
  · intro h J
    exact wp_shiftRight20 J S hr.1 hr.2 hr.3 hr.4 hfull'
      (Q := fun r m' => r.Valid ∧ r.addr = first.addr + n ∧ ShiftedR m m' first.addr last.addr n) h
      (by omega) (by omega) (fun _ _ m' h3 => ⟨BitIter.add_valid hw _ _, BitIter.add_addr hw _ _, h3⟩)

/-- Both sides of `C96_shift_right_exact` occur: a shift by one word from inside a word depends on the library, by one bit it does not. -/
example : Range (memOf [0xA5, 0x3C, 0x7E, 0x81]) (⟨0, 3⟩ : BitIter 8) ⟨3, 5⟩ ∧ leaked 8 (⟨0, 3⟩ : BitIter 8).addr (⟨3, 5⟩ : BitIter 8).addr 8 ≠ 0 ∧
    leaked 8 (⟨0, 3⟩ : BitIter 8).addr (⟨3, 5⟩ : BitIter 8).addr 1 = 0 :=
  ⟨range_memOf (by decide) (by decide) (by decide) (by decide) (by decide), by decide, by decide⟩

/-! ### `reverse` and `rotate` -/

/-- C96: `reverse` is the same program in both builds: it never asks the standard library to move words. -/
theorem C96_reverse (J : Vacated w) (S : ShiftSem w) (first last : BitIter w) (hf : first.Valid) (hl : last.Valid) :
    reverse20 J S first last = reverse S first last := reverse20_eq J S hf hl

example : (⟨0, 3⟩ : BitIter 8).Valid ∧ (⟨2, 5⟩ : BitIter 8).Valid := ⟨by decide, by decide⟩

/-- C96: `rotate` computes the same in both builds, with every library, exactly when it does not end in a right shift by one word of a range that
starts inside a word. `RotSpoils` says from the position and the two lengths when it does. -/
theorem C96_rotate_exact (S : ShiftSem w) (m : Mem w) (first nFirst last : BitIter w) (hr : Range m first last) (hn : nFirst.Valid)
    (h1 : first.addr ≤ nFirst.addr) (h2 : nFirst.addr < last.addr) (hlim : RotFits w (len first nFirst) (len nFirst last)) :
    (∀ J, rotate20 J S first nFirst last m = rotate S first nFirst last m) ↔
      ¬ (w < len first nFirst ∧ RotSpoils w first.addr (len first nFirst) (len nFirst last)) := by
  obtain ⟨c1, c2⟩ := rotate20_cases S hr.1 hn hr.2 h1 h2 hlim hr.4
  constructor
  · intro h hc
    obtain ⟨r, m1, m2, e1, e2, hne⟩ := c2 hc
    rw [← h Vacated.flip, e2] at e1
    cases e1
    exact hne rfl
  · exact c1

/-- C96: so `rotate` rotates (C19) with every library unless it ends in such a shift. -/
theorem C96_rotate (J : Vacated w) (S : ShiftSem w) (m : Mem w) (first nFirst last : BitIter w) (hr : Range m first last) (hn : nFirst.Valid)
    (h1 : first.addr ≤ nFirst.addr) (h2 : nFirst.addr < last.addr) (hlim : RotFits w (len first nFirst) (len nFirst last))
    (hno : ¬ (w < len first nFirst ∧ RotSpoils w first.addr (len first nFirst) (len nFirst last))) :
    ∃ r m', rotate20 J S first nFirst last m = .ok (r, m') ∧ r.Valid ∧ r.addr = first.addr + len nFirst last ∧
      Rotated m m' first.addr nFirst.addr last.addr := by
  rw [(C96_rotate_exact S m first nFirst last hr hn h1 h2 hlim).2 hno J]
  exact C19_rotate_partial S m first nFirst last hr hn h1 h2 hlim

/-- A rotation that depends on the library (right part of exactly one word, first bit inside a word), and one that does not. -/
example : Range (memOf [0xA5, 0x3C, 0x7E, 0x81]) (⟨0, 3⟩ : BitIter 8) ⟨3, 4⟩ ∧
    ((8 : Int) < len (⟨0, 3⟩ : BitIter 8) ⟨2, 4⟩ ∧
      RotSpoils 8 (⟨0, 3⟩ : BitIter 8).addr (len (⟨0, 3⟩ : BitIter 8) ⟨2, 4⟩) (len (⟨2, 4⟩ : BitIter 8) ⟨3, 4⟩)) ∧
    ¬ RotSpoils 8 (⟨0, 3⟩ : BitIter 8).addr (len (⟨0, 3⟩ : BitIter 8) ⟨2, 5⟩) (len (⟨2, 5⟩ : BitIter 8) ⟨3, 4⟩) ∧
    RotFits 8 (len (⟨0, 3⟩ : BitIter 8) ⟨2, 4⟩) (len (⟨2, 4⟩ : BitIter 8) ⟨3, 4⟩) := by
  refine ⟨range_memOf (by decide) (by decide) (by decide) (by decide) (by decide), ⟨by decide, .here (by decide) (by decide)⟩, ?_,
    RotFits.of_len (by decide)⟩
  rw [RotSpoils.small (by decide) (by decide)]
  decide

/-! ### `bit_vector` -/

/-- C96: the bits of a vector after `insert` of any kind in a C++20 build, with every library: the new elements `s` stand at `d`, everything
behind them is right, and in front of them only elements in the word of `d` may differ, and those only if the insertion moves whole words from
inside a word. -/
def Spliced (w d n : Nat) (l s r : List Bool) : Prop :=
  ∃ p, r = p ++ s ++ l.drop d ∧ p.length = d ∧ p.take (d / w * w) = l.take (d / w * w) ∧ (¬ InsertSpoils w d n l.length → p = l.take d)

theorem Gapped.spliced {J : Vacated w} {d n : Nat} {l l' s : List Bool} (g : Gapped J d n l l') (hd : d ≤ l.length) :
    Spliced w d n l s (l'.take d ++ s ++ l'.drop d) := by
  refine ⟨l'.take d, by rw [g.after], ?_, ?_, ?_⟩
  · have := g.len; simp; omega
  · rw [List.take_take, Nat.min_eq_left (Nat.div_mul_le_self d w)]; exact g.before
  · intro h; rw [g.same h]

theorem Gapped.wrong {d n : Nat} {l l' s : List Bool} (g : Gapped (Vacated.flip : Vacated w) d n l l') (hd : d ≤ l.length)
    (hsp : InsertSpoils w d n l.length) : l'.take d ++ s ++ l'.drop d ≠ l.take d ++ s ++ l.drop d := by
  intro h
  rw [List.append_assoc, List.append_assoc] at h
  have hl := g.len
  obtain ⟨h1, -⟩ := List.append_inj h (by simp; omega)
  refine g.flip rfl hsp ?_
  rw [← List.take_append_drop d l', ← List.take_append_drop d l, h1, g.after]

/-- C96: `insert(pos, count, value)`, with every library. -/
theorem C96_insert_count_partial (hw : 0 < w) (J : Vacated w) (S : ShiftSem w) (P : Policy) (h : Heap w) (v : BV) (l : List Bool) (pos : BitIter w)
    (d n : Nat) (b : Bool) (hwf : h.WF) (hr : Rep h v l) (hp : IsPos v pos d) (hd : d ≤ l.length) (hfl : FloatOk w v.vec.size l.length n)
    (hfull : ¬ (d % w = 0 ∧ l.length + n - d = w ∧ n < w) ∨ S.FullShiftOk) :
    ∃ v' it h' r, v.insertN20 J S P pos n b h = .ok ((v', it), h') ∧ VStep h v.vec h' v'.vec ∧ Rep h' v' r ∧
      Spliced w d n l (List.replicate n b) r ∧ IsPos v' it d := by
  obtain ⟨⟨v', it⟩, h', e, q⟩ := wpV_insertN20 J S hw hwf hr hp hd hfl hfull (P := P) (b := b)
    (Q := fun r h' => ∃ t, VStep h v.vec h' r.1.vec ∧ Rep h' r.1 t ∧ Spliced w d n l (List.replicate n b) t ∧ IsPos r.1 r.2 d)
    fun _ _ _ _ g s r i => ⟨_, s, r, g.spliced hd, i⟩
  obtain ⟨t, q⟩ := q
  exact ⟨v', it, h', t, e, q⟩

/-- C96: `insert(pos, count, value)` inserts (C27) with every library exactly when `InsertSpoils` does not hold. -/
theorem C96_insert_count_exact (hw : 0 < w) (S : ShiftSem w) (P : Policy) (h : Heap w) (v : BV) (l : List Bool) (pos : BitIter w)
    (d n : Nat) (b : Bool) (hwf : h.WF) (hr : Rep h v l) (hp : IsPos v pos d) (hd : d ≤ l.length) (hfl : FloatOk w v.vec.size l.length n)
    (hfull : ¬ (d % w = 0 ∧ l.length + n - d = w ∧ n < w) ∨ S.FullShiftOk) :
    (∀ J, ∃ v' it h', v.insertN20 J S P pos n b h = .ok ((v', it), h') ∧ Rep h' v' (l.take d ++ List.replicate n b ++ l.drop d)) ↔
      ¬ InsertSpoils w d n l.length := by
  constructor
  · intro hall hsp
    obtain ⟨v', it, h', e, r⟩ := hall Vacated.flip
    obtain ⟨⟨v2, it2⟩, h2, e2, q⟩ := wpV_insertN20 Vacated.flip S hw hwf hr hp hd hfl hfull (P := P) (b := b)
      (Q := fun r h' => ∃ l', Gapped Vacated.flip d n l l' ∧ Rep h' r.1 (l'.take d ++ List.replicate n b ++ l'.drop d))
      fun _ _ _ _ g _ r _ => ⟨_, g, r⟩
    obtain ⟨l', g, r2⟩ := q
    rw [e] at e2
    cases e2
    exact g.wrong hd hsp (r2.uniq r)
  · intro hno J
    obtain ⟨v', it, h', t, e, -, r, ⟨p, rfl, -, -, hp⟩, -⟩ := C96_insert_count_partial hw J S P h v l pos d n b hwf hr hp hd hfl hfull
    rw [hp hno] at r
    exact ⟨v', it, h', e, r⟩

/-- C96: `insert(pos, first, last)`, with every library. -/
theorem C96_insert_range_partial (hw : 0 < w) (J : Vacated w) (S : ShiftSem w) (P : Policy) (h : Heap w) (v : BV) (l s : List Bool)
    (pos first last : BitIter w) (d : Nat) (hwf : h.WF) (hr : Rep h v l) (hp : IsPos v pos d) (hd : d ≤ l.length)
    (hs : HoldsSeq h first last s) (hout : Outside v.vec first last) (hfl : FloatOk w v.vec.size l.length s.length)
    (hfull : ¬ (d % w = 0 ∧ l.length + s.length - d = w ∧ s.length < w) ∨ S.FullShiftOk) :
    ∃ v' it h' r, v.insertRange20 J S P pos first last h = .ok ((v', it), h') ∧ VStep h v.vec h' v'.vec ∧ Rep h' v' r ∧
      Spliced w d s.length l s r ∧ IsPos v' it d := by
  obtain ⟨⟨v', it⟩, h', e, q⟩ := wpV_insertRange20 J S hw hwf hr hp hd hs hout hfl hfull (P := P)
    (Q := fun r h' => ∃ t, VStep h v.vec h' r.1.vec ∧ Rep h' r.1 t ∧ Spliced w d s.length l s t ∧ IsPos r.1 r.2 d)
    fun _ _ _ _ g s r i => ⟨_, s, r, g.spliced hd, i⟩
  obtain ⟨t, q⟩ := q
  exact ⟨v', it, h', t, e, q⟩

/-- C96: `insert(pos, first, last)` inserts (C28) with every library exactly when `InsertSpoils` does not hold. -/
theorem C96_insert_range_exact (hw : 0 < w) (S : ShiftSem w) (P : Policy) (h : Heap w) (v : BV) (l s : List Bool)
    (pos first last : BitIter w) (d : Nat) (hwf : h.WF) (hr : Rep h v l) (hp : IsPos v pos d) (hd : d ≤ l.length)
    (hs : HoldsSeq h first last s) (hout : Outside v.vec first last) (hfl : FloatOk w v.vec.size l.length s.length)
    (hfull : ¬ (d % w = 0 ∧ l.length + s.length - d = w ∧ s.length < w) ∨ S.FullShiftOk) :
    (∀ J, ∃ v' it h', v.insertRange20 J S P pos first last h = .ok ((v', it), h') ∧ Rep h' v' (l.take d ++ s ++ l.drop d)) ↔
      ¬ InsertSpoils w d s.length l.length := by
  constructor
  · intro hall hsp
    obtain ⟨v', it, h', e, r⟩ := hall Vacated.flip
    obtain ⟨⟨v2, it2⟩, h2, e2, q⟩ := wpV_insertRange20 Vacated.flip S hw hwf hr hp hd hs hout hfl hfull (P := P)
      (Q := fun r h' => ∃ l', Gapped Vacated.flip d s.length l l' ∧ Rep h' r.1 (l'.take d ++ s ++ l'.drop d))
      fun _ _ _ _ g _ r _ => ⟨_, g, r⟩
    obtain ⟨l', g, r2⟩ := q
    rw [e] at e2
    cases e2
    exact g.wrong hd hsp (r2.uniq r)
  · intro hno J
    obtain ⟨v', it, h', t, e, -, r, ⟨p, rfl, -, -, hp⟩, -⟩ :=
      C96_insert_range_partial hw J S P h v l s pos first last d hwf hr hp hd hs hout hfl hfull
    rw [hp hno] at r
    exact ⟨v', it, h', e, r⟩

theorem not_insertSpoils_one (w d len : Nat) : ¬ InsertSpoils w d 1 len := by
  rintro ⟨-, h1, h2, -⟩
  rcases Nat.lt_trichotomy w 1 with h | h | h
  · obtain rfl : w = 0 := by omega
    simp at h1
  · subst h; omega
  · rw [Nat.mod_eq_of_lt h] at h1; omega

/-- C96: one call on the vectors of a program, with every library. Missing for the statement without limits: those of C35, and the insertions that
depend on the library (`Op.Portable`). -/
theorem C96_step_partial (hw : 0 < w) (J : Vacated w) (S : ShiftSem w) (P : Policy) (h : Heap w) (vs : List BV) (ls : List (List Bool)) (op : Op w)
    (e : EnvOk h vs ls) (hpre : op.Pre ls) (hlim : op.Lim S ls) (hport : op.Portable w ls) :
    ∃ vs' h', op.exec20 J S P vs h = .ok (vs', h') ∧ EnvOk h' vs' (op.apply ls) := by
  have hlim0 := hlim
  obtain ⟨hsz, hfw⟩ := hlim
  cases op with
  | insert i d x =>
    exact wpV_onVec e hpre.1 fun v r => wpV_map (wpV_insert20 J S hw e.wf r (IsPos.begin_add hw v d) hpre.2 hfw
      fun _ _ _ _ g s r _ => ⟨⟨_, s, .inl rfl⟩, by rw [g.same (not_insertSpoils_one w d _)] at r; exact r⟩)
  | insertN i d n x =>
    exact wpV_onVec e hpre.1 fun v r => wpV_map (wpV_insertN20 J S hw e.wf r (IsPos.begin_add hw v d) hpre.2 (floatOk_small hw hsz) hfw
      fun _ _ _ _ g s r _ => ⟨⟨_, s, .inl rfl⟩, by rw [g.same hport] at r; exact r⟩)
  | insertRange i d j a b =>
    obtain ⟨hi, hd, hj, hij, hab, hb⟩ := hpre
    obtain ⟨v, h1, h2, r⟩ := e.get hi
    obtain ⟨o, h3, h4, ro⟩ := e.get hj
    have hlen : (((Op.at' ls j).take b).drop a).length = b - a := by simp; omega
    unfold Op.exec20
    dsimp only
    unfold onVec2
    rw [h1, h3]
    show wpV (_ >>= _) h _
    rw [wpV_bind]
    refine wpV_map (wpV_insertRange20 J S hw e.wf r (IsPos.begin_add hw v d) hd (ro.holdsSeq hw hab hb)
      (ro.outside hw (e.sep i j v o h1 h3 hij) hb) (floatOk_small hw (by rw [hlen]; exact hsz)) (by rw [hlen]; exact hfw) ?_)
    intro v' it h' l' g s r' _
    rw [g.same (by rw [hlen]; exact hport)] at r'
    exact wpV_pure (e.update h1 s (.inl rfl) r')
  | erase i d =>
    exact wpV_onVec e hpre.1 fun v r => wpV_map (wpV_erase20 J S hw e.wf r (IsPos.begin_add hw v d) hpre.2 hfw
      fun _ _ _ s r _ => ⟨⟨_, s, .inl rfl⟩, r⟩)
  | eraseRange i a b =>
    exact wpV_onVec e hpre.1 fun v r => wpV_map (wpV_eraseRange20 J S hw e.wf r (IsPos.begin_add hw v a) (IsPos.begin_add hw v b) hpre.2.1
      hpre.2.2 (.inr (Nat.lt_of_le_of_lt (Nat.sub_le _ _) hsz)) hfw fun _ _ _ s r _ => ⟨⟨_, s, .inl rfl⟩, r⟩)
  | _ => exact C35_step_partial hw S P h vs ls _ e hpre hlim0

/-- C96: histories in a C++20 build; the library may leave something else behind in every call. -/
theorem C96_history_partial (hw : 0 < w) (S : ShiftSem w) (P : Policy) (h : Heap w) (vs : List BV) (ls : List (List Bool))
    (ops : List (Vacated w × Op w)) (e : EnvOk h vs ls)
    (hv : Along (fun ls op => op.Pre ls ∧ op.Lim S ls ∧ op.Portable w ls) (ops.map Prod.snd) ls) :
    ∃ vs' h', runHist20 S P ops vs h = .ok (vs', h') ∧ EnvOk h' vs' (specHist ls (ops.map Prod.snd)) := by
  induction ops generalizing h vs ls with
  | nil => exact ⟨vs, h, rfl, e⟩
  | cons x ops ih =>
    obtain ⟨J, op⟩ := x
    obtain ⟨⟨h1, h2, h3⟩, h4⟩ := hv
    obtain ⟨vs1, h1', e1, ok1⟩ := C96_step_partial hw J S P h vs ls op e h1 h2 h3
    obtain ⟨vs2, h2', e2, ok2⟩ := ih h1' vs1 _ ok1 h4
    refine ⟨vs2, h2', ?_, ok2⟩
    show (Except.bind (op.exec20 J S P vs h) fun p => _) = _
    rw [e1]
    exact e2

/-- C96: one call is right with every library exactly when it is portable. -/
theorem C96_step_exact (hw : 0 < w) (S : ShiftSem w) (P : Policy) (h : Heap w) (vs : List BV) (ls : List (List Bool)) (op : Op w)
    (e : EnvOk h vs ls) (hpre : op.Pre ls) (hlim : op.Lim S ls) :
    (∀ J, ∃ vs' h', op.exec20 J S P vs h = .ok (vs', h') ∧ EnvOk h' vs' (op.apply ls)) ↔ op.Portable w ls := by
  refine ⟨?_, fun hport J => C96_step_partial hw J S P h vs ls op e hpre hlim hport⟩
  intro hall
  obtain ⟨vs', h', e1, ok⟩ := hall Vacated.flip
  obtain ⟨hsz, hfw⟩ := hlim
  cases op with
  | insertN i d n x =>
    intro hsp
    obtain ⟨hi, hd⟩ := hpre
    obtain ⟨v, h1, h2, r⟩ := e.get hi
    obtain ⟨⟨v2, it2⟩, h3, e2, l', g, r2⟩ := wpV_insertN20 Vacated.flip S hw e.wf r (IsPos.begin_add hw v d) hd (floatOk_small hw hsz) hfw
      (P := P) (b := x) (Q := fun r h' => ∃ l', Gapped Vacated.flip d n (Op.at' ls i) l' ∧
        Rep h' r.1 (l'.take d ++ List.replicate n x ++ l'.drop d)) fun _ _ _ _ g _ r _ => ⟨_, g, r⟩
    have e3 : (Op.insertN i d n x).exec20 Vacated.flip S P vs h = .ok (vs.set i v2, h3) := by
      unfold Op.exec20
      dsimp only
      unfold onVec
      rw [h1]
      show (Except.bind ((Prod.fst <$> v.insertN20 Vacated.flip S P (v.begin.add (d : Int)) n x) h) fun p => _) = _
      have : (Prod.fst <$> v.insertN20 Vacated.flip S P (v.begin.add (d : Int)) n x) h = .ok (v2, h3) := by
        show (Except.bind (v.insertN20 Vacated.flip S P (v.begin.add (d : Int)) n x h) fun p => _) = _
        rw [e2]; rfl
      rw [this]; rfl
    rw [e3] at e1
    cases e1
    have hl := e.len
    have hr := ok.rep i v2 _ (by rw [List.getElem?_set, if_pos rfl, if_pos (by omega)])
      (by show (ls.set i _)[i]? = _; rw [List.getElem?_set, if_pos rfl, if_pos hi])
    exact g.wrong hd hsp (r2.uniq hr)
  | insertRange i d j a b =>
    intro hsp
    obtain ⟨hi, hd, hj, hij, hab, hb⟩ := hpre
    obtain ⟨v, h1, h2, r⟩ := e.get hi
    obtain ⟨o, h3, h4, ro⟩ := e.get hj
    have hlen : (((Op.at' ls j).take b).drop a).length = b - a := by simp; omega
    obtain ⟨⟨v2, it2⟩, h5, e2, l', g, r2⟩ := wpV_insertRange20 Vacated.flip S hw e.wf r (IsPos.begin_add hw v d) hd (ro.holdsSeq hw hab hb)
      (ro.outside hw (e.sep i j v o h1 h3 hij) hb) (floatOk_small hw (by rw [hlen]; exact hsz)) (by rw [hlen]; exact hfw) (P := P)
      (Q := fun r h' => ∃ l', Gapped Vacated.flip d (((Op.at' ls j).take b).drop a).length (Op.at' ls i) l' ∧
        Rep h' r.1 (l'.take d ++ ((Op.at' ls j).take b).drop a ++ l'.drop d)) fun _ _ _ _ g _ r _ => ⟨_, g, r⟩
    have e3 : (Op.insertRange i d j a b).exec20 Vacated.flip S P vs h = .ok (vs.set i v2, h5) := by
      unfold Op.exec20
      dsimp only
      unfold onVec2
      rw [h1, h3]
      show (Except.bind ((Prod.fst <$> v.insertRange20 Vacated.flip S P (v.begin.add (d : Int)) (o.begin.add (a : Int)) (o.begin.add (b : Int))) h)
        fun p => _) = _
      have : (Prod.fst <$> v.insertRange20 Vacated.flip S P (v.begin.add (d : Int)) (o.begin.add (a : Int)) (o.begin.add (b : Int))) h =
          .ok (v2, h5) := by
        show (Except.bind (v.insertRange20 Vacated.flip S P (v.begin.add (d : Int)) (o.begin.add (a : Int)) (o.begin.add (b : Int)) h) fun p => _) = _
        rw [e2]; rfl
      rw [this]; rfl
    rw [e3] at e1
    cases e1
    have hl := e.len
    have hr := ok.rep i v2 _ (by rw [List.getElem?_set, if_pos rfl, if_pos (by omega)])
      (by show (ls.set i _)[i]? = _; rw [List.getElem?_set, if_pos rfl, if_pos hi])
    exact g.wrong hd (by rw [hlen]; exact hsp) (r2.uniq hr)
  | _ => trivial

/-- C96: a history is right after every call, with every library, exactly when all its calls are portable. -/
theorem C96_history_exact (hw : 0 < w) (S : ShiftSem w) (P : Policy) (h : Heap w) (vs : List BV) (ls : List (List Bool)) (ops : List (Op w))
    (e : EnvOk h vs ls) (hv : Along (fun ls op => op.Pre ls ∧ op.Lim S ls) ops ls) :
    (∀ js : List (Vacated w × Op w), js.map Prod.snd <+: ops →
      ∃ vs' h', runHist20 S P js vs h = .ok (vs', h') ∧ EnvOk h' vs' (specHist ls (js.map Prod.snd))) ↔
      Along (fun ls op => op.Portable w ls) ops ls := by
  induction ops generalizing h vs ls with
  | nil =>
    refine ⟨fun _ => trivial, fun _ js hjs => ?_⟩
    rw [List.prefix_nil, List.map_eq_nil_iff] at hjs
    subst hjs
    exact ⟨vs, h, rfl, e⟩
  | cons op ops ih =>
    obtain ⟨⟨h1, h2⟩, h3⟩ := hv
    have one : ∀ (J : Vacated w) (js : List (Vacated w × Op w)), runHist20 S P ((J, op) :: js) vs h =
        Except.bind (op.exec20 J S P vs h) fun p => runHist20 S P js p.1 p.2 := fun _ _ => rfl
    constructor
    · intro hall
      have hport : op.Portable w ls := by
        rw [← C96_step_exact hw S P h vs ls op e h1 h2]
        intro J
        obtain ⟨vs', h', e1, ok⟩ := hall [(J, op)] (by simp)
        rw [one] at e1
        cases hc : op.exec20 J S P vs h with
        | error s => rw [hc] at e1; cases e1
        | ok p =>
          rw [hc] at e1
          cases e1
          exact ⟨_, _, rfl, ok⟩
      refine ⟨hport, ?_⟩
      obtain ⟨vs1, h1', e1, ok1⟩ := C96_step_partial hw Vacated.keep S P h vs ls op e h1 h2 hport
      rw [← ih h1' vs1 _ ok1 h3]
      intro js hjs
      obtain ⟨vs', h', e2, ok2⟩ := hall ((Vacated.keep, op) :: js) (by simpa using hjs)
      rw [one, e1] at e2
      exact ⟨vs', h', e2, ok2⟩
    · rintro ⟨hp, hps⟩ js hjs
      cases js with
      | nil => exact ⟨vs, h, rfl, e⟩
      | cons x js =>
        obtain ⟨J, op'⟩ := x
        rw [List.map_cons, List.cons_prefix_cons] at hjs
        obtain ⟨rfl, hjs⟩ := hjs
        obtain ⟨vs1, h1', e1, ok1⟩ := C96_step_partial hw J S P h vs ls _ e h1 h2 hp
        obtain ⟨vs2, h2', e2, ok2⟩ := (ih h1' vs1 _ ok1 h3).2 hps js hjs
        exact ⟨vs2, h2', by rw [one, e1]; exact e2, ok2⟩

/-- A history with portable calls, and a call that is not portable: 8 elements before position 3 of 11, with 8-bit words. -/
example : EnvOk exH [exV] [exL] ∧
    Along (fun ls (op : Op 8) => op.Pre ls ∧ op.Lim S8 ls ∧ op.Portable 8 ls) [.insertN 0 3 5 true, .insertN 0 8 8 false, .eraseRange 0 1 9] [exL] ∧
    ¬ (Op.insertN 0 3 8 true : Op 8).Portable 8 [exL] ∧ (Op.insertN 0 3 8 true : Op 8).Pre [exL] ∧ (Op.insertN 0 3 8 true : Op 8).Lim S8 [exL] := by
  refine ⟨exEnv, ?_, ?_, ⟨by decide, by decide⟩, show _ ≤ _ by decide, .inl (show ¬ _ by decide)⟩
  · unfold Along Along Along Along
    refine ⟨⟨⟨by decide, by decide⟩, ⟨show _ ≤ _ by decide, .inl (show ¬ _ by decide)⟩, ?_⟩, ⟨⟨by decide, by decide⟩, ⟨show _ ≤ _ by decide, .inl (show ¬ _ by decide)⟩, ?_⟩,
      ⟨⟨by decide, by decide, by decide⟩, ⟨show _ < _ by decide, .inl (show ¬ _ by decide)⟩, trivial⟩, trivial⟩
    · rintro ⟨-, h, -⟩; revert h; decide
    · rintro ⟨-, -, h, -⟩; revert h; decide
  · exact fun h => h ⟨by decide, by decide, by decide, by decide⟩

/-- C96: `insert(begin() + 3, 8, true)` on 11 elements of 8-bit words goes wrong with a library that complements the vacated words. -/
theorem C96_refuted (P : Policy) : ∃ J : Vacated 8, ∀ vs' h', (Op.insertN 0 3 8 true).exec20 J S8 P [exV] exH = .ok (vs', h') →
    ¬ EnvOk h' vs' ((Op.insertN 0 3 8 true : Op 8).apply [exL]) := by
  by_contra hc
  have hall : ∀ J : Vacated 8, ∃ vs' h', (Op.insertN 0 3 8 true).exec20 J S8 P [exV] exH = .ok (vs', h') ∧
      EnvOk h' vs' ((Op.insertN 0 3 8 true : Op 8).apply [exL]) := by
    intro J
    by_contra h
    exact hc ⟨J, fun vs' h' e ok => h ⟨vs', h', e, ok⟩⟩
  have := (C96_step_exact (by decide) S8 P exH [exV] [exL] (.insertN 0 3 8 true) exEnv ⟨by decide, by decide⟩
    ⟨show _ ≤ _ by decide, .inl (show ¬ _ by decide)⟩).1 hall
  exact this ⟨by decide, by decide, by decide, by decide⟩

/-- The hypotheses of the theorems about single insertions. -/
example : exH.WF ∧ Rep exH exV exL ∧ IsPos exV ((exV.begin : BitIter 8).add 3) 3 ∧ 3 ≤ exL.length ∧ FloatOk 8 exV.vec.size exL.length 8 ∧
    InsertSpoils 8 3 8 exL.length ∧ ¬ InsertSpoils 8 3 7 exL.length :=
  ⟨exH_wf, exRep, IsPos.begin_add (by decide) exV 3, by decide, floatOk_small (by decide) (by decide), ⟨by decide, by decide, by decide, by decide⟩,
    fun h => by have := h.2.1; revert this; decide⟩

end BitLib
