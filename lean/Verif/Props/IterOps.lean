import Verif.Model.IterOps
import Verif.Props.Iterators
import Verif.Props.Refs
import Verif.Props.Vector2
/- C70: the remaining iterator operators and walking over a range; C53: self-move. -/
namespace BitLib
open BitIter
variable {w : Nat}

/-! ### C70: operators -/

/-- C70: `it++` and `it--` return the old iterator and move by one bit; `+=`, `-=`, `n + it`, `advance`, `next` and
conversion to another iterator type designate the bit they should. -/
theorem C70_operators (it : BitIter w) (h : it.Valid) (n : Int) :
    (it.postInc.1 = it ∧ it.postInc.2.Valid ∧ it.postInc.2.addr = it.addr + 1) ∧
    (it.postDec.1 = it ∧ it.postDec.2.Valid ∧ it.postDec.2.addr = it.addr - 1) ∧
    ((it.addAssign n).Valid ∧ (it.addAssign n).addr = it.addr + n) ∧
    ((it.subAssign n).Valid ∧ (it.subAssign n).addr = it.addr - n) ∧
    ((addLeft n it).Valid ∧ (addLeft n it).addr = it.addr + n) ∧
    ((advance it n).Valid ∧ (advance it n).addr = it.addr + n) ∧
    ((next it n).Valid ∧ (next it n).addr = it.addr + n) ∧
    ((next it).Valid ∧ (next it).addr = it.addr + 1) ∧
    (∀ other : BitIter w, (other.assign it).addr = it.addr ∧ (other.assign it).Valid) := by
  have hw : 0 < w := Nat.lt_of_le_of_lt (Nat.zero_le _) h
  have ha := add_valid hw it n
  have hb := add_addr hw it n
  refine ⟨⟨rfl, ?_, ?_⟩, ⟨rfl, ?_, ?_⟩, ⟨ha, hb⟩, ⟨sub_valid hw it n, sub_addr hw it n⟩, ⟨ha, hb⟩, ⟨ha, hb⟩, ⟨ha, hb⟩,
    ⟨add_valid hw it 1, add_addr hw it 1⟩, fun _ => ⟨rfl, h⟩⟩
  · show it.inc.Valid
    rw [inc_eq_add h]; exact add_valid hw _ _
  · show it.inc.addr = _
    rw [inc_eq_add h]; exact add_addr hw _ _
  · show it.dec.Valid
    rw [dec_eq_sub h]; exact sub_valid hw _ _
  · show it.dec.addr = _
    rw [dec_eq_sub h]; exact sub_addr hw _ _

/-- C70: the same for bit pointers. -/
theorem C70_pointer_post (S : ShiftSem w) (bi : Bool) (p : BitPtr w) (a : Int) (hp : p.At a) :
    (∃ q, p.postInc S bi = .ok (p, q) ∧ q.At (a + 1)) ∧ (∃ q, p.postDec S bi = .ok (p, q) ∧ q.At (a - 1)) := by
  obtain ⟨⟨q, h1, h2, _⟩, ⟨r, h3, h4, _⟩⟩ := C05_inc_dec S bi p a hp
  refine ⟨⟨q, ?_, h2⟩, ⟨r, ?_, h4⟩⟩
  · unfold BitPtr.postInc; rw [h1]; rfl
  · unfold BitPtr.postDec; rw [h3]; rfl

/-- C70: `is_within(first, last, n)` decides `last - first <= n` and reads nothing; a reversed range is rejected by the assertion in
`distance` (whose comment promises a negative distance). -/
theorem C70_is_within (first last : BitIter w) (n : Int) (m : Mem w) :
    (first.addr ≤ last.addr → isWithinDist first last n m = .ok (decide (last.addr - first.addr ≤ n), m)) ∧
    (last.addr < first.addr → isWithinDist first last n m = .error .assertFail) := by
  constructor
  · intro h
    have : wp (isWithinDist first last n) m (fun r m' => r = decide (last.addr - first.addr ≤ n) ∧ m' = m) := by
      unfold isWithinDist
      rw [wp_bind, wp_distance]
      refine ⟨h, ?_⟩
      rw [wp_pure]
      exact ⟨rfl, rfl⟩
    obtain ⟨r, m', h1, rfl, rfl⟩ := this
    exact h1
  · intro h
    unfold isWithinDist
    show (distance first last m >>= fun p => _) = _
    rw [C01_distance_assert first last h m]; rfl

/-- C70: the predicates on positions. -/
theorem C70_predicates (a b : BitIter w) (ha : a.Valid) (hb : b.Valid) (base : Int) :
    (isAlignedLsb a = true ↔ a.addr % (w : Int) = 0) ∧
    (isOnePastLastBit a base = true ↔ a.addr = (base + 1) * (w : Int)) ∧
    (inSameWord a b = true ↔ a.addr / (w : Int) = b.addr / (w : Int)) := by
  have ea : a.addr % (w : Int) = a.pos := emod_of_word a.base a.pos ha
  have da : a.addr / (w : Int) = a.base := ediv_of_word a.base a.pos ha
  have db : b.addr / (w : Int) = b.base := ediv_of_word b.base b.pos hb
  refine ⟨?_, ?_, ?_⟩
  · rw [ea]; simp [isAlignedLsb]
  · simp only [isOnePastLastBit, decide_eq_true_eq]
    have hv : (⟨base + 1, 0⟩ : BitIter w).Valid := show 0 < w from Nat.lt_of_le_of_lt (Nat.zero_le _) ha
    constructor
    · rintro ⟨h1, h2⟩
      unfold BitIter.addr
      rw [h1, ← h2]; simp
    · intro h
      have : a = ⟨base + 1, 0⟩ := addr_inj ha hv (by rw [h]; simp [BitIter.addr])
      rw [this]; exact ⟨rfl, rfl⟩
  · rw [da, db]; simp [inSameWord]

/-- C70: `_shift_towards_lsb` moves bit `i + n` to bit `i`, `_shift_towards_msb` the other way, for `n` below the width. -/
theorem C70_shift_towards (S : ShiftSem w) (x : BitVec w) (n : Nat) (h : n < w) :
    (∃ y, shiftTowardsLsb S x n = .ok y ∧ ∀ i, i < w → y.getLsbD i = x.getLsbD (n + i)) ∧
    (∃ y, shiftTowardsMsb S x n = .ok y ∧ ∀ i, i < w → y.getLsbD i = (decide (n ≤ i) && x.getLsbD (i - n))) := by
  refine ⟨⟨x >>> n, S.shr_ok h, fun i _ => by simp⟩, ⟨x <<< n, S.shl_ok h, fun i hi => ?_⟩⟩
  rw [BitVec.getLsbD_shiftLeft]
  by_cases hc : i < n
  · simp [hc]
  · simp [hi, hc, show n ≤ i by omega]

/-! ### C70: walking over a range -/

theorem bne_of_addr {a b : BitIter w} (ha : a.Valid) (hb : b.Valid) (h : a.addr ≠ b.addr) : a.bne b = true :=
  (C02_iterator_order a b ha hb).2.1.mpr h

theorem bne_self (a : BitIter w) : ¬ a.bne a = true := by unfold BitIter.bne; simp

theorem wp_readAll (S : ShiftSem w) (hw : 0 < w) {m : Mem w} (l : List Bool) {fuel : Nat} {it last : BitIter w}
    {Q : List Bool → Mem w → Prop} (hit : it.Valid) (hla : last.Valid) (hlen : last.addr = it.addr + l.length) (hfuel : l.length < fuel)
    (hb : ∀ (i : Nat) (hi : i < l.length), bitAt m (it.addr + (i : Int)) = some l[i]) (hQ : Q l m) :
    wp (readAll S fuel it last) m Q := by
  induction l generalizing fuel it Q with
  | nil =>
    obtain ⟨fuel, rfl⟩ : ∃ k, fuel = k + 1 := ⟨fuel - 1, by simp at hfuel; omega⟩
    have : it = last := addr_inj hit hla (by simp at hlen; omega)
    subst this
    unfold readAll
    rw [if_neg (bne_self _), wp_pure]
    exact hQ
  | cons b l ih =>
    rw [List.length_cons] at hlen hfuel
    obtain ⟨fuel, rfl⟩ : ∃ k, fuel = k + 1 := ⟨fuel - 1, by omega⟩
    unfold readAll
    rw [if_pos (bne_of_addr hit hla (by omega)), wp_bind]
    refine wp_deref S hit ?_
    intro r hr
    rw [wp_bind]
    have hb0 := hb 0 (by rw [List.length_cons]; omega)
    rw [show it.addr + ((0 : Nat) : Int) = it.addr by omega] at hb0
    refine wp_refRead hr hb0 ?_
    have hi : it.inc.addr = it.addr + 1 := by rw [inc_eq_add hit, add_addr hw]
    have hiv : it.inc.Valid := by rw [inc_eq_add hit]; exact add_valid hw _ _
    rw [wp_bind]
    refine ih hiv (by omega) (by omega) ?_ ?_
    · intro i hi'
      have := hb (i + 1) (by rw [List.length_cons]; omega)
      rw [hi, show it.addr + 1 + (i : Int) = it.addr + ((i + 1 : Nat) : Int) by omega, this]
      rfl
    · rw [wp_pure]
      exact hQ

theorem wp_readAllBack (S : ShiftSem w) (hw : 0 < w) {m : Mem w} (n : Nat) {fuel : Nat} {first last : BitIter w} (f : Int → Bool)
    {Q : List Bool → Mem w → Prop} (hit : first.Valid) (hla : last.Valid) (hlen : last.addr = first.addr + (n : Int)) (hfuel : n < fuel)
    (hb : ∀ i, first.addr ≤ i → i < last.addr → bitAt m i = some (f i))
    (hQ : Q ((List.range n).map fun i : Nat => f (last.addr - 1 - (i : Int))) m) :
    wp (readAllBack S fuel first last) m Q := by
  induction n generalizing fuel last Q with
  | zero =>
    obtain ⟨fuel, rfl⟩ : ∃ k, fuel = k + 1 := ⟨fuel - 1, by omega⟩
    have : last = first := addr_inj hla hit (by omega)
    subst this
    unfold readAllBack
    rw [if_neg (bne_self _), wp_pure]
    exact hQ
  | succ n ih =>
    obtain ⟨fuel, rfl⟩ : ∃ k, fuel = k + 1 := ⟨fuel - 1, by omega⟩
    unfold readAllBack
    rw [if_pos (bne_of_addr hla hit (by omega)), wp_bind]
    have hd : last.dec.addr = last.addr - 1 := by rw [dec_eq_sub hla, sub_addr hw]
    have hdv : last.dec.Valid := by rw [dec_eq_sub hla]; exact sub_valid hw _ _
    refine wp_deref S hdv ?_
    intro r hr
    rw [wp_bind]
    refine wp_refRead hr (hb _ (by omega) (by omega)) ?_
    rw [wp_bind]
    refine ih hdv (by omega) (by omega) (fun i h1 h2 => hb i h1 (by omega)) ?_
    rw [wp_pure]
    have : (List.range (n + 1)).map (fun i : Nat => f (last.addr - 1 - (i : Int))) =
        f last.dec.addr :: (List.range n).map fun i : Nat => f (last.dec.addr - 1 - (i : Int)) := by
      rw [List.range_succ_eq_map, List.map_cons, List.map_map, hd]
      rw [show last.addr - 1 - ((0 : Nat) : Int) = last.addr - 1 by omega]
      congr 1
      apply List.map_congr_left
      intro i _
      show f _ = f _
      congr 1
      simp only [Nat.succ_eq_add_one]
      omega
    rw [this] at hQ
    exact hQ

/-- C70: walking from `first` to `last` with `++` meets every bit of the range once and in order, and stops;
walking back with `--` meets them in the opposite order. Nothing is modified. -/
theorem C70_walk (S : ShiftSem w) (m : Mem w) (first last : BitIter w) (l : List Bool) (hf : first.Valid) (hl : last.Valid)
    (hlen : last.addr = first.addr + l.length)
    (hb : ∀ (i : Nat) (hi : i < l.length), bitAt m (first.addr + (i : Int)) = some l[i]) (fuel : Nat) (hfuel : l.length < fuel) :
    readAll S fuel first last m = .ok (l, m) ∧ readAllBack S fuel first last m = .ok (l.reverse, m) := by
  have hw : 0 < w := Nat.lt_of_le_of_lt (Nat.zero_le _) hf
  constructor
  · obtain ⟨r, m', h, rfl, rfl⟩ := wp_readAll S hw l (Q := fun r m' => r = l ∧ m' = m) hf hl hlen hfuel hb ⟨rfl, rfl⟩
    exact h
  · have e : (List.range l.length).map (fun i : Nat => l[(last.addr - 1 - (i : Int) - first.addr).toNat]?.getD false) = l.reverse := by
      apply List.ext_getElem
      · simp
      · intro i h1 h2
        have h3 : i < l.length := by simpa using h1
        rw [List.getElem_map, List.getElem_range, List.getElem_reverse, hlen,
          show (first.addr + (l.length : Int) - 1 - (i : Int) - first.addr).toNat = l.length - 1 - i by omega,
          List.getElem?_eq_getElem (by omega)]
        rfl
    obtain ⟨r, m', h, rfl, rfl⟩ := wp_readAllBack S hw l.length (fun i => l[(i - first.addr).toNat]?.getD false)
      (Q := fun r m' => r = l.reverse ∧ m' = m) hf hl hlen hfuel
      (by
        intro i h1 h2
        obtain ⟨k, rfl⟩ : ∃ k : Nat, i = first.addr + (k : Int) := ⟨(i - first.addr).toNat, by omega⟩
        rw [hb k (by omega), show (first.addr + (k : Int) - first.addr).toNat = k by omega, List.getElem?_eq_getElem (by omega)]
        rfl)
      ⟨e, rfl⟩
    exact h

theorem wp_writeAll (S : ShiftSem w) (hw : 0 < w) (l : List Bool) {m : Mem w} {fuel : Nat} {it last : BitIter w}
    (hit : it.Valid) (hla : last.Valid) (hlen : last.addr = it.addr + l.length) (hfuel : l.length < fuel)
    (hm : Mapped m it.addr last.addr) :
    wp (writeAll S fuel it last l) m fun _ m' =>
      Wrote m m' it.addr last.addr fun i => l[(i - it.addr).toNat]? := by
  induction l generalizing fuel it m with
  | nil =>
    obtain ⟨fuel, rfl⟩ : ∃ k, fuel = k + 1 := ⟨fuel - 1, by simp at hfuel; omega⟩
    have : it = last := addr_inj hit hla (by simp at hlen; omega)
    subst this
    unfold writeAll
    rw [if_neg (bne_self _), wp_pure]
    intro i
    rw [if_neg (by omega)]
  | cons b l ih =>
    rw [List.length_cons] at hlen hfuel
    obtain ⟨fuel, rfl⟩ : ∃ k, fuel = k + 1 := ⟨fuel - 1, by omega⟩
    unfold writeAll
    rw [if_pos (bne_of_addr hit hla (by omega))]
    dsimp only
    rw [wp_bind]
    refine wp_deref S hit ?_
    intro r hr
    rw [wp_bind]
    refine wp_refSetTo (v := b) hr (hm _ (by omega) (by omega)) fun m1 h1 => ?_
    have hi : it.inc.addr = it.addr + 1 := by rw [inc_eq_add hit, add_addr hw]
    have hiv : it.inc.Valid := by rw [inc_eq_add hit]; exact add_valid hw _ _
    obtain ⟨_, m', h2, h3⟩ := ih (m := m1) (fuel := fuel) hiv (by omega) (by omega) (by
      intro i h4 h5
      rw [h1 i]
      split
      · rfl
      · exact hm i (by omega) h5)
    refine ⟨_, m', h2, ?_⟩
    intro i
    rw [h3 i, h1 i, hi]
    beta_reduce
    by_cases hc : i = it.addr
    · rw [if_neg (by omega), if_pos hc, if_pos (by omega), hc, show (it.addr - it.addr).toNat = 0 by omega]; rfl
    · by_cases hr2 : it.addr ≤ i ∧ i < last.addr
      · rw [if_pos (by omega), if_pos hr2, show (i - it.addr).toNat = (i - (it.addr + 1)).toNat + 1 by omega]
        rfl
      · rw [if_neg (by omega), if_neg hc, if_neg hr2]

/-- C70: assigning to `*it` while walking over the range writes the values in order and nothing else. -/
theorem C70_walk_write (S : ShiftSem w) (m : Mem w) (first last : BitIter w) (l : List Bool) (hf : first.Valid) (hl : last.Valid)
    (hlen : last.addr = first.addr + l.length) (hm : Mapped m first.addr last.addr) (fuel : Nat) (hfuel : l.length < fuel) :
    ∃ m', writeAll S fuel first last l m = .ok ((), m') ∧
      (∀ (i : Nat) (hi : i < l.length), bitAt m' (first.addr + (i : Int)) = some l[i]) ∧
      (∀ i, i < first.addr ∨ last.addr ≤ i → bitAt m' i = bitAt m i) := by
  have hw : 0 < w := Nat.lt_of_le_of_lt (Nat.zero_le _) hf
  obtain ⟨_, m', h, hm'⟩ := wp_writeAll S hw l hf hl hlen hfuel hm
  refine ⟨m', h, ?_, ?_⟩
  · intro i hi
    rw [hm' _, if_pos (by omega)]
    beta_reduce
    rw [show (first.addr + (i : Int) - first.addr).toNat = i by omega, List.getElem?_eq_getElem hi]
  · intro i hi
    rw [hm' i, if_neg (by omega)]

/-- C70: a range-based `for` over a `bit_vector` meets its elements in order, for every length. -/
theorem C70_range_for (hw : 0 < w) (S : ShiftSem w) (h : Heap w) (v : BV) (l : List Bool) (hr : Rep h v l) :
    v.readAll S h = .ok (l, h) := by
  have hl := hr.len
  have : wpV (v.readAll S) h (fun r h' => r = l ∧ h' = h) := by
    unfold BV.readAll BV.end
    refine wpV_onMem ?_
    refine wp_readAll S hw l (BV.begin_valid hw v) (add_valid hw _ _) ?_ (by omega) ?_ ⟨rfl, rfl⟩
    · rw [add_addr hw, hl]
    · intro i hi
      rw [BV.begin_addr]
      exact hr.bits i hi
  obtain ⟨r, h', e, rfl, rfl⟩ := this
  exact e

/-- The hypotheses of the walks hold for eleven bits from bit 3 of two words. -/
example : (⟨0, 3⟩ : BitIter 8).Valid ∧ (⟨1, 6⟩ : BitIter 8).addr = (⟨0, 3⟩ : BitIter 8).addr + 11 := by decide
example : runOn (readAll S8 12 ⟨0, 3⟩ ⟨1, 2⟩) [0xa5#8, 0x3d#8] =
    .ok ([false, false, true, false, true, true, false], [0xa5#8, 0x3d#8]) := by decide +kernel
example : runOn (readAllBack S8 12 ⟨0, 3⟩ ⟨1, 2⟩) [0xa5#8, 0x3d#8] =
    .ok ([false, true, true, false, true, false, false], [0xa5#8, 0x3d#8]) := by decide +kernel
example : exV.readAll S8 exH = .ok (exL, exH) := C70_range_for (by decide) S8 _ _ _ exRep
example : isOnePastLastBit (⟨5, 0⟩ : BitIter 8) 4 = true ∧ inSameWord (⟨5, 0⟩ : BitIter 8) ⟨5, 7⟩ = true ∧
    inSameWord (⟨5, 0⟩ : BitIter 8) ⟨4, 7⟩ = false := by decide

/-! ### C53: moving a vector to itself -/

/-- C53: a vector that is move-assigned to itself is empty afterwards, and usable, whatever `std::vector` does with its words. -/
theorem C53_move_assign_self (hw : 0 < w) (keep : Bool) (h : Heap w) (v : BV) (l : List Bool) (hwf : h.WF) (hr : Rep h v l) :
    ∃ v' h', BV.moveAssignSelf keep v h = .ok (v', h') ∧ h'.WF ∧ v'.size = 0 ∧ Rep h' v' [] ∧
      ∀ o lo, Rep h o lo → Sep w v.vec o.vec → Rep h' o lo ∧ Sep w v'.vec o.vec := by
  cases keep with
  | true =>
    refine ⟨⟨v.vec, 0⟩, h, rfl, hwf, rfl, ⟨hr.ok, rfl, Nat.zero_le _, fun i hi => ?_⟩, fun o lo ho hs => ⟨ho, hs⟩⟩
    simp at hi
  | false =>
    have hst := release_ok hw (v := v.vec) hwf
    refine ⟨BV.default, _, rfl, hst.wf, rfl, (wpV_default hst.wf).2, fun o lo ho hs => ⟨(ho.frame hst hs).1, .inl rfl⟩⟩

/-- Moved to itself, the vector of eleven elements is empty. -/
example (keep : Bool) : ∃ v' h', BV.moveAssignSelf keep exV exH = .ok (v', h') ∧ Rep h' v' [] := by
  obtain ⟨v', h', e, _, _, r, _⟩ := C53_move_assign_self (by decide) keep exH exV exL exH_wf exRep
  exact ⟨v', h', e, r⟩

end BitLib
