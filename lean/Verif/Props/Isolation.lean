import Verif.Lemmas.Iso
import Batteries.Data.Nat.Lemmas
import Verif.Props.Agree
import Verif.Props.Refs
import Verif.Props.Vacated
/-
C78: every algorithm and every operation of a bit reference works with the bits it is given and no others: the other bits, also those of
the words it has to read and write as a whole, neither influence it nor change.
C79: programs composed of such operations, and the order of two of them.
-/
namespace BitLib
variable {w : Nat}

theorem within_mapped {m : Mem w} {P : Int → Prop} {a b : Int} (h : ∀ i, P i → (bitAt m i).isSome) (hP : ∀ i, Within a b i → P i) :
    Mapped m a b := fun i h1 h2 => h i (hP i ⟨h1, h2⟩)

theorem ite_within (a b i : Int) (x y : Option Bool) : (if Within a b i then x else y) = if a ≤ i ∧ i < b then x else y := rfl

theorem add_sub_self' (a b : Int) : a + (b - a) = b := by omega

/-- C78: `fill` reads nothing (what the range held does not matter) and writes the range. -/
theorem C78_fill (S : ShiftSem w) (first last : BitIter w) (v : Bool) (hf : first.Valid) (hl : last.Valid)
    (hle : first.addr ≤ last.addr) : Isolated (fill S first last v) NoBits (Within first.addr last.addr) := by
  refine isolated_of (fun _ _ => True) (fun _ _ => some v) ?_ (fun _ _ _ _ => rfl) (fun _ _ _ _ _ _ _ => rfl) (fun _ _ _ _ _ => rfl)
  intro m hm
  obtain ⟨m', h, hm'⟩ := C10_fill S m first last v ⟨hf, hl, hle, within_mapped hm (fun _ h => Or.inr h)⟩
  exact ⟨(), m', h, trivial, hm'⟩

/-- C78: `copy` reads the source and writes the destination; for a destination that overlaps the source from below, too. -/
theorem C78_copy (S : ShiftSem w) (first last d : BitIter w) (hf : first.Valid) (hl : last.Valid) (hd : d.Valid)
    (hle : first.addr ≤ last.addr) (hov : d.addr ≤ first.addr ∨ last.addr ≤ d.addr) :
    Isolated (copy S first last d) (Within first.addr last.addr) (Within d.addr (d.addr + len first last)) := by
  refine isolated_of (fun _ r => r.Valid ∧ r.addr = d.addr + len first last) (fun m i => bitAt m (first.addr + (i - d.addr))) ?_ ?_ ?_ ?_
  · intro m hm
    obtain ⟨r, m', h, h1, h2, hm'⟩ := C06_copy S m first last d ⟨hf, hl, hle, within_mapped hm (fun _ h => Or.inl h)⟩
      ⟨hd, within_mapped hm (fun _ h => Or.inr h)⟩ hov
    exact ⟨r, m', h, ⟨h1, h2⟩, hm'⟩
  · intro m hm i hi
    exact hm _ (Or.inl (by unfold Within len at *; omega))
  · intro _ _ r1 r2 _ h1 h2
    exact BitIter.addr_inj h1.1 h2.1 (by rw [h1.2, h2.2])
  · intro m1 m2 h i hi
    exact h _ (by unfold Within len at *; omega)

/-- C78: `move` likewise. -/
theorem C78_move (S : ShiftSem w) (first last d : BitIter w) (hf : first.Valid) (hl : last.Valid) (hd : d.Valid)
    (hle : first.addr ≤ last.addr) (hov : d.addr ≤ first.addr ∨ last.addr ≤ d.addr) :
    Isolated (move S first last d) (Within first.addr last.addr) (Within d.addr (d.addr + len first last)) :=
  (C78_copy S first last d hf hl hd hle hov).congr fun m hm =>
    C08_move_eq_copy S m first last d ⟨hf, hl, hle, within_mapped hm (fun _ h => Or.inl h)⟩
      ⟨hd, within_mapped hm (fun _ h => Or.inr h)⟩ hov

/-- C78: `copy_backward`. -/
theorem C78_copy_backward (S : ShiftSem w) (first last d : BitIter w) (hf : first.Valid) (hl : last.Valid) (hd : d.Valid)
    (hle : first.addr ≤ last.addr) (hov : last.addr ≤ d.addr ∨ d.addr ≤ first.addr)
    (hS : ¬ (first.pos = 0 ∧ last.pos = d.pos ∧ first.base + 2 ≤ last.base) ∨ S.FullShiftOk) :
    Isolated (copyBackward S first last d) (Within first.addr last.addr) (Within (d.addr - len first last) d.addr) := by
  refine isolated_of (fun _ r => r.Valid ∧ r.addr = d.addr - len first last)
    (fun m i => bitAt m (first.addr + (i - (d.addr - len first last)))) ?_ ?_ ?_ ?_
  · intro m hm
    obtain ⟨r, m', h, h1, h2, hm'⟩ := C09_copy_backward S m first last d ⟨hf, hl, hle, within_mapped hm (fun _ h => Or.inl h)⟩
      hd (within_mapped hm (fun _ h => Or.inr h)) hov hS
    refine ⟨r, m', h, ⟨h1, h2⟩, fun i => ?_⟩
    have := hm' i
    rw [show d.addr - len first last + len first last = d.addr by omega] at this
    exact this
  · intro m hm i hi
    exact hm _ (Or.inl (by unfold Within len at *; omega))
  · intro _ _ r1 r2 _ h1 h2
    exact BitIter.addr_inj h1.1 h2.1 (by rw [h1.2, h2.2])
  · intro m1 m2 h i hi
    exact h _ (by unfold Within len at *; omega)

theorem FirstAt.unique {m1 m2 : Mem w} {v : Bool} {a b r s : Int} (h : ∀ i, Within a b i → bitAt m1 i = bitAt m2 i)
    (h1 : FirstAt m1 v a b r) (h2 : FirstAt m2 v a b s) : r = s := by
  obtain ⟨a1, a2, a3, a4⟩ := h1
  obtain ⟨b1, b2, b3, b4⟩ := h2
  rcases Int.lt_trichotomy r s with hlt | heq | hlt
  · have e1 := a4 (by omega)
    have e2 := b3 r a1 hlt
    rw [h r ⟨a1, by omega⟩, e2] at e1
    cases v <;> simp at e1
  · exact heq
  · have e1 := b4 (by omega)
    have e2 := a3 s b1 hlt
    rw [← h s ⟨b1, by omega⟩, e2] at e1
    cases v <;> simp at e1

/-- C78: `find` reads the range and writes nothing. -/
theorem C78_find (S : ShiftSem w) (first last : BitIter w) (v : Bool) (hf : first.Valid) (hl : last.Valid)
    (hle : first.addr ≤ last.addr) (hne : first.addr < last.addr ∨ first.pos = 0) :
    Isolated (find S first last v) (Within first.addr last.addr) NoBits := by
  refine isolated_of_read (fun m r => r.Valid ∧ FirstAt m v first.addr last.addr r.addr) ?_ ?_
  · intro m hm
    exact C11_find S m first last v ⟨hf, hl, hle, within_mapped hm (fun _ h => h)⟩ (hne.imp id Or.inl)
  · intro m1 m2 r1 r2 h h1 h2
    exact BitIter.addr_inj h1.1 h2.1 (h1.2.unique h h2.2)

/-- C78: `equal` reads both ranges. -/
theorem C78_equal (S : ShiftSem w) (first last d : BitIter w) (hf : first.Valid) (hl : last.Valid) (hd : d.Valid)
    (hle : first.addr ≤ last.addr) :
    Isolated (equal S first last d) (Either (Within first.addr last.addr) (Within d.addr (d.addr + len first last))) NoBits := by
  refine isolated_of_read (fun m b => (b = true ↔ EqBits m first.addr d.addr (len first last))) ?_ ?_
  · intro m hm
    exact C12_equal S m first last d ⟨hf, hl, hle, within_mapped hm (fun _ h => Or.inl h)⟩ ⟨hd, within_mapped hm (fun _ h => Or.inr h)⟩
  · intro m1 m2 b1 b2 h h1 h2
    have : EqBits m1 first.addr d.addr (len first last) ↔ EqBits m2 first.addr d.addr (len first last) := by
      unfold EqBits
      refine forall_congr' fun i => forall_congr' fun h0 => forall_congr' fun h3 => ?_
      rw [h _ (Or.inl (by unfold Within len at *; omega)), h _ (Or.inr (by unfold Within len at *; omega))]
    rw [this] at h1
    cases b1 <;> cases b2 <;> simp_all

/-- C78: `count` reads the range. -/
theorem C78_count (S : ShiftSem w) (first last : BitIter w) (v : Bool) (hf : first.Valid) (hl : last.Valid)
    (hlt : first.addr < last.addr) : Isolated (count S first last v) (Within first.addr last.addr) NoBits := by
  refine isolated_of_read (fun m r => r = (countIn m v first.addr (len first last).toNat : Int)) ?_ ?_
  · intro m hm
    exact ⟨_, C13_count S m first last v ⟨hf, hl, by omega, within_mapped hm (fun _ h => h)⟩ hlt, rfl⟩
  · rintro m1 m2 r1 r2 h rfl rfl
    rw [countIn_eq_cntF, countIn_eq_cntF, cntF_congr]
    intro i h1 h2
    exact h i (by unfold Within len at *; omega)

/-- C78: unary `transform` with a bit-by-bit operation. -/
theorem C78_transform (S : ShiftSem w) (op : BitVec w → BitVec w) (f : Bool → Bool)
    (hop : ∀ x i, i < w → (op x).getLsbD i = f (x.getLsbD i)) (first last d : BitIter w) (hf : first.Valid) (hl : last.Valid)
    (hd : d.Valid) (hle : first.addr ≤ last.addr) (hov : d.addr ≤ first.addr ∨ last.addr ≤ d.addr) :
    Isolated (transform S op first last d) (Within first.addr last.addr) (Within d.addr (d.addr + len first last)) := by
  refine isolated_of (fun _ r => r.Valid ∧ r.addr = d.addr + len first last)
    (fun m i => (bitAt m (first.addr + (i - d.addr))).map f) ?_ ?_ ?_ ?_
  · intro m hm
    obtain ⟨r, m', h, h1, h2, hm'⟩ := C23_transform S op f hop m first last d
      ⟨hf, hl, hle, within_mapped hm (fun _ h => Or.inl h)⟩ ⟨hd, within_mapped hm (fun _ h => Or.inr h)⟩ hov
    exact ⟨r, m', h, ⟨h1, h2⟩, hm'⟩
  · intro m hm i hi
    rw [Option.isSome_map]
    exact hm _ (Or.inl (by unfold Within len at *; omega))
  · intro _ _ r1 r2 _ h1 h2
    exact BitIter.addr_inj h1.1 h2.1 (by rw [h1.2, h2.2])
  · intro m1 m2 h i hi
    rw [h _ (by unfold Within len at *; omega)]

/-- C78: binary `transform` with a bit-by-bit operation. -/
theorem C78_transform2 (S : ShiftSem w) (op : BitVec w → BitVec w → BitVec w) (f : Bool → Bool → Bool)
    (hop : ∀ x y i, i < w → (op x y).getLsbD i = f (x.getLsbD i) (y.getLsbD i)) (first1 last1 first2 d : BitIter w)
    (hf : first1.Valid) (hl : last1.Valid) (hf2 : first2.Valid) (hd : d.Valid) (hle : first1.addr ≤ last1.addr)
    (hov : d.addr ≤ first1.addr ∨ last1.addr ≤ d.addr)
    (hov2 : d.addr ≤ first2.addr ∨ first2.addr + len first1 last1 ≤ d.addr) :
    Isolated (transform2 S op first1 last1 first2 d)
      (Either (Within first1.addr last1.addr) (Within first2.addr (first2.addr + len first1 last1)))
      (Within d.addr (d.addr + len first1 last1)) := by
  refine isolated_of (fun _ r => r.Valid ∧ r.addr = d.addr + len first1 last1)
    (fun m i => zipBit f (bitAt m (first1.addr + (i - d.addr))) (bitAt m (first2.addr + (i - d.addr)))) ?_ ?_ ?_ ?_
  · intro m hm
    obtain ⟨r, m', h, h1, h2, hm'⟩ := C24_transform2 S op f hop m first1 last1 first2 d
      ⟨hf, hl, hle, within_mapped hm (fun _ h => Or.inl (Or.inl h))⟩ ⟨hf2, within_mapped hm (fun _ h => Or.inl (Or.inr h))⟩
      ⟨hd, within_mapped hm (fun _ h => Or.inr h)⟩ hov hov2
    exact ⟨r, m', h, ⟨h1, h2⟩, hm'⟩
  · intro m hm i hi
    obtain ⟨x, hx⟩ := Option.isSome_iff_exists.1
      (hm (first1.addr + (i - d.addr)) (Or.inl (Or.inl (by unfold Within len at *; omega))))
    obtain ⟨y, hy⟩ := Option.isSome_iff_exists.1
      (hm (first2.addr + (i - d.addr)) (Or.inl (Or.inr (by unfold Within len at *; omega))))
    rw [hx, hy]; rfl
  · intro _ _ r1 r2 _ h1 h2
    exact BitIter.addr_inj h1.1 h2.1 (by rw [h1.2, h2.2])
  · intro m1 m2 h i hi
    rw [h _ (Or.inl (by unfold Within len at *; omega)), h _ (Or.inr (by unfold Within len at *; omega))]

/-- C78: `swap_ranges` of disjoint ranges. -/
theorem C78_swap_ranges (S : ShiftSem w) (first1 last1 first2 : BitIter w) (hf : first1.Valid) (hl : last1.Valid) (hd : first2.Valid)
    (hle : first1.addr ≤ last1.addr) (hdis : last1.addr ≤ first2.addr ∨ first2.addr + len first1 last1 ≤ first1.addr) :
    Isolated (swapRanges S first1 last1 first2)
      (Either (Within first1.addr last1.addr) (Within first2.addr (first2.addr + len first1 last1)))
      (Either (Within first1.addr last1.addr) (Within first2.addr (first2.addr + len first1 last1))) := by
  refine isolated_of (fun _ r => r.Valid ∧ r.addr = first2.addr + len first1 last1)
    (fun m i => if first1.addr ≤ i ∧ i < last1.addr then bitAt m (first2.addr + (i - first1.addr))
      else bitAt m (first1.addr + (i - first2.addr))) ?_ ?_ ?_ ?_
  · intro m hm
    obtain ⟨r, m', h, h1, h2, hm'⟩ := C22_swap_ranges S m first1 last1 first2
      ⟨hf, hl, hle, within_mapped hm (fun _ h => Or.inl (Or.inl h))⟩ ⟨hd, within_mapped hm (fun _ h => Or.inl (Or.inr h))⟩ hdis
    refine ⟨r, m', h, ⟨h1, h2⟩, fun i => ?_⟩
    rw [hm' i]
    unfold Either Within len
    rw [add_sub_self']
    split_ifs <;> first | rfl | omega
  · intro m hm i hi
    split_ifs with hc
    · exact hm _ (Or.inl (Or.inr (by unfold Within len at *; omega)))
    · exact hm _ (Or.inl (Or.inl (by unfold Either Within len at *; omega)))
  · intro _ _ r1 r2 _ h1 h2
    exact BitIter.addr_inj h1.1 h2.1 (by rw [h1.2, h2.2])
  · intro m1 m2 h i hi
    split_ifs with hc
    · exact h _ (Or.inr (by unfold Within len at *; omega))
    · exact h _ (Or.inl (by unfold Either Within len at *; omega))

/-- C78: `reverse`. -/
theorem C78_reverse (S : ShiftSem w) (first last : BitIter w) (hf : first.Valid) (hl : last.Valid) (hle : first.addr ≤ last.addr)
    (hne : first.addr < last.addr ∨ first.pos = 0)
    (hfull : ¬ (first.pos ≠ 0 ∧ last.addr = (first.base + 1) * w) ∨ S.FullShiftOk) :
    Isolated (reverse S first last) (Within first.addr last.addr) (Within first.addr last.addr) := by
  refine isolated_of (fun _ _ => True) (fun m i => bitAt m (first.addr + last.addr - 1 - i)) ?_ ?_ (fun _ _ _ _ _ _ _ => rfl) ?_
  · intro m hm
    obtain ⟨m', h, hm'⟩ := C15_reverse S m first last ⟨hf, hl, hle, within_mapped hm (fun _ h => Or.inl h)⟩ (hne.imp id Or.inl) hfull
    exact ⟨(), m', h, trivial, hm'⟩
  · intro m hm i hi
    exact hm _ (Or.inl (by unfold Within at *; omega))
  · intro m1 m2 h i hi
    exact h _ (by unfold Within at *; omega)

/-- C78: `rotate`, where it is right (C19). -/
theorem C78_rotate (S : ShiftSem w) (first nFirst last : BitIter w) (hf : first.Valid) (hn : nFirst.Valid) (hl : last.Valid)
    (h1 : first.addr ≤ nFirst.addr) (h2 : nFirst.addr < last.addr) (hlim : RotFits w (len first nFirst) (len nFirst last)) :
    Isolated (rotate S first nFirst last) (Within first.addr last.addr) (Within first.addr last.addr) := by
  refine isolated_of (fun _ r => r.Valid ∧ r.addr = first.addr + (last.addr - nFirst.addr))
    (fun m i => if i < first.addr + (last.addr - nFirst.addr) then bitAt m (i + (nFirst.addr - first.addr))
      else bitAt m (i - (last.addr - nFirst.addr))) ?_ ?_ ?_ ?_
  · intro m hm
    obtain ⟨r, m', h, h3, h4, hm'⟩ := C19_rotate_partial S m first nFirst last
      ⟨hf, hl, by omega, within_mapped hm (fun _ h => Or.inl h)⟩ hn h1 h2 hlim
    refine ⟨r, m', h, ⟨h3, h4⟩, fun i => ?_⟩
    rw [hm' i]
    have hlen : len first last = last.addr - first.addr := rfl
    rw [ite_within]
    split_ifs <;> first | rfl | omega
  · intro m hm i hi
    unfold Within at *
    split_ifs with hc
    · exact hm _ (Or.inl (by omega))
    · exact hm _ (Or.inl (by omega))
  · intro _ _ r1 r2 _ h1 h2
    exact BitIter.addr_inj h1.1 h2.1 (by rw [h1.2, h2.2])
  · intro m1 m2 h i hi
    unfold Within at *
    split_ifs with hc
    · exact h _ (by omega)
    · exact h _ (by omega)

/-- A program that returns a fixed result and changes nothing. -/
theorem isolated_const {α : Type} {p : M w α} {R W : Int → Prop} (r : α)
    (h : ∀ m, (∀ i, R i ∨ W i → (bitAt m i).isSome) → p m = .ok (r, m)) (hWR : ∀ i, W i → R i) : Isolated p R W := by
  intro m1 m2 hm hR
  exact ⟨r, m1, m2, h m1 (fun i hi => (hm i hi).1), h m2 (fun i hi => (hm i hi).2),
    fun i hi => ⟨(hm i (Or.inr hi)).1, hR i (hWR i hi)⟩, fun i _ => ⟨rfl, rfl⟩⟩

/-- C78: `shift_left`, for every shift count. -/
theorem C78_shift_left (S : ShiftSem w) (first last : BitIter w) (n : Int) (hf : first.Valid) (hl : last.Valid)
    (hle : first.addr ≤ last.addr) (hfull : ¬ (first.pos = 0 ∧ len first last = w) ∨ S.FullShiftOk) :
    Isolated (shiftLeft S first last n) (Within first.addr last.addr) (Within first.addr last.addr) := by
  by_cases h0 : n ≤ 0
  · exact isolated_const last (fun m hm => C16_shift_left_nonpos S m first last n
      ⟨hf, hl, hle, within_mapped hm (fun _ h => Or.inl h)⟩ h0) (fun _ h => h)
  by_cases h1 : len first last ≤ n
  · exact isolated_const first (fun m hm => C16_shift_left_all S m first last n
      ⟨hf, hl, hle, within_mapped hm (fun _ h => Or.inl h)⟩ (by omega) h1) (fun _ h => h)
  refine isolated_of (fun _ r => r.Valid ∧ r.addr = last.addr - n)
    (fun m i => if i < last.addr - n then bitAt m (i + n)
      else if first.addr / w = (last.addr - 1) / w then some false else bitAt m i) ?_ ?_ ?_ ?_
  · intro m hm
    obtain ⟨r, m', h, h3, h4, hm'⟩ := C77_shift_left S m first last n
      ⟨hf, hl, hle, within_mapped hm (fun _ h => Or.inl h)⟩ (by omega) (by omega) hfull
    refine ⟨r, m', h, ⟨h3, h4⟩, fun i => ?_⟩
    rw [hm' i]
    have hlen : len first last = last.addr - first.addr := rfl
    rw [ite_within]
    split_ifs <;> first | rfl | omega
  · intro m hm i hi
    unfold Within at *
    split_ifs with hc
    · exact hm _ (Or.inl (by omega))
    · rfl
    · exact hm _ (Or.inl hi)
  · intro _ _ r1 r2 _ h1 h2
    exact BitIter.addr_inj h1.1 h2.1 (by rw [h1.2, h2.2])
  · intro m1 m2 h i hi
    unfold Within at *
    rw [h i hi]
    split_ifs with hc
    · exact h _ (by omega)
    · rfl
    · rfl

theorem leaked_bounds (hw : 0 < w) (a b n : Int) : 0 ≤ leaked w a b n ∧ (0 < n → leaked w a b n ≤ n) ∧
    (b - n ≤ a → leaked w a b n = 0) ∧ (n ≤ 0 → leaked w a b n = 0) := by
  have hmod := Int.emod_nonneg a (show (w : Int) ≠ 0 by omega)
  have hlt := Int.emod_lt_of_pos a (show 0 < (w : Int) by omega)
  unfold leaked
  split_ifs with hc
  · refine ⟨hmod, fun h0 => ?_, fun h => ?_, fun h => by omega⟩
    · have : (w : Int) ≤ n := Int.le_of_dvd h0 (Int.dvd_of_emod_eq_zero hc.2.1)
      omega
    · have := Int.ediv_le_ediv (show 0 < (w : Int) by omega) h
      omega
  · exact ⟨by omega, fun _ => by omega, fun _ => rfl, fun _ => rfl⟩

/-- C78: `shift_right`, for every shift count: apart from the range it reads the bits that leak into the vacated ones (C77). -/
theorem C78_shift_right_partial (S : ShiftSem w) (first last : BitIter w) (n : Int) (hf : first.Valid) (hl : last.Valid)
    (hle : first.addr ≤ last.addr) (hfull : ¬ (first.pos = 0 ∧ len first last = w) ∨ S.FullShiftOk) :
    Isolated (shiftRight S first last n) (Within (first.addr - leaked w first.addr last.addr n) last.addr)
      (Within first.addr last.addr) := by
  have hf' : first.pos < w := hf
  obtain ⟨hk0, hk1, hk2, hk3⟩ := leaked_bounds (show 0 < w by omega) first.addr last.addr n
  by_cases h0 : n ≤ 0
  · rw [hk3 h0, Int.sub_zero]
    exact isolated_const first (fun m hm => C17_shift_right_nonpos S m first last n
      ⟨hf, hl, hle, within_mapped hm (fun _ h => Or.inl h)⟩ h0) (fun _ h => h)
  by_cases h1 : len first last ≤ n
  · rw [hk2 (by unfold len at h1; omega), Int.sub_zero]
    exact isolated_const last (fun m hm => C17_shift_right_all S m first last n
      ⟨hf, hl, hle, within_mapped hm (fun _ h => Or.inl h)⟩ (by omega) h1) (fun _ h => h)
  have hkn := hk1 (by omega)
  refine isolated_of (fun _ r => r.Valid ∧ r.addr = first.addr + n)
    (fun m i => if first.addr + n - leaked w first.addr last.addr n ≤ i then bitAt m (i - n)
      else if first.addr / w = (last.addr - 1) / w then some false else bitAt m i) ?_ ?_ ?_ ?_
  · intro m hm
    obtain ⟨r, m', h, h3, h4, hm'⟩ := C77_shift_right S m first last n
      ⟨hf, hl, hle, within_mapped hm (fun _ h => Or.inr h)⟩ (by omega) (by omega) hfull
    refine ⟨r, m', h, ⟨h3, h4⟩, fun i => ?_⟩
    rw [hm' i]
    have hlen : len first last = last.addr - first.addr := rfl
    rw [ite_within]
    split_ifs <;> first | rfl | omega
  · intro m hm i hi
    unfold Within at *
    split_ifs with hc
    · exact hm _ (Or.inl (by omega))
    · rfl
    · exact hm _ (Or.inr hi)
  · intro _ _ r1 r2 _ h1 h2
    exact BitIter.addr_inj h1.1 h2.1 (by rw [h1.2, h2.2])
  · intro m1 m2 h i hi
    unfold Within at *
    rw [h i (by omega)]
    split_ifs with hc
    · exact h _ (by omega)
    · rfl
    · rfl

/-- The memory with given bits. -/
def memBits (w : Nat) (f : Int → Bool) : Mem w := fun c => some (BitVec.ofNat w (Nat.ofBits fun k : Fin w => f (c * w + (k : Nat))))

theorem bitAt_memBits (hw : 0 < w) (f : Int → Bool) (i : Int) : bitAt (memBits w f) i = some (f i) := by
  have h1 := Int.emod_nonneg i (show (w : Int) ≠ 0 by omega)
  have h2 := Int.emod_lt_of_pos i (show 0 < (w : Int) by omega)
  have h3 := Int.emod_add_mul_ediv i w
  rw [Int.mul_comm] at h3
  unfold bitAt memBits
  simp only [Option.map_some, Option.some.injEq]
  rw [BitVec.getLsbD_ofNat, Nat.testBit_ofBits_lt _ _ (by omega), decide_eq_true (by omega), Bool.true_and]
  congr 1
  show i / (w : Int) * w + ((i % (w : Int)).toNat : Int) = i
  omega

/-- C78 is wrong for `shift_right` exactly when bits leak: shifting by a whole number of words a range that starts inside a word and whose
remaining bits reach another word. Then what the range holds afterwards depends on bits that precede it. -/
theorem C78_shift_right_exact (S : ShiftSem w) (first last : BitIter w) (n : Int) (hf : first.Valid) (hl : last.Valid)
    (hle : first.addr ≤ last.addr) (hfull : ¬ (first.pos = 0 ∧ len first last = w) ∨ S.FullShiftOk) :
    Isolated (shiftRight S first last n) (Within first.addr last.addr) (Within first.addr last.addr) ↔
      leaked w first.addr last.addr n = 0 := by
  have hf' : first.pos < w := hf
  have hw : 0 < w := by omega
  constructor
  · intro hiso
    by_contra hk
    obtain ⟨hk0, hk1, hk2, hk3⟩ := leaked_bounds hw first.addr last.addr n
    have hn0 : 0 < n := by by_contra h; exact hk (hk3 (by omega))
    have hn1 : n < last.addr - first.addr := by by_contra h; exact hk (hk2 (by omega))
    have hkn := hk1 hn0
    obtain ⟨r, m1', m2', h1, h2, hW, -⟩ := hiso (memBits w fun _ => false) (memBits w fun i => decide (i < first.addr))
      (fun i _ => by rw [bitAt_memBits hw, bitAt_memBits hw]; exact ⟨rfl, rfl⟩)
      (fun i hi => by
        unfold Within at hi
        rw [bitAt_memBits hw, bitAt_memBits hw, decide_eq_false (by omega)])
    have hrange : ∀ f, Range (memBits w f) first last := fun f => ⟨hf, hl, hle, fun i _ _ => by rw [bitAt_memBits hw]; rfl⟩
    obtain ⟨r1, m1, g1, -, -, e1⟩ := C77_shift_right S _ first last n (hrange fun _ => false) hn0 hn1 hfull
    obtain ⟨r2, m2, g2, -, -, e2⟩ := C77_shift_right S _ first last n (hrange fun i => decide (i < first.addr)) hn0 hn1 hfull
    rw [h1] at g1
    rw [h2] at g2
    obtain ⟨-, rfl⟩ : r = r1 ∧ m1' = m1 := by simpa using g1
    obtain ⟨-, rfl⟩ : r = r2 ∧ m2' = m2 := by simpa using g2
    have := (hW (first.addr + n - 1) (by unfold Within; omega)).2
    rw [e1, e2, if_pos (by omega), if_pos (by omega), bitAt_memBits hw, bitAt_memBits hw, decide_eq_true (by omega)] at this
    simp at this
  · intro hk
    have := C78_shift_right_partial S first last n hf hl hle hfull
    rwa [hk, Int.sub_zero] at this

/-- C78 refuted for `shift_right`: 20 bits starting at bit 4 of a byte, shifted by 8. -/
theorem C78_refuted : ¬ Isolated (shiftRight S8 ⟨0, 4⟩ ⟨3, 0⟩ 8) (Within 4 24) (Within 4 24) := by
  intro h
  have := (C78_shift_right_exact S8 ⟨0, 4⟩ ⟨3, 0⟩ 8 (by decide) (by decide) (by decide) (Or.inl (by decide))).1 h
  revert this
  decide

/-- C78: reading through a bit reference. -/
theorem C78_ref_read (r : BitRef w) (a : Int) (hr : r.At a) : Isolated r.toBool (Just a) NoBits := by
  refine isolated_of_read (fun m b => bitAt m a = some b) ?_ ?_
  · intro m hm
    obtain ⟨b, hb⟩ := Option.isSome_iff_exists.1 (hm a rfl)
    exact ⟨b, C03_read m r a b hr hb, hb⟩
  · intro m1 m2 b1 b2 h h1 h2
    rw [h a rfl, h2] at h1
    exact (Option.some.inj h1).symm

/-- C78: updating through a bit reference reads and writes the bit. -/
theorem C78_ref_write (r : BitRef w) (a : Int) (hr : r.At a) (op : RefOp w) : Isolated (op.run r) (Just a) (Just a) := by
  refine isolated_of (fun _ _ => True) (fun m _ => (bitAt m a).map fun b => op.spec b) ?_ ?_ (fun _ _ _ _ _ _ _ => rfl) ?_
  · intro m hm
    obtain ⟨b, hb⟩ := Option.isSome_iff_exists.1 (hm a (Or.inl rfl))
    obtain ⟨m', h, hm', -⟩ := C03_write m r a b op hr hb
    refine ⟨(), m', h, trivial, fun i => ?_⟩
    rw [hm' i, hb]
    rfl
  · intro m hm i _
    rw [Option.isSome_map]
    exact hm a (Or.inl rfl)
  · intro m1 m2 h i _
    rw [h a rfl]

/-- C78: an update whose outcome does not depend on the old value (`set`, `reset`, assignment, `&= 0`, `|= 1`) does not depend on the bit. -/
theorem C78_ref_overwrite (r : BitRef w) (a : Int) (hr : r.At a) (op : RefOp w) (v : Bool) (hop : ∀ b, op.spec b = v) :
    Isolated (op.run r) NoBits (Just a) := by
  refine isolated_of (fun _ _ => True) (fun _ _ => some v) ?_ (fun _ _ _ _ => rfl) (fun _ _ _ _ _ _ _ => rfl) (fun _ _ _ _ _ => rfl)
  intro m hm
  obtain ⟨b, hb⟩ := Option.isSome_iff_exists.1 (hm a (Or.inr rfl))
  obtain ⟨m', h, hm', -⟩ := C03_write m r a b op hr hb
  refine ⟨(), m', h, trivial, fun i => ?_⟩
  rw [hm' i, hop b]
  rfl

/-- C78: assignment of one bit reference to another. -/
theorem C78_ref_assign (r o : BitRef w) (a c : Int) (hr : r.At a) (ho : o.At c) : Isolated (r.assignRef o) (Just c) (Just a) := by
  refine isolated_of (fun _ _ => True) (fun m _ => bitAt m c) ?_ (fun m hm _ _ => hm c (Or.inl rfl)) (fun _ _ _ _ _ _ _ => rfl)
    (fun m1 m2 h _ _ => h c rfl)
  intro m hm
  obtain ⟨b, hb⟩ := Option.isSome_iff_exists.1 (hm c (Or.inl rfl))
  obtain ⟨m', h, hm'⟩ := C03_assign_ref m r o a c b hr ho (hm a (Or.inr rfl)) hb
  refine ⟨(), m', h, trivial, fun i => ?_⟩
  rw [hm' i, hb]
  rfl

/-- C78: swapping two bit references. -/
theorem C78_ref_swap (l r : BitRef w) (a c : Int) (hl : l.At a) (hr : r.At c) :
    Isolated (BitRef.swap l r) (Either (Just a) (Just c)) (Either (Just a) (Just c)) := by
  refine isolated_of (fun _ _ => True) (fun m i => if i = a then bitAt m c else bitAt m a) ?_ ?_ (fun _ _ _ _ _ _ _ => rfl) ?_
  · intro m hm
    obtain ⟨x, hx⟩ := Option.isSome_iff_exists.1 (hm a (Or.inl (Or.inl rfl)))
    obtain ⟨y, hy⟩ := Option.isSome_iff_exists.1 (hm c (Or.inl (Or.inr rfl)))
    obtain ⟨m', h, hm'⟩ := C04_swap m l r a c x y hl hr hx hy
    refine ⟨(), m', h, trivial, fun i => ?_⟩
    rw [hm' i, hx, hy]
    by_cases h1 : i = a
    · rw [if_pos h1, if_pos (show Either (Just a) (Just c) i from Or.inl h1), if_pos h1]
    · rw [if_neg h1, if_neg h1]
      by_cases h2 : i = c
      · rw [if_pos h2, if_pos (show Either (Just a) (Just c) i from Or.inr h2)]
      · rw [if_neg h2, if_neg (by rintro (h | h); exact h1 h; exact h2 h)]
  · intro m hm i _
    split_ifs
    · exact hm c (Or.inl (Or.inr rfl))
    · exact hm a (Or.inl (Or.inl rfl))
  · intro m1 m2 h i _
    rw [h a (Or.inl rfl), h c (Or.inr rfl)]

/-- C78: the algorithms of a SIMD build. -/
theorem C78_simd (S : ShiftSem w) (U : Simd) (hU : U.Ok) (first last : BitIter w) (n : Int) (v : Bool) (hf : first.Valid)
    (hl : last.Valid) (hlt : first.addr < last.addr) :
    Isolated (fillHwy S U first last v) NoBits (Within first.addr last.addr) ∧
    Isolated (findHwy S U first last v) (Within first.addr last.addr) NoBits ∧
    (∀ d : BitIter w, d.Valid → (d.addr ≤ first.addr ∨ last.addr ≤ d.addr) →
      Isolated (transformNotHwy S U first last d) (Within first.addr last.addr) (Within d.addr (d.addr + len first last))) ∧
    ((¬ (first.pos = 0 ∧ len first last = w) ∨ S.FullShiftOk) →
      Isolated (shiftLeftHwy S U first last n) (Within first.addr last.addr) (Within first.addr last.addr) ∧
      Isolated (shiftRightHwy S U first last n) (Within (first.addr - leaked w first.addr last.addr n) last.addr)
        (Within first.addr last.addr)) ∧
    ((¬ (first.pos ≠ 0 ∧ last.addr = (first.base + 1) * w) ∨ S.FullShiftOk) →
      Isolated (reverseHwy S U first last) (Within first.addr last.addr) (Within first.addr last.addr)) := by
  have hle : first.addr ≤ last.addr := by omega
  have hrange : ∀ {m : Mem w} {P : Int → Prop}, (∀ i, P i → (bitAt m i).isSome) → (∀ i, Within first.addr last.addr i → P i) →
      Range m first last := fun hm hP => ⟨hf, hl, hle, within_mapped hm hP⟩
  refine ⟨?_, ?_, fun d hd hov => ?_, fun hfull => ⟨?_, ?_⟩, fun hfull => ?_⟩
  · exact (C78_fill S first last v hf hl hle).congr fun m hm =>
      (C59_no_misaligned S U hU m first last 0 v (hrange hm (fun _ h => Or.inr h))).1
  · exact (C78_find S first last v hf hl hle (Or.inl hlt)).congr fun m hm =>
      (C59_no_misaligned S U hU m first last 0 v (hrange hm (fun _ h => Or.inl h))).2.1
  · exact (C78_transform S (~~~ ·) (!·) (by intro x i hi; simp [hi]) first last d hf hl hd hle hov).congr fun m hm =>
      (C59_no_misaligned S U hU m first last 0 v (hrange hm (fun _ h => Or.inl h))).2.2.1 d hd hov
  · exact (C78_shift_left S first last n hf hl hle hfull).congr fun m hm =>
      (C59_no_misaligned S U hU m first last n v (hrange hm (fun _ h => Or.inl h))).2.2.2.1
  · exact (C78_shift_right_partial S first last n hf hl hle hfull).congr fun m hm =>
      (C59_no_misaligned S U hU m first last n v (hrange hm (fun _ h => Or.inr h))).2.2.2.2.1
  · exact (C78_reverse S first last hf hl hle (Or.inl hlt) hfull).congr fun m hm =>
      (C59_no_misaligned S U hU m first last n v (hrange hm (fun _ h => Or.inl h))).2.2.2.2.2

/-- The hypotheses are met by ranges that share words with their surroundings: 13 bits from bit 6 of word 0 on, copied 3 bits down. -/
example : (⟨0, 6⟩ : BitIter 8).Valid ∧ (⟨2, 3⟩ : BitIter 8).Valid ∧ (⟨0, 3⟩ : BitIter 8).Valid ∧
    (⟨0, 6⟩ : BitIter 8).addr < (⟨2, 3⟩ : BitIter 8).addr ∧ (⟨0, 3⟩ : BitIter 8).addr ≤ (⟨0, 6⟩ : BitIter 8).addr ∧
    leaked 8 (⟨0, 6⟩ : BitIter 8).addr (⟨2, 3⟩ : BitIter 8).addr 5 = 0 := by decide

/-- `Isolated` is not vacuous: a program that reads a bit outside `R`, or changes one outside `W`, is not isolated. -/
example : ¬ Isolated (find S8 ⟨0, 2⟩ ⟨0, 5⟩ true) (Within 2 4) NoBits := by
  intro h
  obtain ⟨r, _, _, h1, h2, -⟩ := h (memOf [0x00#8]) (memOf [0x10#8]) (by
    intro i hi
    rcases hi with ⟨h1, h2⟩ | h
    · obtain rfl | rfl : i = 2 ∨ i = 3 := by omega
      · decide
      · decide
    · exact h.elim) (by
    rintro i ⟨h1, h2⟩
    obtain rfl | rfl : i = 2 ∨ i = 3 := by omega
    · decide
    · decide)
  have e1 : (runOn (find S8 ⟨0, 2⟩ ⟨0, 5⟩ true) [0x00#8]).map (·.1) = .ok ⟨0, 5⟩ := by decide +kernel
  have e2 : (runOn (find S8 ⟨0, 2⟩ ⟨0, 5⟩ true) [0x10#8]).map (·.1) = .ok ⟨0, 4⟩ := by decide +kernel
  unfold runOn at e1 e2
  rw [h1] at e1
  rw [h2] at e2
  simp only [Except.map, Except.ok.injEq] at e1 e2
  rw [e1] at e2
  exact absurd e2 (by decide)

/-- C79: running one isolated program after another (which may depend on the first one's result) is isolated: it reads what the first
reads and what the second reads without the first having written it, and writes what either writes. -/
theorem C79_sequence {α β : Type} (p : M w α) (f : α → M w β) (R1 W1 R2 W2 : Int → Prop) (hp : Isolated p R1 W1)
    (hf : ∀ a, Isolated (f a) R2 W2) : Isolated (p >>= f) (Either R1 (Minus R2 W1)) (Either W1 W2) := hp.bind hf

/-- C79: two isolated programs, neither of which writes a bit the other reads or writes, may be run in either order: the same two results,
the same memory. Sharing words does not matter. -/
theorem C79_commute {α β : Type} (hw : 0 < w) (p : M w α) (q : M w β) (R1 W1 R2 W2 : Int → Prop) (hp : Isolated p R1 W1)
    (hq : Isolated q R2 W2) (h12 : Apart W1 R2) (h21 : Apart W2 R1) (hww : Apart W1 W2) (m : Mem w)
    (hm : ∀ i, R1 i ∨ W1 i ∨ R2 i ∨ W2 i → (bitAt m i).isSome) :
    ∃ a b m', (do let x ← p; let y ← q; pure (x, y)) m = .ok ((a, b), m') ∧
      (do let y ← q; let x ← p; pure (x, y)) m = .ok ((a, b), m') := by
  obtain ⟨a, b, mp, mq, m', h1, h2, h3, h4⟩ := hp.comm hw hq h12 h21 hww m hm
  refine ⟨a, b, m', ?_, ?_⟩
  · rw [run_bind_ok h1, run_bind_ok h2]; rfl
  · rw [run_bind_ok h3, run_bind_ok h4]; rfl

/-- C79: a write in between that the observer does not read cannot be observed: `q` gives the same with and without `p` before it. -/
theorem C79_unobserved {α β : Type} (p : M w α) (q : M w β) (R1 W1 R2 W2 : Int → Prop) (hp : Isolated p R1 W1)
    (hq : Isolated q R2 W2) (h12 : Apart W1 R2) (m : Mem w) (hm : ∀ i, R1 i ∨ W1 i ∨ R2 i ∨ W2 i → (bitAt m i).isSome) :
    ∃ b m1 m2, (p >>= fun _ => q) m = .ok (b, m1) ∧ q m = .ok (b, m2) ∧ ∀ i, W2 i → bitAt m1 i = bitAt m2 i := by
  classical
  obtain ⟨a, mp, _, hp0, -, wp0, np0⟩ := hp m m
    (fun i hi => ⟨hm i (hi.elim Or.inl (Or.inr ∘ Or.inl)), hm i (hi.elim Or.inl (Or.inr ∘ Or.inl))⟩) (fun _ _ => rfl)
  obtain ⟨b, m1, m2, h1, h2, hW, -⟩ := hq mp m (fun i hi => by
    have h := hm i (Or.inr (Or.inr hi))
    refine ⟨?_, h⟩
    by_cases hc : W1 i
    · exact (wp0 i hc).1
    · rw [(np0 i hc).1]; exact h) (fun i hi => (np0 i (fun h => h12 i h hi)).1)
  exact ⟨b, m1, m2, by rw [run_bind_ok hp0, h1], h2, fun i hi => (hW i hi).2⟩

/-- C79, used: two fills of disjoint ranges commute, also when the ranges meet inside a word. -/
theorem C79_fill_fill (S : ShiftSem w) (m : Mem w) (f1 l1 f2 l2 : BitIter w) (v1 v2 : Bool) (h1 : Range m f1 l1) (h2 : Range m f2 l2)
    (hdis : l1.addr ≤ f2.addr ∨ l2.addr ≤ f1.addr) :
    ∃ m', (do fill S f1 l1 v1; fill S f2 l2 v2) m = .ok ((), m') ∧ (do fill S f2 l2 v2; fill S f1 l1 v1) m = .ok ((), m') := by
  have hw : 0 < w := Nat.lt_of_le_of_lt (Nat.zero_le _) h1.1
  obtain ⟨_, _, mp, mq, m', e1, e2, e3, e4⟩ := (C78_fill S f1 l1 v1 h1.1 h1.2 h1.3).comm hw (C78_fill S f2 l2 v2 h2.1 h2.2 h2.3)
    (fun _ _ h => h) (fun _ _ h => h) (fun i a b => by unfold Within at a b; omega) m (by
      rintro i (h | h | h | h)
      · exact h.elim
      · exact h1.4 i h.1 h.2
      · exact h.elim
      · exact h2.4 i h.1 h.2)
  exact ⟨m', by rw [run_bind_ok e1, e2], by rw [run_bind_ok e3, e4]⟩

/-- C79, used: a `copy` and an update of a bit outside source and destination commute. -/
theorem C79_copy_ref (S : ShiftSem w) (m : Mem w) (first last d : BitIter w) (r : BitRef w) (a : Int) (op : RefOp w)
    (hr : Range m first last) (hd : Dest m d (len first last)) (hov : d.addr ≤ first.addr ∨ last.addr ≤ d.addr)
    (ha : r.At a) (hm : (bitAt m a).isSome) (h1 : a < first.addr ∨ last.addr ≤ a) (h2 : a < d.addr ∨ d.addr + len first last ≤ a) :
    ∃ x m', (do let x ← copy S first last d; op.run r; pure x) m = .ok (x, m') ∧
      (do op.run r; copy S first last d) m = .ok (x, m') := by
  have hw : 0 < w := Nat.lt_of_le_of_lt (Nat.zero_le _) hr.1
  obtain ⟨x, _, mp, mq, m', e1, e2, e3, e4⟩ := (C78_copy S first last d hr.1 hr.2 hd.1 hr.3 hov).comm hw (C78_ref_write r a ha op)
    (by intro i hi h; unfold Within Just at *; omega) (by intro i hi h; unfold Within Just at *; omega)
    (by intro i hi h; unfold Within Just at *; omega) m (by
      rintro i (h | h | h | h)
      · exact hr.4 i h.1 h.2
      · exact hd.2 i h.1 h.2
      · rw [h]; exact hm
      · rw [h]; exact hm)
  exact ⟨x, m', by rw [run_bind_ok e1, run_bind_ok e2]; rfl, by rw [run_bind_ok e3, e4]⟩

/-- Two fills that meet in the middle of a word; in either order. -/
example : runOn (do fill S8 ⟨0, 1⟩ ⟨1, 3⟩ true; fill S8 ⟨1, 3⟩ ⟨2, 2⟩ false) [0x00#8, 0xff#8, 0xff#8]
      = .ok ((), [0xfe#8, 0x07#8, 0xfc#8]) ∧
    runOn (do fill S8 ⟨1, 3⟩ ⟨2, 2⟩ false; fill S8 ⟨0, 1⟩ ⟨1, 3⟩ true) [0x00#8, 0xff#8, 0xff#8]
      = .ok ((), [0xfe#8, 0x07#8, 0xfc#8]) := by decide +kernel

/-- The condition is needed: overlapping fills do not commute. -/
example : runOn (do fill S8 ⟨0, 1⟩ ⟨0, 5⟩ true; fill S8 ⟨0, 3⟩ ⟨0, 7⟩ false) [0x00#8] = .ok ((), [0x06#8]) ∧
    runOn (do fill S8 ⟨0, 3⟩ ⟨0, 7⟩ false; fill S8 ⟨0, 1⟩ ⟨0, 5⟩ true) [0x00#8] = .ok ((), [0x1e#8]) := by decide +kernel

/-- The hypotheses of C79: `fill` of bits 1 to 10 and `reverse` of bits 11 to 17 (they share word 1). -/
example : Isolated (fill S8 ⟨0, 1⟩ ⟨1, 3⟩ true) NoBits (Within 1 11) ∧
    Isolated (reverse S8 ⟨1, 3⟩ ⟨2, 2⟩) (Within 11 18) (Within 11 18) ∧ Apart (Within 1 11) (Within 11 18) ∧
    Apart (Within 11 18) NoBits :=
  ⟨C78_fill S8 ⟨0, 1⟩ ⟨1, 3⟩ true (by decide) (by decide) (by decide),
    C78_reverse S8 ⟨1, 3⟩ ⟨2, 2⟩ (by decide) (by decide) (by decide) (Or.inl (by decide)) (Or.inr (Or.inl (by decide))),
    fun i h1 h2 => by unfold Within at *; omega, fun _ _ h => h⟩

end BitLib
