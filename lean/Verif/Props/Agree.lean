import Verif.Props.Copy
import Verif.Props.Query
import Verif.Props.Shift
import Verif.Props.Rotate
/- C51: the algorithms agree with each other. The statements run the modelled programs one after the other. -/
namespace BitLib
variable {w : Nat}

theorem run_bind_ok {α β : Type} {x : M w α} {f : α → M w β} {m m' : Mem w} {a : α} (h : x m = .ok (a, m')) :
    (x >>= f) m = f a m' := by
  show (x m >>= fun p => f p.1 p.2) = _
  rw [h]; rfl

theorem range_of_same {m m' : Mem w} {first last : BitIter w} (hr : Range m first last)
    (h : ∀ i, first.addr ≤ i → i < last.addr → (bitAt m' i).isSome = (bitAt m i).isSome) : Range m' first last :=
  ⟨hr.1, hr.2, hr.3, fun i h1 h2 => by rw [h i h1 h2]; exact hr.4 i h1 h2⟩

/-- C51: `copy` to a disjoint destination followed by `equal` returns true. -/
theorem C51_copy_equal (S : ShiftSem w) (m : Mem w) (first last d : BitIter w) (hr : Range m first last)
    (hd : Dest m d (len first last)) (hdis : d.addr + len first last ≤ first.addr ∨ last.addr ≤ d.addr) :
    ∃ m', (do let _ ← copy S first last d; equal S first last d) m = .ok (true, m') ∧
      Copied m m' first.addr d.addr (len first last) := by
  have hle := hr.3
  have hl : len first last = last.addr - first.addr := rfl
  obtain ⟨r, m', h, _, _, hc⟩ := C06_copy S m first last d hr hd (by omega)
  have hsame : ∀ i, (bitAt m' i).isSome = (bitAt m i).isSome := by
    intro i
    rw [hc i]
    split_ifs with h1
    · rw [hr.4 _ (by omega) (by omega), hd.2 i (by omega) (by omega)]
    · rfl
  obtain ⟨b, hb, hbe⟩ := C12_equal S m' first last d (range_of_same hr fun i _ _ => hsame i)
    ⟨hd.1, fun i h1 h2 => by rw [hsame]; exact hd.2 i h1 h2⟩
  refine ⟨m', ?_, hc⟩
  rw [run_bind_ok h, hb, show b = true from hbe.2 (by
    intro i h0 h1
    rw [hc (d.addr + i), if_pos (by omega), hc (first.addr + i), if_neg (by omega)]
    congr 1; omega)]

theorem countIn_all (m : Mem w) (v : Bool) (a : Int) (n : Nat) (h : ∀ i, a ≤ i → i < a + n → bitAt m i = some v) :
    countIn m v a n = n := by
  induction n with
  | zero => rfl
  | succ n ih =>
    rw [countIn_eq_cntF, cntF_succ, ← countIn_eq_cntF, ih (fun i h1 h2 => h i h1 (by omega)), h (a + n) (by omega) (by omega)]
    simp [one?]

theorem countIn_zero_iff (m : Mem w) (v : Bool) (a : Int) (n : Nat) :
    countIn m v a n = 0 ↔ ∀ i, a ≤ i → i < a + n → bitAt m i ≠ some v := by
  induction n with
  | zero => exact ⟨fun _ i h1 h2 => by omega, fun _ => rfl⟩
  | succ n ih =>
    rw [countIn_eq_cntF, cntF_succ, ← countIn_eq_cntF, Nat.add_eq_zero_iff, ih]
    unfold one?
    constructor
    · rintro ⟨h1, h2⟩ i h3 h4
      by_cases e : i = a + n
      · subst e
        intro hc
        rw [if_pos hc] at h2
        exact absurd h2 (by decide)
      · exact h1 i h3 (by omega)
    · intro h
      exact ⟨fun i h1 h2 => h i h1 (by omega), if_neg (h (a + n) (by omega) (by omega))⟩

/-- C51: `fill(v)` followed by `count(v)` returns the length. -/
theorem C51_fill_count (S : ShiftSem w) (m : Mem w) (first last : BitIter w) (v : Bool) (hr : Range m first last)
    (hne : first.addr < last.addr) :
    ∃ m', (do fill S first last v; count S first last v) m = .ok (len first last, m') := by
  have hl : len first last = last.addr - first.addr := rfl
  obtain ⟨m', h, hm⟩ := C10_fill S m first last v hr
  refine ⟨m', ?_⟩
  rw [run_bind_ok h, C13_count S m' first last v (range_of_same hr (fun i h1 h2 => by
    rw [hm i, if_pos ⟨h1, h2⟩, hr.4 i h1 h2]; rfl)) hne,
    countIn_all m' v _ _ (fun i h1 h2 => by rw [hm i, if_pos (by omega)])]
  congr 2
  omega

/-- C51: after `fill(v)`, `count(!v)` returns 0. -/
theorem C51_fill_count_other (S : ShiftSem w) (m : Mem w) (first last : BitIter w) (v : Bool) (hr : Range m first last)
    (hne : first.addr < last.addr) :
    ∃ m', (do fill S first last v; count S first last (!v)) m = .ok (0, m') := by
  have hl : len first last = last.addr - first.addr := rfl
  obtain ⟨m', h, hm⟩ := C10_fill S m first last v hr
  refine ⟨m', ?_⟩
  rw [run_bind_ok h, C13_count S m' first last (!v) (range_of_same hr (fun i h1 h2 => by
    rw [hm i, if_pos ⟨h1, h2⟩, hr.4 i h1 h2]; rfl)) hne,
    (countIn_zero_iff m' (!v) _ _).2 (fun i h1 h2 => by rw [hm i, if_pos (by omega)]; cases v <;> simp)]
  rfl

/-- C51: `fill(v)` followed by `find(!v)` returns `last`. -/
theorem C51_fill_find (S : ShiftSem w) (m : Mem w) (first last : BitIter w) (v : Bool) (hr : Range m first last)
    (hne : first.addr < last.addr) :
    ∃ m', (do fill S first last v; find S first last (!v)) m = .ok (last, m') := by
  obtain ⟨m', h, hm⟩ := C10_fill S m first last v hr
  obtain ⟨r, hf, hv, h1, h2, h3, h4⟩ := C11_find S m' first last (!v) (range_of_same hr (fun i h1 h2 => by
    rw [hm i, if_pos ⟨h1, h2⟩, hr.4 i h1 h2]; rfl)) (Or.inl hne)
  refine ⟨m', ?_⟩
  rw [run_bind_ok h, hf]
  have : r.addr = last.addr := by
    by_contra hcon
    have h5 := h4 (by omega)
    rw [hm r.addr, if_pos (by omega)] at h5
    cases v <;> simp at h5
  rw [BitIter.addr_inj hv hr.2 this]

/-- C51: on a non-empty range `find(v)` returns `last` exactly when `count(v)` returns 0. -/
theorem C51_find_last_iff_count_zero (S : ShiftSem w) (m : Mem w) (first last : BitIter w) (v : Bool) (hr : Range m first last)
    (hne : first.addr < last.addr) :
    ∃ r c, find S first last v m = .ok (r, m) ∧ count S first last v m = .ok (c, m) ∧ (r = last ↔ c = 0) := by
  have hl : len first last = last.addr - first.addr := rfl
  obtain ⟨r, hf, hv, h1, h2, h3, h4⟩ := C11_find S m first last v hr (Or.inl hne)
  refine ⟨r, _, hf, C13_count S m first last v hr hne, ?_⟩
  rw [Int.natCast_eq_zero, countIn_zero_iff]
  constructor
  · rintro rfl i h5 h6
    rw [h3 i h5 (by omega)]
    cases v <;> simp
  · intro h
    refine BitIter.addr_inj hv hr.2 ?_
    by_contra hcon
    exact h r.addr h1 (by omega) (h4 (by omega))

/-- C51: `find(v)` skips no more bits than `count(!v)` counts. -/
theorem C51_find_le_count (S : ShiftSem w) (m : Mem w) (first last : BitIter w) (v : Bool) (hr : Range m first last)
    (hne : first.addr < last.addr) :
    ∃ r c, find S first last v m = .ok (r, m) ∧ count S first last (!v) m = .ok (c, m) ∧ len first r ≤ c := by
  have hl : len first last = last.addr - first.addr := rfl
  obtain ⟨r, hf, hv, h1, h2, h3, h4⟩ := C11_find S m first last v hr (Or.inl hne)
  refine ⟨r, _, hf, C13_count S m first last (!v) hr hne, ?_⟩
  have e : (len first last).toNat = (r.addr - first.addr).toNat + (last.addr - r.addr).toNat := by omega
  have := countIn_all m (!v) first.addr (r.addr - first.addr).toNat (fun i h5 h6 => h3 i h5 (by omega))
  rw [e, countIn_eq_cntF, cntF_add, ← countIn_eq_cntF, this]
  unfold len
  push_cast
  omega

theorem Reversed.count {m m' : Mem w} {a b : Int} (h : Reversed m m' a b) (hab : a ≤ b) (v : Bool) :
    countIn m' v a (b - a).toNat = countIn m v a (b - a).toNat := by
  refine cntF_reverse _ _ v a a _ ?_
  intro i h1 h2
  rw [h (a + i), if_pos (by omega)]
  congr 1; omega

/-- C51: `reverse` keeps the result of `count`. (`hfull` is the condition of C15: where `reverse` runs at all.) -/
theorem C51_reverse_count (S : ShiftSem w) (m : Mem w) (first last : BitIter w) (v : Bool) (hr : Range m first last)
    (hne : first.addr < last.addr) (hfull : ¬ (first.pos ≠ 0 ∧ last.addr = (first.base + 1) * w) ∨ S.FullShiftOk) :
    ∃ c m', count S first last v m = .ok (c, m) ∧
      (do reverse S first last; count S first last v) m = .ok (c, m') := by
  obtain ⟨m', h, hm⟩ := C15_reverse S m first last hr (Or.inl hne) hfull
  refine ⟨_, m', C13_count S m first last v hr hne, ?_⟩
  rw [run_bind_ok h, C13_count S m' first last v (range_of_same hr (fun i h1 h2 => by
    rw [hm i, if_pos ⟨h1, h2⟩, hr.4 i h1 h2, hr.4 _ (by omega) (by omega)])) hne]
  unfold len
  rw [hm.count hr.3]

/-- C51: `rotate` keeps the result of `count`, for every length (also where C19 fails). -/
theorem C51_rotate_count (S : ShiftSem w) (m : Mem w) (first nFirst last : BitIter w) (v : Bool) (hr : Range m first last)
    (hn : nFirst.Valid) (h1 : first.addr ≤ nFirst.addr) (h2 : nFirst.addr < last.addr) :
    ∃ c m', count S first last v m = .ok (c, m) ∧
      (do let _ ← rotate S first nFirst last; count S first last v) m = .ok (c, m') := by
  have hne : first.addr < last.addr := by omega
  obtain ⟨r, m', h, hm⟩ := wp_rotate_frame S hr.1 hn hr.2 h1 h2 hr.4
    (Q := fun _ m' => OnlyIn m m' first.addr last.addr) (fun _ _ _ _ h => h)
  refine ⟨_, m', C13_count S m first last v hr hne, ?_⟩
  rw [run_bind_ok h, C13_count S m' first last v (range_of_same hr (fun i _ _ => hm.same i)) hne]
  have := hm.count v
  rw [← countIn_eq_cntF, ← countIn_eq_cntF] at this
  unfold len
  rw [this]

/-- C51: `swap_ranges` on disjoint ranges exchanges the results of `count` on the two ranges, so the total is kept. -/
theorem C51_swap_ranges_count (S : ShiftSem w) (m : Mem w) (first1 last1 first2 last2 : BitIter w) (v : Bool)
    (hr : Range m first1 last1) (hr2 : Range m first2 last2) (hlen : len first2 last2 = len first1 last1)
    (hne : first1.addr < last1.addr) (hdis : last1.addr ≤ first2.addr ∨ last2.addr ≤ first1.addr) :
    ∃ r m' c1 c2, swapRanges S first1 last1 first2 m = .ok (r, m') ∧
      count S first1 last1 v m = .ok (c1, m) ∧ count S first2 last2 v m = .ok (c2, m) ∧
      count S first1 last1 v m' = .ok (c2, m') ∧ count S first2 last2 v m' = .ok (c1, m') := by
  have hl : len first1 last1 = last1.addr - first1.addr := rfl
  have hl2 : len first2 last2 = last2.addr - first2.addr := rfl
  obtain ⟨r, m', h, _, _, hm⟩ := C22_swap_ranges S m first1 last1 first2 hr
    ⟨hr2.1, fun i h1 h2 => hr2.4 i h1 (by omega)⟩ (by omega)
  have hs : ∀ i, (bitAt m' i).isSome = (bitAt m i).isSome := by
    intro i
    rw [hm i]
    split_ifs with h1 h2
    · rw [hr.4 i (by omega) (by omega), hr2.4 _ (by omega) (by omega)]
    · rw [hr2.4 i (by omega) (by omega), hr.4 _ (by omega) (by omega)]
    · rfl
  refine ⟨r, m', _, _, h, C13_count S m first1 last1 v hr hne, C13_count S m first2 last2 v hr2 (by omega), ?_, ?_⟩
  · rw [C13_count S m' first1 last1 v (range_of_same hr fun i _ _ => hs i) hne, hlen]
    rw [show countIn m' v first1.addr (len first1 last1).toNat = countIn m v first2.addr (len first1 last1).toNat from
      cntF_shift v _ _ _ (fun i h1 h2 => by rw [hm, if_pos (by omega)]; congr 1; omega)]
  · rw [C13_count S m' first2 last2 v (range_of_same hr2 fun i _ _ => hs i) (by omega), hlen]
    rw [show countIn m' v first2.addr (len first1 last1).toNat = countIn m v first1.addr (len first1 last1).toNat from
      cntF_shift v _ _ _ (fun i h1 h2 => by rw [hm, if_neg (by omega), if_pos (by omega)]; congr 1; omega)]

/-- The hypotheses hold for a non-trivial case (13 misaligned bits, disjoint destination). -/
example : Range (memOf [0xa5#8, 0x3c#8, 0x99#8, 0x0f#8, 0x77#8, 0x12#8]) ⟨0, 5⟩ ⟨2, 2⟩ ∧
    Dest (memOf [0xa5#8, 0x3c#8, 0x99#8, 0x0f#8, 0x77#8, 0x12#8]) ⟨3, 3⟩ (len (⟨0, 5⟩ : BitIter 8) ⟨2, 2⟩) ∧
    Range (memOf [0xa5#8, 0x3c#8, 0x99#8, 0x0f#8, 0x77#8, 0x12#8]) ⟨3, 3⟩ ⟨5, 0⟩ ∧
    len (⟨3, 3⟩ : BitIter 8) ⟨5, 0⟩ = len (⟨0, 5⟩ : BitIter 8) ⟨2, 2⟩ ∧
    (⟨0, 5⟩ : BitIter 8).addr < (⟨2, 2⟩ : BitIter 8).addr ∧ (⟨2, 2⟩ : BitIter 8).addr ≤ (⟨3, 3⟩ : BitIter 8).addr ∧
    ¬ ((⟨0, 5⟩ : BitIter 8).pos ≠ 0 ∧ (⟨2, 2⟩ : BitIter 8).addr = ((⟨0, 5⟩ : BitIter 8).base + 1) * (8 : Nat)) :=
  ⟨range_memOf (by decide) (by decide) (by decide) (by decide) (by decide),
    dest_memOf (by decide) (by decide) (by decide),
    range_memOf (by decide) (by decide) (by decide) (by decide) (by decide), by decide, by decide, by decide, by decide⟩

end BitLib
