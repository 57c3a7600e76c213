import Verif.Lemmas.Iter
/-
C01, C02, C50: iterators designate bit addresses.
-/
namespace BitLib
open BitIter
variable {w : Nat}

/-- C01: `it + n`, `it - n`, `++`, `--` and iterator difference are integer arithmetic on bit addresses. -/
theorem C01_iterator_arithmetic (it : BitIter w) (h : it.Valid) (n : Int) :
    (it.add n).Valid ∧ (it.add n).addr = it.addr + n ∧ (it.add n).diff it = n ∧
    (it.sub n).Valid ∧ (it.sub n).addr = it.addr - n ∧ it.diff (it.sub n) = n ∧
    (it.sub n).add n = it ∧ (it.add n).sub n = it ∧
    it.inc = it.add 1 ∧ it.dec = it.sub 1 := by
  have hw : 0 < w := Nat.lt_of_le_of_lt (Nat.zero_le _) h
  refine ⟨add_valid hw it n, add_addr hw it n, ?_, sub_valid hw it n, sub_addr hw it n, ?_, ?_, ?_, inc_eq_add h, dec_eq_sub h⟩
  · rw [diff_eq, add_addr hw]; omega
  · rw [diff_eq, sub_addr hw]; omega
  · exact addr_inj (add_valid hw _ _) h (by rw [add_addr hw, sub_addr hw]; omega)
  · exact addr_inj (sub_valid hw _ _) h (by rw [sub_addr hw, add_addr hw]; omega)

example : (⟨7, 5⟩ : BitIter 8).Valid ∧ (⟨7, 5⟩ : BitIter 8).add (-14) = ⟨5, 7⟩ := by decide

/-- C01: `last - first`, `distance(first, last)` is the number of increments that lead from `first` to `last`. -/
theorem C01_distance_increments (first last : BitIter w) (hf : first.Valid) (hl : last.Valid)
    (hle : first.addr ≤ last.addr) (m : Mem w) :
    distance first last m = .ok (last.addr - first.addr, m) ∧ last.diff first = last.addr - first.addr ∧
    Nat.repeat inc (last.diff first).toNat first = last := by
  have hw : 0 < w := Nat.lt_of_le_of_lt (Nat.zero_le _) hf
  refine ⟨?_, diff_eq _ _, ?_⟩
  · have : wp (distance first last) m (fun r m' => r = last.addr - first.addr ∧ m' = m) := by
      rw [wp_distance]; exact ⟨hle, rfl, rfl⟩
    obtain ⟨r, m', h1, rfl, rfl⟩ := this
    exact h1
  · rw [diff_eq]
    have key : ∀ k : Nat, Nat.repeat inc k first = first.add k := by
      intro k
      induction k with
      | zero => exact (addr_inj (add_valid hw _ _) hf (by rw [add_addr hw]; simp)).symm
      | succ k ih =>
        show inc (Nat.repeat inc k first) = _
        rw [ih, inc_eq_add (add_valid hw _ _)]
        exact addr_inj (add_valid hw _ _) (add_valid hw _ _) (by simp only [add_addr hw]; push_cast; omega)
    rw [key]
    exact addr_inj (add_valid hw _ _) hl (by rw [add_addr hw]; omega)

/-- `distance` refuses a reversed range (its assertion fails). -/
theorem C01_distance_assert (first last : BitIter w) (h : last.addr < first.addr) (m : Mem w) :
    distance first last m = .error .assertFail := by
  unfold distance assertViable assertM
  rw [if_neg (by rw [diff_eq]; omega)]
  rfl

example : (⟨0, 3⟩ : BitIter 8).addr ≤ (⟨2, 1⟩ : BitIter 8).addr ∧ (⟨2, 1⟩ : BitIter 8).diff ⟨0, 3⟩ = 14 := by decide

/-- C02: the six comparisons are the comparisons of bit addresses. -/
theorem C02_iterator_order (a b : BitIter w) (ha : a.Valid) (hb : b.Valid) :
    (a.beq b = true ↔ a.addr = b.addr) ∧ (a.bne b = true ↔ a.addr ≠ b.addr) ∧
    (a.blt b = true ↔ a.addr < b.addr) ∧ (a.ble b = true ↔ a.addr ≤ b.addr) ∧
    (a.bgt b = true ↔ a.addr > b.addr) ∧ (a.bge b = true ↔ a.addr ≥ b.addr) := by
  have ha' : a.pos < w := ha
  have hb' : b.pos < w := hb
  have e1 : a.addr = a.base * w + a.pos := rfl
  have e2 : b.addr = b.base * w + b.pos := rfl
  have tri : (a.base < b.base ∧ a.base * (w : Int) + w ≤ b.base * w) ∨ (a.base = b.base ∧ a.base * (w : Int) = b.base * w) ∨
      (b.base < a.base ∧ b.base * (w : Int) + w ≤ a.base * w) := by
    rcases Int.lt_trichotomy a.base b.base with h | h | h
    · exact Or.inl ⟨h, base_lt_mul h⟩
    · exact Or.inr (Or.inl ⟨h, by rw [h]⟩)
    · exact Or.inr (Or.inr ⟨h, base_lt_mul h⟩)
  unfold BitIter.beq BitIter.bne blt ble bgt bge
  simp only [decide_eq_true_eq]
  refine ⟨?_, ?_, ?_, ?_, ?_, ?_⟩ <;> omega

/-- C02: comparison agrees with difference, and the order is total, antisymmetric and transitive. -/
theorem C02_iterator_total_order (a b c : BitIter w) (ha : a.Valid) (hb : b.Valid) (hc : c.Valid) :
    (a.blt b = true ↔ 0 < b.diff a) ∧ (a.ble b = true ∨ b.ble a = true) ∧
    (a.ble b = true → b.ble a = true → a = b) ∧ (a.ble b = true → b.ble c = true → a.ble c = true) ∧
    (a.blt b = !(b.ble a)) := by
  have h1 := C02_iterator_order a b ha hb
  have h2 := C02_iterator_order b a hb ha
  have h3 := C02_iterator_order b c hb hc
  have h4 := C02_iterator_order a c ha hc
  rw [diff_eq]
  refine ⟨by rw [h1.2.2.1]; omega, by rw [h1.2.2.2.1, h2.2.2.2.1]; omega, ?_, ?_, ?_⟩
  · rw [h1.2.2.2.1, h2.2.2.2.1]; intro x y; exact addr_inj ha hb (by omega)
  · rw [h1.2.2.2.1, h3.2.2.2.1, h4.2.2.2.1]; omega
  · rw [Bool.eq_iff_iff, h1.2.2.1, Bool.not_eq_true', ← Bool.not_eq_true, h2.2.2.2.1]; omega

example : (⟨-1, 31⟩ : BitIter 32).Valid ∧ (⟨0, 2⟩ : BitIter 32).Valid ∧ (⟨-1, 31⟩ : BitIter 32).blt ⟨0, 2⟩ = true := by decide

/-- C50: `is_within<N>(first, last)` decides `last - first <= N`. -/
theorem C50_is_within (N : Nat) (first last : BitIter w) (hf : first.Valid) (hl : last.Valid)
    (hle : first.addr ≤ last.addr) : isWithin N first last = true ↔ last.addr - first.addr ≤ N :=
  isWithin_iff N first last hf hl hle

example : isWithin 20 (⟨0, 5⟩ : BitIter 8) ⟨3, 1⟩ = true ∧ isWithin 19 (⟨0, 5⟩ : BitIter 8) ⟨3, 1⟩ = false := by decide

end BitLib
