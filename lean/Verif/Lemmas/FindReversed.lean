import Verif.Lemmas.Query
/- `find` with a reversed range (C105). -/
namespace BitLib
variable {w : Nat}

theorem findWords_reversed {it : Int} {l : BitIter w} (v : Bool) (m : Mem w) (h : l.base < it) : findWords it l v m = .error .badRange := by
  have e : (wordDist it l.base : M w Nat) = ub .badRange := by unfold wordDist; rw [if_neg (by omega)]
  unfold findWords stdFindIf
  rw [e]
  rfl

theorem find_reversed (S : ShiftSem w) (m : Mem w) (f l : BitIter w) (v : Bool) (hf : f.Valid) (hl : l.Valid) (hr : l.addr < f.addr) :
    (f.pos = 0 ∧ find S f l v m = .error .badRange) ∨ (f.pos ≠ 0 ∧ m f.base = none ∧ find S f l v m = .error .outOfBounds) ∨
    ∃ x, f.pos ≠ 0 ∧ m f.base = some x ∧ find S f l v m =
      if f.base = l.base ∧ l.pos ≠ 0 then .error .assertFail
      else if tzFor v (x >>> f.pos) + f.pos < w then .ok (f.add (tzFor v (x >>> f.pos)), m) else .error .badRange := by
  have hf' : f.pos < w := hf
  have hl' : l.pos < w := hl
  have hw : 0 < w := by omega
  have hfa : f.addr = f.base * w + f.pos := rfl
  have hla : l.addr = l.base * w + l.pos := rfl
  have hb : l.base ≤ f.base := base_le_of_addr hf (by omega)
  unfold find
  by_cases h0 : f.pos = 0
  · refine .inl ⟨h0, ?_⟩
    rw [if_neg (by omega)]
    refine findWords_reversed v m ?_
    rcases Int.lt_or_eq_of_le hb with h1 | h1
    · exact h1
    · rw [h1] at hla; omega
  · refine .inr ?_
    rw [if_pos h0]
    have es : ∀ x : BitVec w, S.shr x f.pos = .ok (x >>> f.pos) := fun x => by
      have := S.le_pw
      unfold ShiftSem.shr; rw [if_pos (by omega)]
    cases hx : m f.base with
    | none =>
      refine .inl ⟨h0, rfl, ?_⟩
      have e : (load f.base : M w _) m = .error .outOfBounds := by unfold load; rw [hx]
      show ((load f.base : M w _) m >>= _) = _
      rw [e]
      rfl
    | some x =>
      refine .inr ⟨x, h0, rfl, ?_⟩
      have e : (load f.base : M w _) m = .ok (x, m) := by unfold load; rw [hx]
      show ((load f.base : M w _) m >>= _) = _
      rw [e]
      show ((lift (S.shr x f.pos) : M w _) m >>= _) = _
      rw [es x]
      change (if f.base + (if l.pos = 0 then 1 else 0) = l.base then _ else if tzFor v (x >>> f.pos) + f.pos < w then _ else _ : M w (BitIter w)) m = _
      by_cases h1 : f.base = l.base ∧ l.pos ≠ 0
      · rw [if_pos (by rw [if_neg h1.2]; omega), if_pos h1]
        have ed : (distance f l : M w Int) = ub .assertFail := by
          unfold distance assertViable assertM
          rw [if_neg (by rw [BitIter.diff_eq]; omega)]
          rfl
        rw [ed]
        rfl
      · rw [if_neg (by split <;> omega), if_neg h1]
        split
        · rfl
        · refine findWords_reversed v m ?_
          have e1 : (f.add ((w - f.pos : Nat) : Int)).addr = (f.base + 1) * w := by rw [BitIter.add_addr hw, Int.add_mul]; omega
          have e2 : (⟨f.base + 1, 0⟩ : BitIter w).addr = (f.base + 1) * w := by show (f.base + 1) * (w : Int) + ((0 : Nat) : Int) = _; simp
          have e3 : f.add ((w - f.pos : Nat) : Int) = ⟨f.base + 1, 0⟩ := BitIter.addr_inj (BitIter.add_valid hw _ _) hw (e1.trans e2.symm)
          rw [e3]
          show l.base < f.base + 1
          omega

end BitLib
