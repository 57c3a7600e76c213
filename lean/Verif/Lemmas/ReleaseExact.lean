import Verif.Lemmas.Erase
import Verif.Spec
import Verif.Lemmas.Iter
/- When an assertion fails. A failing assertion still fails with more memory (C105), so the whole memory may be assumed to exist. -/
namespace BitLib
variable {w : Nat} {α β : Type}

/-- The memory with all the words that are missing. -/
def Mem.total (m : Mem w) : Mem w := fun a => some ((m a).getD 0#w)

theorem Mem.total_of {m : Mem w} {a : Int} {x : BitVec w} (h : m a = some x) : m.total a = some x := by unfold Mem.total; rw [h]; rfl

theorem Mem.total_set (m : Mem w) (a : Int) (x : BitVec w) : (m.set a x).total = m.total.set a x := by
  funext b
  unfold Mem.total Mem.set
  split <;> rfl

theorem mapped_total (m : Mem w) (a b : Int) : Mapped m.total a b := by
  intro i _ _
  unfold bitAt Mem.total
  rfl

theorem range_total (m : Mem w) {f l : BitIter w} (hf : f.Valid) (hl : l.Valid) (h : f.addr ≤ l.addr) : Range m.total f l :=
  ⟨hf, hl, h, mapped_total m _ _⟩

theorem dest_total (m : Mem w) {d : BitIter w} (hd : d.Valid) (n : Int) : Dest m.total d n := ⟨hd, mapped_total m _ _⟩

theorem bit_total (m : Mem w) (i : Int) : (bitAt m.total i).isSome := rfl

/-- A program that fails an assertion does so with more memory as well. -/
theorem Code.fails_total (c : Code w α) : ∀ m : Mem w, c.run m = .error .assertFail → c.run m.total = .error .assertFail := by
  induction c with
  | ret a => intro m h; cases h
  | stop e => intro m h; exact h
  | load a k ih =>
    intro m h
    change ((BitLib.load a : M w _) m >>= fun p => (k p.1).run p.2) = _ at h
    show ((BitLib.load a : M w _) m.total >>= fun p => (k p.1).run p.2) = _
    unfold BitLib.load at h ⊢
    cases hx : m a with
    | none => rw [hx] at h; cases h
    | some x =>
      rw [hx] at h
      rw [Mem.total_of hx]
      exact ih x m h
  | store a x k ih =>
    intro m h
    change ((BitLib.store a x : M w _) m >>= fun p => k.run p.2) = _ at h
    show ((BitLib.store a x : M w _) m.total >>= fun p => k.run p.2) = _
    unfold BitLib.store at h ⊢
    cases hx : m a with
    | none => rw [hx] at h; cases h
    | some y =>
      rw [hx] at h
      rw [Mem.total_of hx]
      have := ih _ h
      rw [Mem.total_set] at this
      exact this

theorem fails_total {c : Code w α} {x : M w α} (hc : c.run = x) {m : Mem w} (h : x m = .error .assertFail) : x m.total = .error .assertFail := by
  rw [← hc] at h ⊢
  exact c.fails_total m h

theorem map_fails {x : M w α} {f : α → β} {m : Mem w} {e : UB} (h : (x >>= fun a => (pure (f a) : M w β)) m = .error e) : x m = .error e := by
  change (x m >>= fun p => (pure (f p.1) : M w β) p.2) = _ at h
  cases hx : x m with
  | error e' => rw [hx] at h; cases h; rfl
  | ok p => rw [hx] at h; cases h

/-- If a program fails an assertion with some memory, and with the whole memory it ends or shifts too far, there is a contradiction. -/
theorem no_fail {c : Code w α} {x : M w α} (hc : c.run = x) {m : Mem w} (h : x m = .error .assertFail)
    (ht : (∃ r, x m.total = .ok r) ∨ x m.total = .error .overshift) : False := by
  have h' := fails_total hc h
  rcases ht with ⟨r, ht⟩ | ht <;> rw [ht] at h' <;> cases h'

end BitLib
