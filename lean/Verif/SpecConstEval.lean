import Verif.Model.ConstEval
import Verif.SpecClient
/- Which calls of the `constexpr` algorithms are constant expressions, by the positions of their arguments (property C103). -/
namespace BitLib
variable {w : Nat}

/-- The range goes beyond the word that it begins in. -/
def Beyond (first last : BitIter w) : Prop := (first.base + 1) * w < last.addr

/-- `count`: both iterators point into one word of the array. -/
def CountConst (A : Arr) (first last : BitIter w) : Prop := first.base = last.base ∧ first.addr < A.hi * w

/-- `find`: in C++20 unless the range begins inside a word and does not leave it; in C++17 only if, in addition, it begins inside a word and the bit that is
looked for is in that word. -/
def FindConst (cpp20 : Bool) (first last : BitIter w) (v : Bool) (m : Mem w) : Prop :=
  if cpp20 then first.pos = 0 ∨ Beyond first last
  else first.pos ≠ 0 ∧ Beyond first last ∧ ∃ a, first.addr ≤ a ∧ a < (first.base + 1) * w ∧ bitAt m a = some v

/-- `reverse`: both ends are in the same word, inside of it at least one; in C++20 also if as many bits are missing from the first word as from the last. -/
def ReverseConst (cpp20 : Bool) (first last : BitIter w) : Prop :=
  (first.base = last.base ∧ (first.pos ≠ 0 ∨ last.pos ≠ 0)) ∨ cpp20 = true ∧ (first.addr + last.addr) % w = 0

/-- `swap_ranges`: empty ranges; in C++20 also ranges of more than one word that begin at the same position of their words. -/
def SwapConst (cpp20 : Bool) (first last first2 : BitIter w) : Prop :=
  first.addr = last.addr ∨ cpp20 = true ∧ Beyond first last ∧ first.pos = first2.pos

/-! ### Programs on a tape

Position `p` is the bit with address `o + p`. -/

/-- The operation keeps to the array: iterators and pointers are moved to its bits, its end, or the positions after its end that a word of `w` bits would have there;
references are made to its bits and read and written there. `swap` and `distance` are not used. -/
def IOp.Keeps (w : Nat) (A : Arr) (o : Int) (t : Slots Int Int Int) : IOp → Prop :=
  let near (x : Option Int) (n : Int) := ∀ p ∈ x, A.lo * w ≤ o + p + n ∧ o + p + n < A.hi * w + w
  let bit (x : Option Int) (n : Int) := ∀ p ∈ x, A.lo * w ≤ o + p + n ∧ o + p + n < A.hi * w
  fun
  | .addIt _ i n | .addAssignIt i n => near (t.it i) n
  | .subIt _ i n | .subAssignIt i n => near (t.it i) (-n)
  | .incIt i | .postIncIt _ i => near (t.it i) 1
  | .decIt i | .postDecIt _ i => near (t.it i) (-1)
  | .derefIt _ i | .arrowIt _ i => bit (t.it i) 0
  | .indexIt _ i n => bit (t.it i) n
  | .read r | .upd _ r => bit (t.ref r) 0
  | .assign r q => bit (t.ref q) 0 ∧ bit (t.ref r) 0
  | .addPtr _ p n | .indexPtr _ p n => near (t.ptr p) n
  | .subPtr _ p n => near (t.ptr p) (-n)
  | .incPtr p | .postIncPtr _ p => near (t.ptr p) 1
  | .decPtr p | .postDecPtr _ p => near (t.ptr p) (-1)
  | .swap _ _ | .swapVal _ _ | .distance _ _ => False
  | _ => True

/-- All operations of the run on the tape do. -/
def Client.Keeps {α : Type} (w : Nat) (A : Arr) (o : Int) : Client α → Slots Int Int Int → Tape → Prop
  | .done _, _, _ => True
  | .call op next, t, tape => op.Keeps w A o t ∧
      ∀ t' ans tape', op.run (fun _ => .error .badRange) idealIface t tape = .ok ((t', ans), tape') → (next ans).Keeps w A o t' tape'

end BitLib
