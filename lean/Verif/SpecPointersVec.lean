import Verif.SpecPointers
import Verif.SpecVec
/-
What it means that a program on the heap only forms word iterators of its arrays, and which insertions do not (property C99).
-/
namespace BitLib
variable {w : Nat}

/-- Why a program on the heap stops: as in `Model/Vector`, or at a word iterator of the array `A` that would be moved to `a` and may not. -/
inductive VPStop
  | stop (e : Stop)
  | pointer (A : Arr) (a : Int)
  deriving DecidableEq

/-- Programs on the heap whose word iterators are checked. -/
abbrev PV (w : Nat) := StateT (Heap w) (Except VPStop)

/-- The checked run is the run of the model: same result, same heap, same undefined step or exception. -/
def SameV {α : Type} (p : Except VPStop (α × Heap w)) (q : Except Stop (α × Heap w)) : Prop :=
  match q with
  | .ok r => p = .ok r
  | .error e => p = .error (.stop e)

/-- The checked run stops at a word iterator that may not be formed. -/
def BadV {α : Type} (p : Except VPStop (α × Heap w)) : Prop := ∃ A a, p = .error (.pointer A a)

/-- The words of a vector. -/
def Vec.arr (v : Vec) : Arr := ⟨v.ptr, v.ptr + v.size⟩

/-- `n` elements are inserted before position `d` of a vector that had `length` elements: `d` is in the first word, a whole word of elements is
moved behind the last bits, and `n` is no number of words and leaves the elements of the first word together. -/
def InsertAtStart (w d length n : Nat) : Prop :=
  d < w ∧ d + w + n ≤ (length + n) / w * w ∧ n % w ≠ 0 ∧ d + n % w ≤ w

instance (w d length n : Nat) : Decidable (InsertAtStart w d length n) := by unfold InsertAtStart; infer_instance

end BitLib
