import Verif.Spec
/-
What it means that a program only forms word iterators of its arrays (property C98). An array is given by the addresses of its first word and of
its end; an iterator of the array may be moved to any of its words and to the end, and to nothing else (C++17 [expr.add], and for the iterators of
containers [iterator.requirements]: other results are undefined even if they are never dereferenced).
-/
namespace BitLib

/-- The words `lo, …, hi - 1`. -/
structure Arr where
  lo : Int
  hi : Int
  deriving DecidableEq, Repr

/-- Why a program stops: an undefined step of `Model/Basic`, or a word iterator of the array `A` that would be moved to `a`
(or taken as a word at `a`) and may not. -/
inductive PStop
  | ub (e : UB)
  | pointer (A : Arr) (a : Int)
  deriving DecidableEq, Repr

/-- Programs whose word iterators are checked. -/
abbrev P (w : Nat) := StateT (Mem w) (Except PStop)

/-- A bit position of the array, or its end: with `w` bits per word, the bits `lo * w, …, hi * w - 1`. -/
def Arr.Has {w : Nat} (A : Arr) (it : BitIter w) : Prop :=
  it.pos < w ∧ A.lo * w ≤ it.base * w + it.pos ∧ it.base * w + it.pos ≤ A.hi * w

/-- The checked run `p` of a program is the run `q` of the model: same result, same memory, same undefined step. -/
def Same {w : Nat} {α : Type} (p : Except PStop (α × Mem w)) (q : Except UB (α × Mem w)) : Prop :=
  match q with
  | .ok r => p = .ok r
  | .error e => p = .error (.ub e)

/-- The checked run `p` stops at a word iterator that may not be formed. -/
def Bad {w : Nat} {α : Type} (p : Except PStop (α × Mem w)) : Prop :=
  ∃ A a, p = .error (.pointer A a)

/-! ### The calls that leave their array

The conditions compare the bit addresses of the arguments and of the array; none of them depends on the values of the bits. -/

/-- `count`: the range begins inside a word and ends where that word ends, which is the end of the array. -/
def CountAtEnd {w : Nat} (A : Arr) (first last : BitIter w) : Prop :=
  first.pos ≠ 0 ∧ first.base + 1 = last.base ∧ last.base = A.hi

/-- `copy_backward`: the destination begins at the first bit of its array, reaches into the second word or further, and its whole words are
not copied as a block: the source does not begin at the start of a word, or there is one whole word only. -/
def BackAtStart {w : Nat} (B : Arr) (first last dLast : BitIter w) : Prop :=
  dLast.addr - (last.addr - first.addr) = B.lo * w ∧ B.lo < dLast.base ∧ (first.pos ≠ 0 ∨ dLast.base = B.lo + 1)

/-- `shift_right`: the range begins in the first word of its array, at least one whole word is moved after the bits of the last word, and the
distance is no number of words and leaves the bits of the first word in one word. -/
def RightAtStart {w : Nat} (A : Arr) (first last : BitIter w) (n : Int) : Prop :=
  0 < n ∧ first.base = A.lo ∧ first.addr + w + n ≤ last.base * w ∧ n % w ≠ 0 ∧ first.pos + n % w ≤ w

/-- `reverse`: the range begins in the first word of its array, ends after it, and has more bits missing from its first word than from its last. -/
def ReverseAtStart {w : Nat} (A : Arr) (first last : BitIter w) : Prop :=
  first.base = A.lo ∧ (A.lo + 1) * w < last.addr ∧ (if last.pos = 0 then 0 < first.pos else w < first.pos + last.pos)

/-- The part of `rotate` with `n` bits from `p`, of which `k` go to the back, ends in a `shift_right` that leaves the array. Each step that swaps
blocks of `n - k` bits leaves the same task with `n - k` bits, `n % (n - k)` of which go to the back. -/
inductive RotateAtStart {w : Nat} (A : Arr) (p : BitIter w) : Int → Int → Prop
  | right (k n : Int) : n - k ≤ k → n - k ≤ w → RightAtStart A p (p.add n) (n - k) → RotateAtStart A p k n
  | swaps (k n : Int) : n - k ≤ k → (w : Int) < n - k → n % (n - k) ≠ 0 → RotateAtStart A p (n % (n - k)) (n - k) → RotateAtStart A p k n

/-- `rotate`: more than one word goes to the back, the two parts have different lengths, and the parts end as above. -/
def RotateBad {w : Nat} (A : Arr) (first nFirst last : BitIter w) : Prop :=
  (w : Int) < nFirst.addr - first.addr ∧ nFirst.addr - first.addr ≠ last.addr - nFirst.addr ∧
    RotateAtStart A first (nFirst.addr - first.addr) (last.addr - first.addr)

/-- An iterator whose word is no word of the array and not its end. -/
def OffArray {w : Nat} (A : Arr) (it : BitIter w) : Prop := it.base < A.lo ∨ A.hi < it.base

instance {w : Nat} (A : Arr) (it : BitIter w) : Decidable (A.Has it) := by unfold Arr.Has; infer_instance
instance {w : Nat} (A : Arr) (first last : BitIter w) : Decidable (CountAtEnd A first last) := by unfold CountAtEnd; infer_instance
instance {w : Nat} (B : Arr) (first last dLast : BitIter w) : Decidable (BackAtStart B first last dLast) := by unfold BackAtStart; infer_instance
instance {w : Nat} (A : Arr) (first last : BitIter w) (n : Int) : Decidable (RightAtStart A first last n) := by unfold RightAtStart; infer_instance
instance {w : Nat} (A : Arr) (first last : BitIter w) : Decidable (ReverseAtStart A first last) := by unfold ReverseAtStart; infer_instance
instance {w : Nat} (A : Arr) (it : BitIter w) : Decidable (OffArray A it) := by unfold OffArray; infer_instance

end BitLib
