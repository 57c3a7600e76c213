import Verif.Model.Allocs
/-
What a program with allocators means: its vectors hold lists, as without allocators, every vector has an allocator, and this allocator has lent
the storage of the vector.
-/
namespace BitLib
variable {w : Nat}

namespace AOp

/-- The call without its allocator. Moving from a `const` vector leaves it as it is, so the constructors from `const bit_vector&&` copy. -/
def plain : AOp w → Call w
  | newEmpty _ => .vec .newEmpty
  | newCount n _ => .vec (.newCount n)
  | newCountVal n x _ => .vec (.newCountVal n x)
  | newBits j p q _ => .vec (.newBits j p q)
  | newBoolList l _ => .vec (.newBoolList l)
  | newWordList l _ => .vec (.newWords l)
  | newBoolRange l _ => .vec (.newBoolRange l)
  | newWordRange l _ => .vec (.newWords l)
  | newString s => .vec (.newString s)
  | newCopy j => .vec (.newCopy j)
  | newMove j => .vec (.newCopy j)
  | newMoveWith j _ => .vec (.newCopy j)
  | copyAssign i j => .vec (.copyAssign i j)
  | moveAssign i j => .vec (.moveAssign i j)
  | destroy i => .vec (.destroy i)
  | member _ op => .vec op
  | alg c => c

/-- The call has the form it claims to have. -/
def Proper : AOp w → Prop
  | member i op => op.target = some i
  | alg c => c.isAlg = true
  | _ => True

/-- The allocator of a vector that is assigned from a temporary vector with allocator `a`. -/
def ranged (T : Traits) (a : Nat) : Nat := if T.pocma then a else T.dflt

/-- The allocators of the vectors after the call. -/
def allocs (T : Traits) (as : List Nat) : AOp w → List Nat
  | newEmpty a | newCount _ a | newCountVal _ _ a | newBits _ _ _ a | newBoolList _ a | newWordList _ a => as ++ [a.getD T.dflt]
  | newBoolRange _ a | newWordRange _ a => as ++ [ranged T (a.getD T.dflt)]
  | newString _ => as ++ [T.dflt]
  | newCopy j | newMove j => as ++ [T.onCopy (as.getD j 0)]
  | newMoveWith _ a => as ++ [a]
  | copyAssign i j => if T.pocca then as.set i (as.getD j 0) else as
  | moveAssign i j => if T.pocma then as.set i (as.getD j 0) else as
  | destroy _ | member _ _ | alg _ => as

/-- The allocators a call may ask for storage. -/
def sources (T : Traits) (as : List Nat) : AOp w → List Nat
  | newEmpty _ => []
  | newCount _ a | newCountVal _ _ a | newBits _ _ _ a | newBoolList _ a | newWordList _ a => [a.getD T.dflt]
  | newBoolRange _ a | newWordRange _ a => [a.getD T.dflt, ranged T (a.getD T.dflt)]
  | newString _ => [T.dflt]
  | newCopy j | newMove j => [T.onCopy (as.getD j 0)]
  | newMoveWith _ a => [a]
  | copyAssign i j => if T.pocca then [as.getD j 0] else [as.getD i 0]
  | moveAssign i j => if T.pocma ∨ as.getD i 0 = as.getD j 0 then [] else [as.getD i 0]
  | destroy _ => []
  | member i _ => [as.getD i 0]
  | alg _ => []

end AOp

/-- The ledger has exactly the storage of the vectors. -/
def LedgerOk (led : Ledger) (xs : List AB) : Prop :=
  ∀ p a c, led.lent p = some (a, c) ↔ 0 < c ∧ ∃ (i : Nat) (x : AB), xs[i]? = some x ∧ x.al = a ∧ x.bv.vec.ptr = p ∧ x.bv.vec.cap = c

/-- The objects hold the lists, have the allocators `as`, and their storage is what the allocators have lent. -/
structure AEnvOk (s : Heap w × Ledger) (xs : List AB) (ls : List (List Bool)) (as : List Nat) : Prop where
  env : EnvOk s.1 (xs.map AB.bv) ls
  als : xs.map AB.al = as
  led : LedgerOk s.2 xs

/-- All requests made between the two ledgers went to allocators in `src`. -/
def AskedOnly (led led' : Ledger) (src : List Nat) : Prop := ∃ new, led'.asked = new ++ led.asked ∧ ∀ r ∈ new, r.1 ∈ src

/-- A program on lists and allocators: lists, allocators, calls, then the lists, the allocators, the answers, and the allocators that may be asked. -/
inductive ASpecRun (T : Traits) : List (List Bool) → List Nat → List (AOp w) → List (List Bool) → List Nat → List Ans → List Nat → Prop
  | nil (ls : List (List Bool)) (as : List Nat) : ASpecRun T ls as [] ls as [] []
  | cons {ls ls1 ls2 : List (List Bool)} {as as2 src : List Nat} {op : AOp w} {ops : List (AOp w)} {a : Ans} {ans : List Ans} :
    op.plain.Spec ls ls1 a → ASpecRun T ls1 (op.allocs T as) ops ls2 as2 ans src →
    ASpecRun T ls as (op :: ops) ls2 as2 (a :: ans) (op.sources T as ++ src)

/-- Every call is valid and within the limits of the library whenever, according to the specification, it can be made. -/
def AValid (S : ShiftSem w) : List (AOp w) → List (List Bool) → Prop
  | [], _ => True
  | op :: ops, ls => (op.Proper ∧ op.plain.Pre ls ∧ op.plain.Lim S ls) ∧ ∀ ls' a, op.plain.Spec ls ls' a → AValid S ops ls'

end BitLib
