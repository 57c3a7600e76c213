import Verif.Spec
import Verif.Model.Vector
/-
What a `bit_vector` stands for: a list of booleans stored in words the vector owns.
Addresses are bit addresses (see Spec.lean).
-/
namespace BitLib
variable {w : Nat}

/-- Nothing lives at addresses that were never handed out. -/
structure Heap.WF (h : Heap w) : Prop where
  nonneg : 0 ≤ h.next
  unused : ∀ i, h.next * (w : Int) ≤ i → bitAt h.mem i = none

/-- `v` owns `cap` words below `h.next`, the first `size` of which are constructed. -/
structure VecOk (h : Heap w) (v : Vec) : Prop where
  cap : v.size ≤ v.cap
  below : v.ptr * (w : Int) + (v.cap : Int) * (w : Int) ≤ h.next * (w : Int)
  mapped : Mapped h.mem (v.ptr * (w : Int)) (v.ptr * (w : Int) + (v.size : Int) * (w : Int))

/-- In the heap `h`, the vector `v` is valid and holds exactly the elements `l`. -/
structure Rep (h : Heap w) (v : BV) (l : List Bool) : Prop where
  ok : VecOk h v.vec
  len : v.length = l.length
  fit : v.length ≤ v.vec.size * w
  bits : ∀ (i : Nat) (hi : i < l.length), bitAt h.mem (v.vec.ptr * (w : Int) + (i : Int)) = some l[i]

/-- The storage of two vectors does not overlap. -/
def Sep (w : Nat) (v o : Vec) : Prop :=
  v.cap = 0 ∨ o.cap = 0 ∨ v.ptr * (w : Int) + (v.cap : Int) * (w : Int) ≤ o.ptr * (w : Int) ∨
    o.ptr * (w : Int) + (o.cap : Int) * (w : Int) ≤ v.ptr * (w : Int)

/-- An operation that turned `v` into `v'` changed nothing outside the storage of `v`, except in storage that is new. -/
structure VStep (h : Heap w) (v : Vec) (h' : Heap w) (v' : Vec) : Prop where
  wf : h'.WF
  next : h.next * (w : Int) ≤ h'.next * (w : Int)
  frame : ∀ i, i < h.next * (w : Int) →
    (i < v.ptr * (w : Int) ∨ v.ptr * (w : Int) + (v.cap : Int) * (w : Int) ≤ i) → bitAt h'.mem i = bitAt h.mem i
  region : (v'.ptr = v.ptr ∧ v'.cap = v.cap) ∨ h.next * (w : Int) ≤ v'.ptr * (w : Int)

/-- The iterator designates position `d` of the vector. -/
def IsPos (v : BV) (it : BitIter w) (d : Nat) : Prop := it.Valid ∧ it.addr = v.vec.ptr * (w : Int) + (d : Int)

/-- `[first, last)` is a valid range holding the bits `s`. -/
structure HoldsSeq (h : Heap w) (first last : BitIter w) (s : List Bool) : Prop where
  validFirst : first.Valid
  validLast : last.Valid
  len : last.addr = first.addr + (s.length : Int)
  bits : ∀ (i : Nat) (hi : i < s.length), bitAt h.mem (first.addr + (i : Int)) = some s[i]

/-- The range lies outside the storage of the vector. -/
def Outside (v : Vec) (first last : BitIter w) : Prop :=
  last.addr ≤ first.addr ∨ v.cap = 0 ∨ last.addr ≤ v.ptr * (w : Int) ∨ v.ptr * (w : Int) + (v.cap : Int) * (w : Int) ≤ first.addr

/-- The elements `[a, b)` of a list. -/
def slice (l : List Bool) (a b : Nat) : List Bool := (l.take b).drop a

/-- The list with the elements from position `k` on overwritten by `s`. -/
def splice (l : List Bool) (k : Nat) (s : List Bool) : List Bool := l.take k ++ s ++ l.drop (k + s.length)

/-- What `shift_left` by `n` leaves in the last `n` of the elements `[a, b)`: cleared if the elements lie in one word of the vector, else
unchanged. -/
def vacatedL (w : Nat) (l : List Bool) (a b n : Nat) : List Bool :=
  if a / w = (b - 1) / w then List.replicate n false else slice l (b - n) b

/-- How many elements before `a` a `shift_right` of `[a, b)` by `n` copies into the range. -/
def leakedElems (w a b n : Nat) : Nat := if n % w = 0 ∧ a / w < (b - n) / w then a % w else 0

/-- What `shift_right` by `n` leaves in the first `n` of the elements `[a, b)`: cleared if the elements lie in one word of the vector, else
unchanged but for the last `leakedElems`, which get the values of the elements before `a`. -/
def vacatedR (w : Nat) (l : List Bool) (a b n : Nat) : List Bool :=
  if a / w = (b - 1) / w then List.replicate n false
  else slice l a (a + n - leakedElems w a b n) ++ slice l (a - leakedElems w a b n) a

/-- Enough words are present after the single-precision computation of `insert` for `n` more bits. -/
def FloatOk (w size length n : Nat) : Prop :=
  if f32 (length + n) > f32 (size * w) then
    f32 (f32 (length + n) - f32 (size * w)) < 2 ^ 32 ∧
      length + n ≤ (size + wordCount w (f32 (f32 (length + n) - f32 (size * w)))) * w
  else length + n ≤ size * w

/-- The digits of a string, in order; other characters are skipped. -/
def digitsOf (s : List Char) : List Bool :=
  s.filterMap fun c => if c = '0' then some false else if c = '1' then some true else none

/-- The bits of a sequence of words, least significant first. -/
def bitsOfWords (l : List (BitVec w)) : List Bool := l.flatMap fun x => (List.range w).map fun b => x.getLsbD b

/-- The digits `l` of positions `n, n + 1, ...`: a blank before positions that are multiples of `w`, a dot before the
other multiples of 8, nothing before position 0. -/
def grouped (w : Nat) : Nat → List Bool → List Char
  | _, [] => []
  | n, b :: l =>
    (if n = 0 then [] else if n % w = 0 then [' '] else if n % 8 = 0 then ['.'] else []) ++
      (if b then '1' else '0') :: grouped w (n + 1) l

end BitLib
