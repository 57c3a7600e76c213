import Verif.Props.Programs
/-
`bit_vector` with allocators that have a state (include/bitlib/bit-containers/bit_vector.hpp): which allocator the storage comes from.

`bit_vector` passes its allocator argument on to `std::vector`; what `std::vector` does with it is the text of the standard
([container.alloc.reqmts]), written here by hand. Equal allocators have the same number. An empty capacity needs no storage.

Simplifications: allocation succeeds. The ledger is settled once per member call, after the call: no member replaces the storage twice. The storage
of a vector is given back before its new storage is entered; the order does not matter for the ledger.
-/
namespace BitLib
variable {w : Nat}

/-- What an allocator type decides, and what the standard leaves open. -/
structure Traits where
  /-- `Allocator()` -/
  dflt : Nat
  /-- `select_on_container_copy_construction` -/
  onCopy : Nat → Nat
  /-- `propagate_on_container_copy_assignment` -/
  pocca : Bool
  /-- `propagate_on_container_move_assignment` -/
  pocma : Bool
  /-- is a vector empty after its elements were moved from one by one (unspecified) -/
  clears : Bool

/-- What the allocators know. -/
structure Ledger where
  /-- the block that begins at an address: its allocator and its number of words -/
  lent : Int → Option (Nat × Nat)
  /-- all requests so far, the latest first: allocator and number of words -/
  asked : List (Nat × Nat)

/-- How a run can stop early: as before, or by giving storage back to an allocator that has not lent it. -/
inductive AStop where
  | stop (s : Stop)
  | wrongOwner
  deriving DecidableEq

/-- Programs working on the heap and the ledger. -/
abbrev AV (w : Nat) := StateT (Heap w × Ledger) (Except AStop)

def inHeap {α : Type} (p : V w α) : AV w α := fun s =>
  match p s.1 with
  | .ok (a, h) => .ok (a, (h, s.2))
  | .error e => .error (.stop e)

/-- `allocate`: the storage of `v` comes from allocator `a`. -/
def take (a : Nat) (v : Vec) : AV w Unit := fun s =>
  if v.cap = 0 then .ok ((), s)
  else .ok ((), (s.1, ⟨fun p => if p = v.ptr then some (a, v.cap) else s.2.lent p, (a, v.cap) :: s.2.asked⟩))

/-- `deallocate`: the storage of `v` goes back to allocator `a`. -/
def give (a : Nat) (v : Vec) : AV w Unit := fun s =>
  if v.cap = 0 then .ok ((), s)
  else if s.2.lent v.ptr = some (a, v.cap) then .ok ((), (s.1, ⟨fun p => if p = v.ptr then none else s.2.lent p, s.2.asked⟩))
  else .error .wrongOwner

/-- A member turned the vector `v` into `v'`, with storage from `a`. -/
def settle (a : Nat) (v v' : Vec) : AV w Unit :=
  if v'.ptr = v.ptr ∧ v'.cap = v.cap then pure ()
  else do
    give a v
    take a v'

/-- A `std::vector` and its allocator. -/
structure AWords where
  al : Nat
  vec : Vec

namespace AWords

/-- The destructor. -/
def destroy (v : AWords) : AV w Unit := do
  give v.al v.vec
  inHeap v.vec.release

/-- Copy assignment. An allocator that is replaced gets its storage back. -/
def copyAssign (T : Traits) (P : Policy) (v o : AWords) : AV w AWords :=
  if T.pocca ∧ v.al ≠ o.al then do
    give v.al v.vec
    inHeap v.vec.release
    let vec ← inHeap (Vec.copyOf P o.vec)
    take o.al vec
    pure ⟨o.al, vec⟩
  else do
    let vec ← inHeap (Vec.copyAssign P v.vec o.vec)
    settle v.al v.vec vec
    pure ⟨v.al, vec⟩

/-- Move assignment: the storage changes hands if the allocator does, or if the allocators are equal; else the words are moved one by one. Returns
the target and the source. -/
def moveAssign (T : Traits) (P : Policy) (v o : AWords) : AV w (AWords × AWords) :=
  if T.pocma ∨ v.al = o.al then do
    give v.al v.vec
    let r ← inHeap (Vec.moveAssign v.vec o.vec)
    pure (⟨if T.pocma then o.al else v.al, r.1⟩, ⟨o.al, r.2⟩)
  else do
    let vec ← inHeap (Vec.copyAssign P v.vec o.vec)
    settle v.al v.vec vec
    let rest ← if T.clears then inHeap o.vec.clear else pure o.vec
    pure (⟨v.al, vec⟩, ⟨o.al, rest⟩)

end AWords

/-- A `bit_vector` and the allocator of its words. -/
structure AB where
  al : Nat
  bv : BV

namespace AB

def words (x : AB) : AWords := ⟨x.al, x.bv.vec⟩

/-- A constructor that makes the words with allocator `a` in its initialiser list. -/
def made (a : Nat) (p : V w BV) : AV w AB := do
  let v ← inHeap p
  take a v.vec
  pure ⟨a, v⟩

/-- A member that works on the words in place. -/
def member (x : AB) (p : V w BV) : AV w AB := do
  let v ← inHeap p
  settle x.al x.bv.vec v.vec
  pure ⟨x.al, v⟩

/-- bit_vector.hpp:252-266, from a list of `bool` or of `bit_value`. -/
def ofBoolList (S : ShiftSem w) (P : Policy) (l : List Bool) (a : Nat) : AV w AB :=
  l.foldlM (fun x b => x.member (x.bv.pushBack S P b)) ⟨a, BV.default⟩

/-- bit_vector.hpp:231-242 and 276, then 278, 303, 326: the words are made with the default allocator and then assigned from a temporary vector with allocator `a`. -/
def assignWords (T : Traits) (P : Policy) (a n : Nat) (f : Nat → Option (BitVec w)) : AV w AWords := do
  let tmp ← inHeap (Vec.fresh P n f)
  take a tmp
  let r ← AWords.moveAssign T P ⟨T.dflt, Vec.empty⟩ ⟨a, tmp⟩
  r.2.destroy
  pure r.1

/-- bit_vector.hpp:291-312, from a range of `bool`. -/
def ofBoolRange (T : Traits) (S : ShiftSem w) (P : Policy) (l : List Bool) (a : Nat) : AV w AB := do
  let ws ← assignWords T P a l.length fun _ => some 0#w
  let v : BV := ⟨ws.vec, l.length⟩
  inHeap (onMem (BV.writeBools S l v.begin))
  pure ⟨ws.al, v⟩

/-- bit_vector.hpp:314-328, from a range of words. -/
def ofWordRange (T : Traits) (P : Policy) (l : List (BitVec w)) (a : Nat) : AV w AB := do
  let ws ← assignWords T P a l.length fun i => l[i]?
  pure ⟨ws.al, ⟨ws.vec, w * l.length⟩⟩

/-- bit_vector.hpp:275-287, from a string; there is no allocator argument. -/
def ofString (T : Traits) (S : ShiftSem w) (P : Policy) (s : List Char) : AV w AB := do
  let n := s.count '0' + s.count '1'
  let ws ← assignWords T P T.dflt n fun _ => some 0#w
  let v : BV := ⟨ws.vec, n⟩
  inHeap (onMem (BV.writeChars S v.begin s 0))
  pure ⟨ws.al, v⟩

/-- bit_vector.hpp:113, the copy constructor. -/
def copyOf (T : Traits) (P : Policy) (o : AB) : AV w AB := made (T.onCopy o.al) (BV.copyOf P o.bv)

/-- bit_vector.hpp:244-246: a `const` vector is moved from, so it is copied, and the allocator is the one for copies. -/
def moveOf (T : Traits) (P : Policy) (o : AB) : AV w AB := made (T.onCopy o.al) (BV.copyOf P o.bv)

/-- bit_vector.hpp:248-250, the same with an allocator. -/
def moveOfWith (P : Policy) (o : AB) (a : Nat) : AV w AB := made a (BV.copyOf P o.bv)

/-- bit_vector.hpp:132, copy assignment (`= default`): the words, then the length. -/
def copyAssign (T : Traits) (P : Policy) (x o : AB) : AV w AB := do
  let ws ← AWords.copyAssign T P x.words o.words
  pure ⟨ws.al, ⟨ws.vec, o.bv.length⟩⟩

/-- bit_vector.hpp:343-350, move assignment from another object. Returns the target and the source. -/
def moveAssign (T : Traits) (P : Policy) (x o : AB) : AV w (AB × AB) := do
  let r ← AWords.moveAssign T P x.words o.words
  pure (⟨r.1.al, ⟨r.1.vec, o.bv.length⟩⟩, ⟨r.2.al, ⟨r.2.vec, 0⟩⟩)

/-- bit_vector.hpp:331-337, the destructor; the object is then taken for an empty one. -/
def destroy (x : AB) : AV w AB := do
  x.words.destroy
  pure ⟨x.al, BV.default⟩

end AB

/-- A call. Constructors take an allocator where the code does (`none`: the default argument `Allocator()`). -/
inductive AOp (w : Nat) where
  | newEmpty (a : Option Nat)
  | newCount (n : Nat) (a : Option Nat)
  | newCountVal (n : Nat) (x : Bool) (a : Option Nat)
  | newBits (j p q : Nat) (a : Option Nat)
  | newBoolList (l : List Bool) (a : Option Nat)
  | newWordList (l : List (BitVec w)) (a : Option Nat)
  | newBoolRange (l : List Bool) (a : Option Nat)
  | newWordRange (l : List (BitVec w)) (a : Option Nat)
  | newString (s : List Char)
  | newCopy (j : Nat)
  | newMove (j : Nat)
  | newMoveWith (j a : Nat)
  | copyAssign (i j : Nat)
  | moveAssign (i j : Nat)
  | destroy (i : Nat)
  /-- a member that works on vector `i` in place -/
  | member (i : Nat) (op : Op w)
  /-- an algorithm or an observer -/
  | alg (c : Call w)

/-- The vector a member works on in place (`none`: constructors, assignments and the destructor). -/
def Op.target : Op w → Option Nat
  | push i _ | pop i | insert i _ _ | insertN i _ _ _ | insertRange i _ _ _ _ | erase i _ | eraseRange i _ _ | clear i | set i _ _ | reserve i _
  | shrinkToFit i | shrink i _ => some i
  | _ => none

/-- Is the call an algorithm or an observer? -/
def Call.isAlg : Call w → Bool
  | vec _ => false
  | _ => true

/-- A mistake of the program, not of the library. -/
def misuse {α : Type} : AV w α := inHeap (ubV .badRange)

/-- Use object `i`. -/
def withObj {α : Type} (xs : List AB) (i : Nat) (f : AB → AV w α) : AV w α :=
  match xs[i]? with
  | some x => f x
  | none => misuse

/-- Add the object made by `f`. -/
def addObj (xs : List AB) (f : AV w AB) : AV w (List AB × Ans) := do
  let x ← f
  pure (xs ++ [x], .unit)

/-- The modelled code of a call. -/
def AOp.exec (T : Traits) (S : ShiftSem w) (P : Policy) (xs : List AB) : AOp w → AV w (List AB × Ans)
  | newEmpty a => addObj xs (pure ⟨a.getD T.dflt, BV.default⟩)
  | newCount n a => addObj xs (AB.made (a.getD T.dflt) (BV.ofCount P n))
  | newCountVal n x a => addObj xs (AB.made (a.getD T.dflt) (BV.ofCountVal P n x))
  | newBits j p q a => withObj xs j fun o =>
      addObj xs (AB.made (a.getD T.dflt) (BV.ofBits S P (o.bv.begin.add (p : Int)) (o.bv.begin.add (q : Int))))
  | newBoolList l a => addObj xs (AB.ofBoolList S P l (a.getD T.dflt))
  | newWordList l a => addObj xs (AB.made (a.getD T.dflt) (BV.ofWords P l))
  | newBoolRange l a => addObj xs (AB.ofBoolRange T S P l (a.getD T.dflt))
  | newWordRange l a => addObj xs (AB.ofWordRange T P l (a.getD T.dflt))
  | newString s => addObj xs (AB.ofString T S P s)
  | newCopy j => withObj xs j fun o => addObj xs (AB.copyOf T P o)
  | newMove j => withObj xs j fun o => addObj xs (AB.moveOf T P o)
  | newMoveWith j a => withObj xs j fun o => addObj xs (AB.moveOfWith P o a)
  | copyAssign i j => withObj xs i fun x => withObj xs j fun o => do
      let x' ← x.copyAssign T P o
      pure (xs.set i x', .unit)
  | moveAssign i j => withObj xs i fun x => withObj xs j fun o => do
      let r ← x.moveAssign T P o
      pure ((xs.set i r.1).set j r.2, .unit)
  | destroy i => withObj xs i fun x => do
      let x' ← x.destroy
      pure (xs.set i x', .unit)
  | member i op => withObj xs i fun x =>
      if op.target = some i then do
        let vs ← inHeap (op.exec S P (xs.map AB.bv))
        match vs[i]? with
        | some v => do
          settle x.al x.bv.vec v.vec
          pure (xs.set i ⟨x.al, v⟩, .unit)
        | none => misuse
      else misuse
  | alg c =>
      if c.isAlg then do
        let r ← inHeap (c.exec S P (xs.map AB.bv))
        pure (xs, r.2)
      else misuse

/-- A program. -/
def runAOps (T : Traits) (S : ShiftSem w) (P : Policy) (xs : List AB) : List (AOp w) → AV w (List AB × List Ans)
  | [] => pure (xs, [])
  | op :: ops => do
    let r ← op.exec T S P xs
    let rs ← runAOps T S P r.1 ops
    pure (rs.1, r.2 :: rs.2)

end BitLib
