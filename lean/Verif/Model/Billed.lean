import Verif.Model.Generic
import Verif.Props.VectorHistory
import Verif.SpecCost
/-
The members and constructors of `bit_vector` once more (bit_vector.hpp, same lines as `Model/Vector`), with a bill: the number of words that are loaded and
stored, and the number of requests for storage. Inside algorithms and references the accesses are those of the texts of `Model/Generic`. What `std::vector`
does is billed as the standard allows it at most: constructing or assigning a word is one store, copying one is a load and a store, and destroying words
is free. Comparing, adding and the length `length_` itself are not billed.
-/
namespace BitLib
variable {w : Nat} {α : Type}

/-- What a run has cost so far. -/
structure Bill where
  /-- loads and stores of single words -/
  acc : Nat
  /-- requests for storage -/
  req : Nat
  deriving DecidableEq, Repr

/-- Programs working on the heap that keep a bill. -/
abbrev K (w : Nat) := StateT (Heap w × Bill) (Except Stop)

namespace Billed

/-- Code on memory; its accesses are billed. -/
def code (c : Code w α) : K w α := fun s =>
  match c.run s.1.mem with
  | .ok (a, m) => .ok (a, ({ s.1 with mem := m }, { s.2 with acc := s.2.acc + c.accesses s.1.mem }))
  | .error e => .error (.ub e)

/-- A step of `std::vector` (`Model/Vector`) and what it costs. -/
def step (acc req : Nat) (p : V w α) : K w α := fun s =>
  match p s.1 with
  | .ok (a, h) => .ok (a, (h, ⟨s.2.acc + acc, s.2.req + req⟩))
  | .error e => .error e

def ubK (e : UB) : K w α := fun _ => .error (.ub e)

/-! ### `std::vector` -/

/-- A new vector of `n` words: one store each; one request unless it is empty. -/
def fresh (P : Policy) (n : Nat) (f : Nat → Option (BitVec w)) : K w Vec := step n (if 0 < n then 1 else 0) (Vec.fresh P n f)

/-- The words move to new storage: a load and a store each. -/
def realloc (v : Vec) (cap : Nat) : K w Vec := step (2 * v.size) 1 (v.realloc cap)

def ensure (P : Policy) (v : Vec) (n : Nat) : K w Vec := if n ≤ v.cap then pure v else realloc v (P.grow v.cap n)

/-- `resize(n)`. -/
def vecResize (P : Policy) (v : Vec) (n : Nat) : K w Vec :=
  if n ≤ v.size then step 0 0 (v.resize P n)
  else do
    let v ← ensure P v n
    step (n - v.size) 0 fun h => .ok ({ v with size := n }, { h with mem := h.mem.place (v.ptr + (v.size : Int)) (n - v.size) fun _ => some 0#w })

/-- `push_back(x)`. -/
def vecPushBack (P : Policy) (v : Vec) (x : BitVec w) : K w Vec := do
  let v ← ensure P v (v.size + 1)
  step 1 0 fun h => .ok ({ v with size := v.size + 1 }, { h with mem := h.mem.place (v.ptr + (v.size : Int)) 1 fun _ => some x })

/-- `reserve(n)`. -/
def vecReserve (P : Policy) (v : Vec) (n : Nat) : K w Vec := if n ≤ v.cap then pure v else realloc v (P.alloc n)

/-- `shrink_to_fit()`. -/
def vecShrinkToFit (P : Policy) (v : Vec) : K w Vec := if P.shrink v.size v.cap then realloc v v.size else pure v

/-- The copy constructor: a load and a store for each word. -/
def vecCopyOf (P : Policy) (o : Vec) : K w Vec := step (2 * o.size) (if 0 < o.size then 1 else 0) (Vec.copyOf P o)

/-- Copy assignment. -/
def vecCopyAssign (P : Policy) (v o : Vec) : K w Vec :=
  if o.size ≤ v.cap then step (2 * o.size) 0 (Vec.copyAssign P v o)
  else do
    let n ← vecCopyOf P o
    step 0 0 v.release
    pure n

/-! ### `bit_vector` -/

/-- bit_vector.hpp:209-213. -/
def ofCountVal (P : Policy) (count : Nat) (b : Bool) : K w BV := do
  let vec ← fresh P (wordCount w count) fun _ => some (if b then BitVec.allOnes w else 0#w)
  pure ⟨vec, count⟩

/-- bit_vector.hpp:215-217. -/
def ofCount (P : Policy) (count : Nat) : K w BV := do
  let vec ← fresh P (wordCount w count) fun _ => some 0#w
  pure ⟨vec, count⟩

/-- bit_vector.hpp:220-228. -/
def ofBits (S : ShiftSem w) (P : Policy) (first last : BitIter w) : K w BV := do
  let d ← code (Gen.distance first last)
  let vec ← fresh P (toSize d) fun _ => some 0#w
  let d ← code (Gen.distance first last)
  let v : BV := ⟨vec, toSize d⟩
  let _ ← code (Gen.copy S first last v.begin)
  pure v

/-- bit_vector.hpp:268-272 and 314-328. -/
def ofWords (P : Policy) (l : List (BitVec w)) : K w BV := do
  let vec ← fresh P l.length fun i => l[i]?
  pure ⟨vec, vec.size * w⟩

/-- bit_vector.hpp:511-513 and 594-596. -/
def room (P : Policy) (v : BV) : K w Vec := if v.vec.size * w = v.length then vecPushBack P v.vec 0#w else pure v.vec

/-- bit_vector.hpp:571-573 and 605-607. -/
def dropWord (vec : Vec) (length : Nat) : K w Vec := if length % w = 0 then step 0 0 vec.popBack else pure vec

/-- bit_vector.hpp:593-601. -/
def pushBack (S : ShiftSem w) (P : Policy) (v : BV) (b : Bool) : K w BV := do
  let vec ← room P v
  let v : BV := ⟨vec, v.length⟩
  let r ← code (Gen.lift (v.begin.index S (v.length : Int)))
  code (Gen.refAssignVal r ⟨b⟩)
  pure ⟨vec, v.length + 1⟩

/-- bit_vector.hpp:260-266. -/
def ofBoolList (S : ShiftSem w) (P : Policy) (l : List Bool) : K w BV :=
  l.foldlM (fun v b => pushBack S P v b) BV.default

/-- The loop of bit_vector.hpp:291-312. -/
def writeBools (S : ShiftSem w) : List Bool → BitIter w → Code w Unit
  | [], _ => pure ()
  | b :: l, d => do
    let r ← Gen.lift (d.deref S)
    Gen.refAssignVal r ⟨b⟩
    writeBools S l d.inc

/-- bit_vector.hpp:291-312. -/
def ofBoolRange (S : ShiftSem w) (P : Policy) (l : List Bool) : K w BV := do
  let vec ← fresh P l.length fun _ => some 0#w
  let v : BV := ⟨vec, l.length⟩
  code (writeBools S l v.begin)
  pure v

/-- bit_vector.hpp:279-287. -/
def writeChars (S : ShiftSem w) (it : BitIter w) : List Char → Nat → Code w Unit
  | [], _ => pure ()
  | c :: l, i =>
    if c = '0' then do
      let r ← Gen.lift (it.index S (i : Int))
      Gen.refAssignVal r ⟨false⟩
      writeChars S it l (i + 1)
    else if c = '1' then do
      let r ← Gen.lift (it.index S (i : Int))
      Gen.refAssignVal r ⟨true⟩
      writeChars S it l (i + 1)
    else writeChars S it l i

/-- bit_vector.hpp:274-289. -/
def ofString (S : ShiftSem w) (P : Policy) (s : List Char) : K w BV := do
  let n := s.count '0' + s.count '1'
  let vec ← fresh P n fun _ => some 0#w
  let v : BV := ⟨vec, n⟩
  code (writeChars S v.begin s 0)
  pure v

/-- bit_vector.hpp:113. -/
def copyOf (P : Policy) (o : BV) : K w BV := do
  let vec ← vecCopyOf P o.vec
  pure ⟨vec, o.length⟩

/-- bit_vector.hpp:331-337: the storage is given back; no access. -/
def destroy (v : BV) : K w Unit := step 0 0 v.vec.release

/-- bit_vector.hpp:132. -/
def copyAssign (P : Policy) (v o : BV) : K w BV := do
  let vec ← vecCopyAssign P v.vec o.vec
  pure ⟨vec, o.length⟩

/-- bit_vector.hpp:343-350: the storage changes hands; no access. -/
def moveAssign (v o : BV) : K w (BV × BV) := step 0 0 (v.moveAssign o)

/-- `static_cast<bool>(v[pos])`. -/
def get (S : ShiftSem w) (v : BV) (pos : Nat) : K w Bool := do
  let r ← code (Gen.lift (v.begin.index S (pos : Int)))
  code (Gen.refToBool r)

/-- `v[pos] = b`. -/
def set (S : ShiftSem w) (v : BV) (pos : Nat) (b : Bool) : K w BV := do
  let r ← code (Gen.lift (v.begin.index S (pos : Int)))
  code (Gen.refAssignVal r ⟨b⟩)
  pure v

/-- bit_vector.hpp:481-484. -/
def reserve (P : Policy) (v : BV) (n : Nat) : K w BV := do
  let vec ← vecReserve P v.vec (wordCount w n)
  pure ⟨vec, v.length⟩

/-- bit_vector.hpp:493-496. -/
def shrinkToFit (P : Policy) (v : BV) : K w BV := do
  let vec ← vecShrinkToFit P v.vec
  pure ⟨vec, v.length⟩

/-- bit_vector.hpp:501-504. -/
def clear (v : BV) : K w BV := do
  let vec ← step 0 0 v.vec.clear
  pure ⟨vec, 0⟩

/-- bit_vector.hpp:506-520. -/
def insert (S : ShiftSem w) (P : Policy) (v : BV) (pos : BitIter w) (b : Bool) : K w (BV × BitIter w) := do
  let d ← code (Gen.distance v.begin pos)
  let vec ← room P v
  let v : BV := ⟨vec, v.length + 1⟩
  let _ ← code (Gen.shiftRight S (v.begin.add d) (v.begin.add (v.length : Int)) 1)
  let r ← code (Gen.lift (v.begin.index S d))
  code (Gen.refAssignVal r ⟨b⟩)
  pure (v, v.begin.add d)

/-- bit_vector.hpp:531-537 and 554-560. -/
def growFor (P : Policy) (v : BV) (count : Nat) : K w Vec := do
  let avail := f32 (v.vec.size * w)
  if f32 (v.length + count) > avail then do
    let x ← code (Gen.lift (floatToU32 (f32 (f32 (v.length + count) - avail))))
    vecResize P v.vec (v.vec.size + wordCount w x)
  else pure v.vec

/-- bit_vector.hpp:522-542. -/
def insertN (S : ShiftSem w) (P : Policy) (v : BV) (pos : BitIter w) (count : Nat) (b : Bool) : K w (BV × BitIter w) := do
  let d ← code (Gen.distance v.begin pos)
  if count = 0 then pure (v, v.begin.add d)
  else do
    let vec ← growFor P v count
    let v : BV := ⟨vec, v.length + count⟩
    let _ ← code (Gen.shiftRight S (v.begin.add d) (v.begin.add (v.length : Int)) (count : Int))
    code (Gen.fill S (v.begin.add d) ((v.begin.add d).add (count : Int)) b)
    pure (v, v.begin.add d)

/-- bit_vector.hpp:544-565. -/
def insertRange (S : ShiftSem w) (P : Policy) (v : BV) (pos first last : BitIter w) : K w (BV × BitIter w) := do
  let d ← code (Gen.distance v.begin pos)
  let c ← code (Gen.distance first last)
  let count := toSize c
  if count = 0 then pure (v, v.begin.add d)
  else do
    let vec ← growFor P v count
    let v : BV := ⟨vec, v.length + count⟩
    let _ ← code (Gen.shiftRight S (v.begin.add d) (v.begin.add (v.length : Int)) (count : Int))
    let _ ← code (Gen.copy S first last (v.begin.add d))
    pure (v, v.begin.add d)

/-- bit_vector.hpp:567-576. -/
def erase (S : ShiftSem w) (v : BV) (pos : BitIter w) : K w (BV × BitIter w) := do
  let _ ← code (Gen.shiftLeft S pos (v.begin.add (v.length : Int)) 1)
  let length := subSize v.length 1
  let vec ← dropWord v.vec length
  pure (⟨vec, length⟩, pos)

/-- bit_vector.hpp:578-590. -/
def eraseRange (S : ShiftSem w) (P : Policy) (v : BV) (first last : BitIter w) : K w (BV × BitIter w) := do
  let d ← code (Gen.distance v.begin first)
  let count ← code (Gen.distance first last)
  if count = 0 then pure (v, last)
  else do
    let _ ← code (Gen.shiftLeft S first v.end count)
    let length := toSize ((v.length : Int) - count)
    let vec ← vecResize P v.vec (wordCount w length)
    let v : BV := ⟨vec, length⟩
    pure (v, v.begin.add d)

/-- bit_vector.hpp:602-609. -/
def popBack (v : BV) : K w BV := do
  let length := subSize v.length 1
  let vec ← dropWord v.vec length
  pure ⟨vec, length⟩

/-- bit_vector.hpp:611-616. -/
def resize (P : Policy) (v : BV) (count : Nat) : K w BV := do
  let vec ← vecResize P v.vec (wordCount w count)
  pure ⟨vec, count⟩

/-- bit_vector.hpp:618-627. -/
def resizeVal (S : ShiftSem w) (P : Policy) (v : BV) (count : Nat) (b : Bool) : K w BV := do
  let old := v.length
  let vec ← vecResize P v.vec (wordCount w count)
  let v : BV := ⟨vec, count⟩
  if v.length > old then do
    code (Gen.fill S (v.begin.add (v.length : Int)) v.end b)
    pure v
  else pure v

/-! ### Calls of a program (`Op`) -/

def onVecK (vs : List BV) (i : Nat) (f : BV → K w BV) : K w (List BV) :=
  match vs[i]? with
  | some v => f v >>= fun v' => pure (vs.set i v')
  | none => ubK .badRange

def onVec2K (vs : List BV) (i j : Nat) (f : BV → BV → K w BV) : K w (List BV) :=
  match vs[i]?, vs[j]? with
  | some v, some o => f v o >>= fun v' => pure (vs.set i v')
  | _, _ => ubK .badRange

def newVecK (vs : List BV) (f : K w BV) : K w (List BV) := f >>= fun v => pure (vs ++ [v])

end Billed

open Billed in
/-- The modelled code of a call, with its bill. -/
def Op.execK (S : ShiftSem w) (P : Policy) (vs : List BV) : Op w → K w (List BV)
  | newEmpty => newVecK vs (pure BV.default)
  | newCount n => newVecK vs (ofCount P n)
  | newCountVal n x => newVecK vs (ofCountVal P n x)
  | newString s => newVecK vs (ofString S P s)
  | newBoolRange l => newVecK vs (ofBoolRange S P l)
  | newBoolList l => newVecK vs (ofBoolList S P l)
  | newWords l => newVecK vs (ofWords P l)
  | newBits j a b =>
    match vs[j]? with
    | some o => newVecK vs (ofBits S P (o.begin.add (a : Int)) (o.begin.add (b : Int)))
    | none => ubK .badRange
  | newCopy j =>
    match vs[j]? with
    | some o => newVecK vs (copyOf P o)
    | none => ubK .badRange
  | push i x => onVecK vs i fun v => pushBack S P v x
  | pop i => onVecK vs i fun v => popBack v
  | insert i d x => onVecK vs i fun v => Prod.fst <$> Billed.insert S P v (v.begin.add (d : Int)) x
  | insertN i d n x => onVecK vs i fun v => Prod.fst <$> Billed.insertN S P v (v.begin.add (d : Int)) n x
  | insertRange i d j a b => onVec2K vs i j fun v o =>
      Prod.fst <$> Billed.insertRange S P v (v.begin.add (d : Int)) (o.begin.add (a : Int)) (o.begin.add (b : Int))
  | erase i d => onVecK vs i fun v => Prod.fst <$> Billed.erase S v (v.begin.add (d : Int))
  | eraseRange i a b => onVecK vs i fun v => Prod.fst <$> Billed.eraseRange S P v (v.begin.add (a : Int)) (v.begin.add (b : Int))
  | clear i => onVecK vs i fun v => Billed.clear v
  | set i k x => onVecK vs i fun v => Billed.set S v k x
  | copyAssign i j => onVec2K vs i j fun v o => Billed.copyAssign P v o
  | moveAssign i j =>
    match vs[i]?, vs[j]? with
    | some v, some o => Billed.moveAssign v o >>= fun r => pure ((vs.set i r.1).set j r.2)
    | _, _ => ubK .badRange
  | reserve i n => onVecK vs i fun v => Billed.reserve P v n
  | shrinkToFit i => onVecK vs i fun v => Billed.shrinkToFit P v
  | shrink i n => onVecK vs i fun v => resize P v n
  | destroy i => onVecK vs i fun v => Billed.destroy v >>= fun _ => pure BV.default

/-- A history of calls, with its bill. -/
def runHistK (S : ShiftSem w) (P : Policy) (vs : List BV) (ops : List (Op w)) : K w (List BV) := ops.foldlM (fun vs op => op.execK S P vs) vs

end BitLib
