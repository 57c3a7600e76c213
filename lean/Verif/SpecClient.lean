import Verif.SpecRef
import Verif.Model.Client
/-
What bit iterators, references and pointers stand for: positions on a tape of bits, where every bit can be read and changed by itself.
-/
namespace BitLib
variable {w : Nat}

/-- The bits, by position; `none` where there is none. -/
abbrev Tape := Int → Option Bool

/-- Programs on a tape. -/
abbrev TapeM := StateT Tape (Except UB)

def Cmp.on (a b : Int) : Cmp → Bool
  | .eq => decide (a = b)
  | .ne => decide (a ≠ b)
  | .lt => decide (a < b)
  | .le => decide (a ≤ b)
  | .gt => decide (a > b)
  | .ge => decide (a ≥ b)

def Upd.on (old : Bool) : Upd → Bool
  | .set => true
  | .reset => false
  | .flip => !old
  | .setTo b | .assign b => b
  | .and b => old && b
  | .or b => old || b
  | .xor b => old ^^ b

namespace Tape

def get (p : Int) : TapeM Bool := fun t =>
  match t p with
  | some b => .ok (b, t)
  | none => .error .outOfBounds

def put (p : Int) (b : Bool) : TapeM Unit := fun t =>
  match t p with
  | some _ => .ok ((), fun i => if i = p then some b else t i)
  | none => .error .outOfBounds

end Tape

/-- The operations on positions: iterators, references and pointers are all integers. -/
def idealIface : Iface TapeM Int Int Int where
  itAdd p n := pure (p + n)
  itSub p n := pure (p - n)
  itInc p := pure (p + 1)
  itDec p := pure (p - 1)
  itPostInc p := pure (p, p + 1)
  itPostDec p := pure (p, p - 1)
  itAddAssign p n := pure (p + n)
  itSubAssign p n := pure (p - n)
  itDiff p q := pure (p - q)
  itCmp c p q := pure (c.on p q)
  itDistance p q := if p ≤ q then pure (q - p) else fun _ => .error .assertFail
  itDeref p := pure p
  itIndex p n := pure (p + n)
  itArrow p := pure p
  refRead p := Tape.get p
  refUpd u p := do
    let b ← Tape.get p
    Tape.put p (u.on b)
  refAssign p q := do
    let b ← Tape.get q
    Tape.put p b
  refSwap p q := do
    let a ← Tape.get p
    let b ← Tape.get q
    Tape.put q a
    Tape.put p b
  refSwapVal p b := do
    let a ← Tape.get p
    Tape.put p b
    pure a
  refAddr p := pure p
  ptrAdd p n := pure (p + n)
  ptrSub p n := pure (p - n)
  ptrInc p := pure (p + 1)
  ptrDec p := pure (p - 1)
  ptrPostInc p := pure (p, p + 1)
  ptrPostDec p := pure (p, p - 1)
  ptrDiff p q := pure (p - q)
  ptrCmp c p q := pure (c.on p q)
  ptrDeref p := pure p
  ptrIndex p n := pure (p + n)

/-- Running a program on a tape. -/
def Client.ideal {α : Type} (c : Client α) (s : Slots Int Int Int) : TapeM (α × Slots Int Int Int) := c.run (fun _ => .error .badRange) idealIface s

/-- Two variables hold nothing, or related things. -/
def SameSlot {α β : Type} (R : α → β → Prop) (x : Option α) (y : Option β) : Prop :=
  (x = none ∧ y = none) ∨ ∃ a b, x = some a ∧ y = some b ∧ R a b

/-- The variables of the program on the library hold iterators, references and pointers to the bits at the positions in the variables of the
program on the tape; position 0 is the bit with address `o`. -/
structure SlotsAt (o : Int) (s : Slots (BitIter w) (BitRef w) (BitPtr w)) (t : Slots Int Int Int) : Prop where
  it : ∀ k, SameSlot (fun (x : BitIter w) p => x.Valid ∧ x.addr = o + p) (s.it k) (t.it k)
  ref : ∀ k, SameSlot (fun (x : BitRef w) p => x.At (o + p)) (s.ref k) (t.ref k)
  ptr : ∀ k, SameSlot (fun (x : BitPtr w) p => x.At (o + p)) (s.ptr k) (t.ptr k)

/-- Every bit of the tape is in the memory. -/
def TapeIn (o : Int) (m : Mem w) (t : Tape) : Prop := ∀ p b, t p = some b → bitAt m (o + p) = some b

/-- The tape is the memory. -/
def TapeIs (o : Int) (m : Mem w) (t : Tape) : Prop := ∀ p, t p = bitAt m (o + p)

/-- The elements of a list as a tape. -/
def listTape (l : List Bool) : Tape := fun p => if 0 ≤ p then l[p.toNat]? else none

/-- The variables at the start of an algorithm on a range: `first` and `last`. -/
def rangeSlots {I R P : Type} (first last : I) : Slots I R P := ⟨putSlot (putSlot (fun _ => none) 0 first) 1 last, fun _ => none, fun _ => none⟩

end BitLib
