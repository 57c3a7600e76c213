import Verif.Model.Client
import Verif.Props.Programs
/-
Programs that own `bit_vector`s and keep iterators, references and pointers into them in variables.

A program makes calls on its vectors (`Call`), takes iterators from them, works with the iterators, references and pointers it has (`IOp`) and
passes iterators to the algorithms and to the members that take some (`AtCall`). `KStep.exec` runs the modelled code.
-/
namespace BitLib
variable {w : Nat}

/-- A call that takes iterators from variables. Variables are `f` (first), `l` (last), `m` (middle), `d` (destination), `p` (position); an iterator
that the call returns goes to variable `r`. `i` names a vector. -/
inductive AtCall (w : Nat) where
  | copy (f l d r : Nat)
  | move (f l d r : Nat)
  /-- `d` is the end of the destination -/
  | copyBackward (f l d r : Nat)
  | fill (f l : Nat) (x : Bool)
  | reverse (f l : Nat)
  | rotate (f m l r : Nat)
  | shiftLeft (f l n r : Nat)
  | shiftRight (f l n r : Nat)
  | swapRanges (f l d r : Nat)
  /-- the word operation and its effect on single bits -/
  | transform (op : BitVec w → BitVec w) (g : Bool → Bool) (f l d r : Nat)
  | transform2 (op : BitVec w → BitVec w → BitVec w) (g : Bool → Bool → Bool) (f l f2 d r : Nat)
  | find (f l : Nat) (x : Bool) (r : Nat)
  | count (f l : Nat) (x : Bool)
  | equal (f l f2 : Nat)
  | newBits (f l : Nat)
  | insert (i p : Nat) (x : Bool) (r : Nat)
  | insertN (i p n : Nat) (x : Bool) (r : Nat)
  | insertRange (i p f l r : Nat)
  | erase (i p r : Nat)
  | eraseRange (i f l r : Nat)

/-- One step of a program. -/
inductive KStep (w : Nat) where
  /-- variable `k` becomes `v.begin() + n` for vector `v` number `i` -/
  | iter (k i n : Nat)
  | op (o : IOp)
  | call (c : Call w)
  | atCall (a : AtCall w)

/-- What a step answers. -/
inductive KAns where
  | it (a : IAns)
  | call (a : Ans)
  deriving DecidableEq

/-- The variables. -/
abbrev CodeSlots (w : Nat) := Slots (BitIter w) (BitRef w) (BitPtr w)

/-- Use the iterator in variable `k`; it is an error of the program (`badRange`) if there is none. -/
def withIt {α : Type} (s : CodeSlots w) (k : Nat) (f : BitIter w → V w α) : V w α :=
  match s.it k with
  | some x => f x
  | none => ubV .badRange

/-- Run an algorithm and keep the iterator it returns in variable `r`. -/
def keepIt (vs : List BV) (s : CodeSlots w) (r : Nat) (x : M w (BitIter w)) : V w ((List BV × CodeSlots w) × Ans) :=
  onMem x >>= fun y => pure ((vs, s.putIt r y), .unit)

/-- Run a member of vector `i` and keep the iterator it returns in variable `r`. -/
def keepMem (vs : List BV) (s : CodeSlots w) (i r : Nat) (f : BV → V w (BV × BitIter w)) : V w ((List BV × CodeSlots w) × Ans) :=
  withVec vs i fun v => f v >>= fun y => pure ((vs.set i y.1, s.putIt r y.2), .unit)

/-- The modelled code of the call: the algorithms and members of `Model/Algorithms`, `Model/Rotate`, `Model/Shift` and `Model/Vector`. -/
def AtCall.exec (S : ShiftSem w) (P : Policy) (vs : List BV) (s : CodeSlots w) : AtCall w → V w ((List BV × CodeSlots w) × Ans)
  | copy f l d r => withIt s f fun a => withIt s l fun b => withIt s d fun c => keepIt vs s r (BitLib.copy S a b c)
  | move f l d r => withIt s f fun a => withIt s l fun b => withIt s d fun c => keepIt vs s r (BitLib.move S a b c)
  | copyBackward f l d r => withIt s f fun a => withIt s l fun b => withIt s d fun c => keepIt vs s r (BitLib.copyBackward S a b c)
  | fill f l x => withIt s f fun a => withIt s l fun b => onMem (BitLib.fill S a b x) >>= fun _ => pure ((vs, s), .unit)
  | reverse f l => withIt s f fun a => withIt s l fun b => onMem (BitLib.reverse S a b) >>= fun _ => pure ((vs, s), .unit)
  | rotate f m l r => withIt s f fun a => withIt s m fun b => withIt s l fun c => keepIt vs s r (BitLib.rotate S a b c)
  | shiftLeft f l n r => withIt s f fun a => withIt s l fun b => keepIt vs s r (BitLib.shiftLeft S a b (n : Int))
  | shiftRight f l n r => withIt s f fun a => withIt s l fun b => keepIt vs s r (BitLib.shiftRight S a b (n : Int))
  | swapRanges f l d r => withIt s f fun a => withIt s l fun b => withIt s d fun c => keepIt vs s r (BitLib.swapRanges S a b c)
  | transform op _ f l d r => withIt s f fun a => withIt s l fun b => withIt s d fun c => keepIt vs s r (BitLib.transform S op a b c)
  | transform2 op _ f l f2 d r => withIt s f fun a => withIt s l fun b => withIt s f2 fun c => withIt s d fun e =>
      keepIt vs s r (BitLib.transform2 S op a b c e)
  | find f l x r => withIt s f fun a => withIt s l fun b => keepIt vs s r (BitLib.find S a b x)
  | count f l x => withIt s f fun a => withIt s l fun b => onMem (BitLib.count S a b x) >>= fun n => pure ((vs, s), .num n)
  | equal f l f2 => withIt s f fun a => withIt s l fun b => withIt s f2 fun c => onMem (BitLib.equal S a b c) >>= fun x => pure ((vs, s), .bool x)
  | newBits f l => withIt s f fun a => withIt s l fun b => newVec vs (BV.ofBits S P a b) >>= fun vs' => pure ((vs', s), .unit)
  | insert i p x r => withIt s p fun a => keepMem vs s i r fun v => v.insert S P a x
  | insertN i p n x r => withIt s p fun a => keepMem vs s i r fun v => v.insertN S P a n x
  | insertRange i p f l r => withIt s p fun a => withIt s f fun b => withIt s l fun c => keepMem vs s i r fun v => v.insertRange S P a b c
  | erase i p r => withIt s p fun a => keepMem vs s i r fun v => v.erase S a
  | eraseRange i f l r => withIt s f fun a => withIt s l fun b => keepMem vs s i r fun v => v.eraseRange S P a b

/-- The modelled code of one step. `bi` tells whether compiler builtins are used. -/
def KStep.exec (S : ShiftSem w) (P : Policy) (bi : Bool) (vs : List BV) (s : CodeSlots w) : KStep w → V w ((List BV × CodeSlots w) × KAns)
  | iter k i n => withVec vs i fun v => pure ((vs, s.putIt k (v.begin.add (n : Int))), .it .unit)
  | op o => onMem (o.run (ub .badRange) (codeIface S bi) s) >>= fun r => pure ((vs, r.1), .it r.2)
  | call c => c.exec S P vs >>= fun r => pure ((r.1, s), .call r.2)
  | atCall a => a.exec S P vs s >>= fun r => pure (r.1, .call r.2)

/-- A program: it ends with a result, or makes a step and goes on depending on the answer. -/
inductive Keeper (w : Nat) (α : Type) where
  | done (x : α)
  | step (k : KStep w) (next : KAns → Keeper w α)

/-- Running a program. -/
def Keeper.exec {α : Type} (S : ShiftSem w) (P : Policy) (bi : Bool) (vs : List BV) (s : CodeSlots w) : Keeper w α → V w (α × List BV × CodeSlots w)
  | .done x => pure (x, vs, s)
  | .step k next => k.exec S P bi vs s >>= fun r => (next r.2).exec S P bi r.1.1 r.1.2

end BitLib
