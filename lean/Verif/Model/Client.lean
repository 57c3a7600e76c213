import Verif.Model.IterOps
/-
Code that uses bit iterators, references and pointers through their public operations only, such as the algorithms of the standard library.

Such code keeps iterators, references and pointers in variables (`Slots`), calls operations on them (`IOp`) and decides from the answers what
to do next (`Client`). `Iface` lists the operations; `codeIface` are those of the library.
-/
namespace BitLib
variable {w : Nat}

inductive IAns where
  | unit
  | num (n : Int)
  | bool (b : Bool)
  deriving DecidableEq

inductive Cmp where
  | eq | ne | lt | le | gt | ge
  deriving DecidableEq

/-- An update of one bit that does not involve another one. -/
inductive Upd where
  | set | reset | flip | setTo (b : Bool) | assign (b : Bool) | and (b : Bool) | or (b : Bool) | xor (b : Bool)
  deriving DecidableEq

/-- The operations of iterators `I`, references `R` and pointers `P`. -/
structure Iface (m : Type → Type) (I R P : Type) where
  itAdd : I → Int → m I
  itSub : I → Int → m I
  itInc : I → m I
  itDec : I → m I
  itPostInc : I → m (I × I)
  itPostDec : I → m (I × I)
  itAddAssign : I → Int → m I
  itSubAssign : I → Int → m I
  itDiff : I → I → m Int
  itCmp : Cmp → I → I → m Bool
  itDistance : I → I → m Int
  itDeref : I → m R
  itIndex : I → Int → m R
  itArrow : I → m P
  refRead : R → m Bool
  refUpd : Upd → R → m Unit
  refAssign : R → R → m Unit
  refSwap : R → R → m Unit
  refSwapVal : R → Bool → m Bool
  refAddr : R → m P
  ptrAdd : P → Int → m P
  ptrSub : P → Int → m P
  ptrInc : P → m P
  ptrDec : P → m P
  ptrPostInc : P → m (P × P)
  ptrPostDec : P → m (P × P)
  ptrDiff : P → P → m Int
  ptrCmp : Cmp → P → P → m Bool
  ptrDeref : P → m R
  ptrIndex : P → Int → m R

/-- The six comparisons of iterators (bit_iterator.hpp:415-477). -/
def BitIter.cmp (a b : BitIter w) : Cmp → Bool
  | .eq => a.beq b
  | .ne => a.bne b
  | .lt => a.blt b
  | .le => a.ble b
  | .gt => a.bgt b
  | .ge => a.bge b

/-- The six comparisons of pointers (bit_pointer.hpp:420-488). -/
def BitPtr.cmp (bi : Bool) (a b : BitPtr w) : Cmp → Except UB Bool
  | .eq => BitPtr.eq bi a b
  | .ne => BitPtr.ne bi a b
  | .lt => BitPtr.lt bi a b
  | .le => BitPtr.le bi a b
  | .gt => BitPtr.gt bi a b
  | .ge => BitPtr.ge bi a b

/-- The updates of `bit_reference` (bit_reference.hpp:206-269, 328-363). -/
def BitRef.upd (r : BitRef w) : Upd → M w Unit
  | .set => r.set
  | .reset => r.reset
  | .flip => r.flip
  | .setTo b => r.setTo b
  | .assign b => r.assignVal ⟨b⟩
  | .and b => r.andAssign ⟨b⟩
  | .or b => r.orAssign ⟨b⟩
  | .xor b => r.xorAssign ⟨b⟩

/-- The operations of the library: the definitions of `Model/Iter`, `Model/IterOps` and `Model/Ref`. `bi` tells whether compiler builtins are used. -/
def codeIface (S : ShiftSem w) (bi : Bool) : Iface (M w) (BitIter w) (BitRef w) (BitPtr w) where
  itAdd it n := pure (it.add n)
  itSub it n := pure (it.sub n)
  itInc it := pure it.inc
  itDec it := pure it.dec
  itPostInc it := pure it.postInc
  itPostDec it := pure it.postDec
  itAddAssign it n := pure (it.addAssign n)
  itSubAssign it n := pure (it.subAssign n)
  itDiff a b := pure (a.diff b)
  itCmp c a b := pure (a.cmp b c)
  itDistance a b := distance a b
  itDeref it := lift (it.deref S)
  itIndex it n := lift (it.index S n)
  itArrow it := lift (BitPtr.ofIter S it)
  refRead r := r.toBool
  refUpd u r := r.upd u
  refAssign r s := r.assignRef s
  refSwap r s := BitRef.swap r s
  refSwapVal r b := do
    let v ← BitRef.swapVal r ⟨b⟩
    pure v.value
  refAddr r := lift (BitPtr.ofRef S bi r)
  ptrAdd p n := lift (p.add S bi n)
  ptrSub p n := lift (p.sub S bi n)
  ptrInc p := lift (p.inc S bi)
  ptrDec p := lift (p.dec S bi)
  ptrPostInc p := lift (p.postInc S bi)
  ptrPostDec p := lift (p.postDec S bi)
  ptrDiff p q := lift (BitPtr.diff bi p q)
  ptrCmp c p q := lift (BitPtr.cmp bi p q c)
  ptrDeref p := pure p.deref
  ptrIndex p n := lift (p.index S bi n)

/-- The variables of the code. -/
structure Slots (I R P : Type) where
  it : Nat → Option I
  ref : Nat → Option R
  ptr : Nat → Option P

def putSlot {α : Type} (f : Nat → Option α) (k : Nat) (x : α) : Nat → Option α := fun i => if i = k then some x else f i

/-- One operation; the results of `add`, `deref`, ... go to the variable named first. -/
inductive IOp where
  | copyIt (d i : Nat) | addIt (d i : Nat) (n : Int) | subIt (d i : Nat) (n : Int)
  | incIt (i : Nat) | decIt (i : Nat) | postIncIt (d i : Nat) | postDecIt (d i : Nat) | addAssignIt (i : Nat) (n : Int) | subAssignIt (i : Nat) (n : Int)
  | diffIt (i j : Nat) | cmpIt (c : Cmp) (i j : Nat) | distance (i j : Nat)
  | derefIt (r i : Nat) | indexIt (r i : Nat) (n : Int) | arrowIt (p i : Nat)
  | copyRef (r s : Nat) | read (r : Nat) | upd (u : Upd) (r : Nat) | assign (r s : Nat) | swap (r s : Nat) | swapVal (r : Nat) (b : Bool) | addressOf (p r : Nat)
  | copyPtr (d p : Nat) | addPtr (d p : Nat) (n : Int) | subPtr (d p : Nat) (n : Int)
  | incPtr (p : Nat) | decPtr (p : Nat) | postIncPtr (d p : Nat) | postDecPtr (d p : Nat)
  | diffPtr (p q : Nat) | cmpPtr (c : Cmp) (p q : Nat) | derefPtr (r p : Nat) | indexPtr (r p : Nat) (n : Int)

section
variable {m : Type → Type} [Monad m] {I R P : Type}

namespace Slots
variable (s : Slots I R P)
def putIt (k : Nat) (x : I) : Slots I R P := { s with it := putSlot s.it k x }
def putRef (k : Nat) (x : R) : Slots I R P := { s with ref := putSlot s.ref k x }
def putPtr (k : Nat) (x : P) : Slots I R P := { s with ptr := putSlot s.ptr k x }
end Slots

/-- Use a variable; `undef` if it holds nothing. -/
def useSlot {α β : Type} (undef : m β) (x : Option α) (k : α → m β) : m β :=
  match x with
  | some a => k a
  | none => undef

/-- Run one operation. -/
def IOp.run (undef : m (Slots I R P × IAns)) (F : Iface m I R P) (s : Slots I R P) : IOp → m (Slots I R P × IAns)
  | copyIt d i => useSlot undef (s.it i) fun a => pure (s.putIt d a, .unit)
  | addIt d i n => useSlot undef (s.it i) fun a => F.itAdd a n >>= fun b => pure (s.putIt d b, .unit)
  | subIt d i n => useSlot undef (s.it i) fun a => F.itSub a n >>= fun b => pure (s.putIt d b, .unit)
  | incIt i => useSlot undef (s.it i) fun a => F.itInc a >>= fun b => pure (s.putIt i b, .unit)
  | decIt i => useSlot undef (s.it i) fun a => F.itDec a >>= fun b => pure (s.putIt i b, .unit)
  | postIncIt d i => useSlot undef (s.it i) fun a => F.itPostInc a >>= fun b => pure ((s.putIt i b.2).putIt d b.1, .unit)
  | postDecIt d i => useSlot undef (s.it i) fun a => F.itPostDec a >>= fun b => pure ((s.putIt i b.2).putIt d b.1, .unit)
  | addAssignIt i n => useSlot undef (s.it i) fun a => F.itAddAssign a n >>= fun b => pure (s.putIt i b, .unit)
  | subAssignIt i n => useSlot undef (s.it i) fun a => F.itSubAssign a n >>= fun b => pure (s.putIt i b, .unit)
  | diffIt i j => useSlot undef (s.it i) fun a => useSlot undef (s.it j) fun b => F.itDiff a b >>= fun n => pure (s, .num n)
  | cmpIt c i j => useSlot undef (s.it i) fun a => useSlot undef (s.it j) fun b => F.itCmp c a b >>= fun x => pure (s, .bool x)
  | distance i j => useSlot undef (s.it i) fun a => useSlot undef (s.it j) fun b => F.itDistance a b >>= fun n => pure (s, .num n)
  | derefIt r i => useSlot undef (s.it i) fun a => F.itDeref a >>= fun b => pure (s.putRef r b, .unit)
  | indexIt r i n => useSlot undef (s.it i) fun a => F.itIndex a n >>= fun b => pure (s.putRef r b, .unit)
  | arrowIt p i => useSlot undef (s.it i) fun a => F.itArrow a >>= fun b => pure (s.putPtr p b, .unit)
  | copyRef r q => useSlot undef (s.ref q) fun a => pure (s.putRef r a, .unit)
  | read r => useSlot undef (s.ref r) fun a => F.refRead a >>= fun x => pure (s, .bool x)
  | upd u r => useSlot undef (s.ref r) fun a => F.refUpd u a >>= fun _ => pure (s, .unit)
  | assign r q => useSlot undef (s.ref r) fun a => useSlot undef (s.ref q) fun b => F.refAssign a b >>= fun _ => pure (s, .unit)
  | swap r q => useSlot undef (s.ref r) fun a => useSlot undef (s.ref q) fun b => F.refSwap a b >>= fun _ => pure (s, .unit)
  | swapVal r x => useSlot undef (s.ref r) fun a => F.refSwapVal a x >>= fun y => pure (s, .bool y)
  | addressOf p r => useSlot undef (s.ref r) fun a => F.refAddr a >>= fun b => pure (s.putPtr p b, .unit)
  | copyPtr d p => useSlot undef (s.ptr p) fun a => pure (s.putPtr d a, .unit)
  | addPtr d p n => useSlot undef (s.ptr p) fun a => F.ptrAdd a n >>= fun b => pure (s.putPtr d b, .unit)
  | subPtr d p n => useSlot undef (s.ptr p) fun a => F.ptrSub a n >>= fun b => pure (s.putPtr d b, .unit)
  | incPtr p => useSlot undef (s.ptr p) fun a => F.ptrInc a >>= fun b => pure (s.putPtr p b, .unit)
  | decPtr p => useSlot undef (s.ptr p) fun a => F.ptrDec a >>= fun b => pure (s.putPtr p b, .unit)
  | postIncPtr d p => useSlot undef (s.ptr p) fun a => F.ptrPostInc a >>= fun b => pure ((s.putPtr p b.2).putPtr d b.1, .unit)
  | postDecPtr d p => useSlot undef (s.ptr p) fun a => F.ptrPostDec a >>= fun b => pure ((s.putPtr p b.2).putPtr d b.1, .unit)
  | diffPtr p q => useSlot undef (s.ptr p) fun a => useSlot undef (s.ptr q) fun b => F.ptrDiff a b >>= fun n => pure (s, .num n)
  | cmpPtr c p q => useSlot undef (s.ptr p) fun a => useSlot undef (s.ptr q) fun b => F.ptrCmp c a b >>= fun x => pure (s, .bool x)
  | derefPtr r p => useSlot undef (s.ptr p) fun a => F.ptrDeref a >>= fun b => pure (s.putRef r b, .unit)
  | indexPtr r p n => useSlot undef (s.ptr p) fun a => F.ptrIndex a n >>= fun b => pure (s.putRef r b, .unit)

end

/-- A program: it ends with a result, or calls an operation and goes on depending on the answer. -/
inductive Client (α : Type) where
  | done (x : α)
  | call (op : IOp) (next : IAns → Client α)

/-- Run a program. -/
def Client.run {m : Type → Type} [Monad m] {I R P α : Type} (undef : m (Slots I R P × IAns)) (F : Iface m I R P) (s : Slots I R P) :
    Client α → m (α × Slots I R P)
  | .done x => pure (x, s)
  | .call op next => op.run undef F s >>= fun r => (next r.2).run undef F r.1

/-- Running a program on the library. Using a variable that holds nothing is an error of the program (`badRange`). -/
def Client.code {α : Type} (S : ShiftSem w) (bi : Bool) (c : Client α) (s : Slots (BitIter w) (BitRef w) (BitPtr w)) :
    M w (α × Slots (BitIter w) (BitRef w) (BitPtr w)) := c.run (ub .badRange) (codeIface S bi) s

end BitLib
