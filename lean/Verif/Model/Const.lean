import Verif.Model.Client
/-
Which programs compile: the types of iterators, references and pointers to `const` and to modifiable words.

Types are those of one unsigned word type `W` and of `const W` (`volatile` words are not modelled). A rule says what the declaration of a member and
its body demand of the types, line by line; as a body is checked when the member is used, a rule is a condition on that use. The resolution of
overloads is done by hand: where a template takes an argument exactly it is preferred to a conversion.

The second half gives the same programs a memory that is divided into blocks (arrays, the storage of vectors): an iterator, reference or pointer
belongs to one block, and to access a word of another one through it is undefined, as in C++.
-/
namespace BitLib
variable {w : Nat}

/-- An iterator over words: `W*` or `const W*`, `std::vector<W>::iterator`, `std::vector<W>::const_iterator`. -/
inductive WordIt where
  | ptr (const : Bool)
  | vec
  | cvec
  deriving DecidableEq, Repr

namespace WordIt

/-- The word a `*it` refers to is `const`: `std::iterator_traits<It>::reference` is `W&` or `const W&`. -/
def const : WordIt → Bool
  | ptr c => c
  | vec => false
  | cvec => true

/-- A `b` can be initialised with an `a`: a qualification conversion, or the conversion of a vector's iterator to its constant iterator. -/
def converts : WordIt → WordIt → Bool
  | ptr c, ptr d => !c || d
  | vec, vec | vec, cvec | cvec, cvec => true
  | _, _ => false

/-- `a == b`, `a < b`, `a - b` compile. -/
def comparable : WordIt → WordIt → Bool
  | ptr _, ptr _ => true
  | vec, vec | vec, cvec | cvec, vec | cvec, cvec => true
  | _, _ => false

/-- It is a pointer. -/
def isPtr : WordIt → Bool
  | ptr _ => true
  | _ => false

end WordIt

/-- The type `bit_iterator<It>`; with `top`, `bit_iterator<const It>`. -/
structure ItTy where
  it : WordIt
  top : Bool
  deriving DecidableEq, Repr

namespace ItTy

/-- bit_details.hpp:65-92, bit_iterator.hpp:33-34: `_cv_iterator_traits<Iterator>` asks `std::iterator_traits` for five types. They exist for pointers
and for classes, `const` or not, but not for `W* const`. The two assertions on the types hold in all cases. -/
def wf (t : ItTy) : Bool := !(t.top && t.it.isPtr)

/-- bit_iterator.hpp:39: `word_type` is `const`; it is what `reference` of the iterator refers to (bit_details.hpp:78, 81, 88). -/
def const (t : ItTy) : Bool := t.it.const

end ItTy

/-- The type `bit_reference<W>` or, with `word`, `bit_reference<const W>`; with `obj`, the variable itself is declared `const`. -/
structure RefTy where
  obj : Bool
  word : Bool
  deriving DecidableEq, Repr

/-- bit_vector.hpp:88, `bit_vector::const_iterator`: `bit_iterator<const std::vector<W>::const_iterator>`. -/
def vecConstIt : ItTy := ⟨.cvec, true⟩
/-- bit_vector.hpp:87, `bit_vector::iterator`. -/
def vecIt : ItTy := ⟨.vec, false⟩
/-- bit_vector.hpp:85, `bit_vector::const_reference`: `const bit_reference<W>`. -/
def vecConstRef : RefTy := ⟨true, false⟩

/-- The types of the variables; a type of a pointer is `bit_pointer<W>` (`false`) or `bit_pointer<const W>` (`true`). -/
structure Tys where
  it : Nat → Option ItTy
  ref : Nat → Option RefTy
  ptr : Nat → Option Bool

namespace Tys
variable (Γ : Tys)
def putIt (k : Nat) (t : ItTy) : Tys := { Γ with it := putSlot Γ.it k t }
def putRef (k : Nat) (t : RefTy) : Tys := { Γ with ref := putSlot Γ.ref k t }
def putPtr (k : Nat) (t : Bool) : Tys := { Γ with ptr := putSlot Γ.ptr k t }
end Tys

/-- An operation in a program with types. `op` is one of `IOp`, where the result is put in a new variable declared with `auto`; the others convert to a
type that the program writes down, or assign to a variable. -/
inductive TOp where
  | op (o : IOp)
  | convIt (d i : Nat) (t : ItTy)
  | assignIt (d i : Nat)
  | convRef (d r : Nat) (t : RefTy)
  | convPtr (d p : Nat) (c : Bool)
  | assignPtr (d p : Nat)

/-- What the operation does when it runs: conversions and assignments copy (bit_iterator.hpp:151-159, 187-196; bit_reference.hpp:140-157;
bit_pointer.hpp:145-152, 198-218). -/
def TOp.erase : TOp → IOp
  | op o => o
  | convIt d i _ | assignIt d i => .copyIt d i
  | convRef d r _ => .copyRef d r
  | convPtr d p _ | assignPtr d p => .copyPtr d p

/-- Use the type of a variable; without one the program does not compile. -/
def withTy {α β : Type} (x : Option α) (k : α → Option β) : Option β := x.bind k

/-- `some y` if the demand is met. -/
def demand {β : Type} (b : Bool) (y : β) : Option β := if b then some y else none

/-- The operations of `IOp`: `none` if the operation does not compile with these types, or else the types after it. -/
def IOp.check (Γ : Tys) : IOp → Option Tys
  -- the implicit copy constructor of `bit_iterator`: initialises the members, which `const` allows
  | copyIt d i => withTy (Γ.it i) fun t => some (Γ.putIt d t)
  -- bit_iterator.hpp:292-320: builds a new iterator of the same type from `std::next(_current, diff)`
  | addIt d i _ | subIt d i _ => withTy (Γ.it i) fun t => some (Γ.putIt d t)
  -- bit_iterator.hpp:240-268: `++_current`, `--_current`
  | incIt i | decIt i => withTy (Γ.it i) fun t => demand (!t.top) Γ
  -- bit_iterator.hpp:270-290: a copy, then `++(*this)`, `--(*this)`
  | postIncIt d i | postDecIt d i => withTy (Γ.it i) fun t => demand (!t.top) (Γ.putIt d t)
  -- bit_iterator.hpp:322-340: `*this = *this + n`, the implicit assignment, which is deleted if a member is `const`
  | addAssignIt i _ | subAssignIt i _ => withTy (Γ.it i) fun t => demand (!t.top) Γ
  -- bit_iterator.hpp:388-409: `lhs._current - rhs._current`; line 406 holds as all words have the same width
  | diffIt i j => withTy (Γ.it i) fun t => withTy (Γ.it j) fun u => demand (t.it.comparable u.it) Γ
  -- bit_iterator.hpp:415-477: `lhs._current == rhs._current` and so on
  | cmpIt _ i j => withTy (Γ.it i) fun t => withTy (Γ.it j) fun u => demand (t.it.comparable u.it) Γ
  -- bit_algorithm_details.hpp:29-41: `InputIt` is deduced from both arguments
  | distance i j => withTy (Γ.it i) fun t => withTy (Γ.it j) fun u => demand (t == u) Γ
  -- bit_iterator.hpp:202-209: `reference(*_current, _position)`
  | derefIt r i => withTy (Γ.it i) fun t => some (Γ.putRef r ⟨false, t.const⟩)
  -- bit_iterator.hpp:220-234
  | indexIt r i _ => withTy (Γ.it i) fun t => some (Γ.putRef r ⟨false, t.const⟩)
  -- bit_iterator.hpp:211-218: `pointer(&*_current, _position)`
  | arrowIt p i => withTy (Γ.it i) fun t => some (Γ.putPtr p t.const)
  -- bit_reference.hpp:150-157: the copy constructor; `auto` drops the `const` of the variable
  | copyRef r q => withTy (Γ.ref q) fun t => some (Γ.putRef r ⟨false, t.word⟩)
  -- bit_reference.hpp:276-281: `*_ptr & _mask`, a `const` member
  | read r => withTy (Γ.ref r) fun _ => some Γ
  -- bit_reference.hpp:206-269, 328-363: not `const` members, all end in `*_ptr |= `, `*_ptr &= ` or `*_ptr ^= `
  | upd _ r => withTy (Γ.ref r) fun t => demand (!t.obj && !t.word) Γ
  -- bit_reference.hpp:184-203: a not `const` member, `other ? set() : reset()`; reads `other`
  | assign r q => withTy (Γ.ref r) fun t => withTy (Γ.ref q) fun _ => demand (!t.obj && !t.word) Γ
  -- bit_reference.hpp:401-412: the references are taken by value and both flipped
  | swap r q => withTy (Γ.ref r) fun t => withTy (Γ.ref q) fun u => demand (!t.word && !u.word) Γ
  -- bit_reference.hpp:414-425: the reference is taken by value and flipped
  | swapVal r _ => withTy (Γ.ref r) fun t => demand (!t.word) Γ
  -- bit_reference.hpp:288-293: a `const` member, `bit_pointer<WordType>(_ptr, position())`
  | addressOf p r => withTy (Γ.ref r) fun t => some (Γ.putPtr p t.word)
  -- the implicit copy constructor of `bit_pointer`
  | copyPtr d p => withTy (Γ.ptr p) fun c => some (Γ.putPtr d c)
  -- bit_pointer.hpp:331-359
  | addPtr d p _ | subPtr d p _ => withTy (Γ.ptr p) fun c => some (Γ.putPtr d c)
  -- bit_pointer.hpp:271-307: `++_ref._ptr`, `_ref._mask <<= 1`: the members of `_ref` are not `const`
  | incPtr p | decPtr p => withTy (Γ.ptr p) fun _ => some Γ
  -- bit_pointer.hpp:309-329
  | postIncPtr d p | postDecPtr d p => withTy (Γ.ptr p) fun c => some (Γ.putPtr d c)
  -- bit_pointer.hpp:395-414: `lhs._ref.address() - rhs._ref.address()`
  | diffPtr p q => withTy (Γ.ptr p) fun _ => withTy (Γ.ptr q) fun _ => some Γ
  -- bit_pointer.hpp:420-488
  | cmpPtr _ p q => withTy (Γ.ptr p) fun _ => withTy (Γ.ptr q) fun _ => some Γ
  -- bit_pointer.hpp:236-242: returns `_ref`
  | derefPtr r p => withTy (Γ.ptr p) fun c => some (Γ.putRef r ⟨false, c⟩)
  -- bit_pointer.hpp:252-265
  | indexPtr r p _ => withTy (Γ.ptr p) fun c => some (Γ.putRef r ⟨false, c⟩)

/-- All operations: `none` if the operation does not compile with these types, or else the types after it. -/
def TOp.check (Γ : Tys) : TOp → Option Tys
  | op o => o.check Γ
  -- bit_iterator.hpp:151-159: `_current(other.base())`
  | convIt d i t => withTy (Γ.it i) fun s => demand (t.wf && s.it.converts t.it) (Γ.putIt d t)
  -- bit_iterator.hpp:187-196: for another type the template is chosen, which reads private members of a class that does not name it a friend;
  -- for the same type the implicit assignment, deleted if a member is `const`
  | assignIt d i => withTy (Γ.it d) fun t => withTy (Γ.it i) fun s => demand (s == t && !t.top) Γ
  -- bit_reference.hpp:140-157: `_ptr(other._ptr)`
  | convRef d r t => withTy (Γ.ref r) fun s => demand (!s.word || t.word) (Γ.putRef d t)
  -- bit_pointer.hpp:145-152: `_ref(other._ref)`
  | convPtr d p c => withTy (Γ.ptr p) fun s => demand (!s || c) (Γ.putPtr d c)
  -- bit_pointer.hpp:208-218: the template reads private members of `bit_reference<T>`, which is a friend of `bit_pointer<T>` only (bit_reference.hpp:36)
  | assignPtr d p => withTy (Γ.ptr d) fun t => withTy (Γ.ptr p) fun s => demand (s == t) Γ

/-- A program with types. -/
inductive TClient (α : Type) where
  | done (x : α)
  | call (op : TOp) (next : IAns → TClient α)

/-- The program that runs. -/
def TClient.erase {α : Type} : TClient α → Client α
  | .done x => .done x
  | .call op next => .call op.erase fun a => (next a).erase

/-- The program compiles in the scope of variables of these types: every operation it may reach does. -/
def TClient.Compiles {α : Type} (Γ : Tys) : TClient α → Prop
  | .done _ => True
  | .call op next => ∃ Γ', op.check Γ = some Γ' ∧ ∀ a, (next a).Compiles Γ'

/-! ### Blocks of memory -/

/-- Something that belongs to a block. -/
structure InBlock (α : Type) where
  block : Nat
  val : α

/-- To access the word at `a` through something that belongs to block `b`; `own` says which block a word is in. -/
def accessOk (own : Int → Nat) (b : Nat) (a : Int) : M w Unit := if own a = b then pure () else ub .outOfBounds

/-- Two operands have to belong to the same block. -/
def sameBlock {α β : Type} (x y : InBlock α) (k : M w β) : M w β := if x.block = y.block then k else ub .badRange

def inBlock {α : Type} (b : Nat) (x : M w α) : M w (InBlock α) := x >>= fun v => pure ⟨b, v⟩

def inBlock2 {α : Type} (b : Nat) (x : M w (α × α)) : M w (InBlock α × InBlock α) := x >>= fun v => pure (⟨b, v.1⟩, ⟨b, v.2⟩)

/-- What comparisons of operands of different blocks yield. -/
structure Foreign (w : Nat) where
  it : Cmp → BitIter w → BitIter w → Bool
  ptr : Cmp → BitPtr w → BitPtr w → Except UB Bool

/-- The operations of the library on a memory divided into blocks: those of `codeIface`, where a result belongs to the block of its operand and a word
can be accessed only through something that belongs to its block. What a comparison of operands of different blocks yields is left open (`foreign`);
their difference is undefined. -/
def blockIface (S : ShiftSem w) (bi : Bool) (own : Int → Nat) (foreign : Foreign w) :
    Iface (M w) (InBlock (BitIter w)) (InBlock (BitRef w)) (InBlock (BitPtr w)) :=
  let F := codeIface S bi
  { itAdd := fun x n => inBlock x.block (F.itAdd x.val n)
    itSub := fun x n => inBlock x.block (F.itSub x.val n)
    itInc := fun x => inBlock x.block (F.itInc x.val)
    itDec := fun x => inBlock x.block (F.itDec x.val)
    itPostInc := fun x => inBlock2 x.block (F.itPostInc x.val)
    itPostDec := fun x => inBlock2 x.block (F.itPostDec x.val)
    itAddAssign := fun x n => inBlock x.block (F.itAddAssign x.val n)
    itSubAssign := fun x n => inBlock x.block (F.itSubAssign x.val n)
    itDiff := fun x y => sameBlock x y (F.itDiff x.val y.val)
    itCmp := fun c x y => if x.block = y.block then F.itCmp c x.val y.val else pure (foreign.it c x.val y.val)
    itDistance := fun x y => sameBlock x y (F.itDistance x.val y.val)
    itDeref := fun x => inBlock x.block (F.itDeref x.val)
    itIndex := fun x n => inBlock x.block (F.itIndex x.val n)
    itArrow := fun x => inBlock x.block (F.itArrow x.val)
    refRead := fun x => accessOk own x.block x.val.ptr >>= fun _ => F.refRead x.val
    refUpd := fun u x => accessOk own x.block x.val.ptr >>= fun _ => F.refUpd u x.val
    refAssign := fun x y => accessOk own x.block x.val.ptr >>= fun _ => accessOk own y.block y.val.ptr >>= fun _ => F.refAssign x.val y.val
    refSwap := fun x y => accessOk own x.block x.val.ptr >>= fun _ => accessOk own y.block y.val.ptr >>= fun _ => F.refSwap x.val y.val
    refSwapVal := fun x b => accessOk own x.block x.val.ptr >>= fun _ => F.refSwapVal x.val b
    refAddr := fun x => inBlock x.block (F.refAddr x.val)
    ptrAdd := fun x n => inBlock x.block (F.ptrAdd x.val n)
    ptrSub := fun x n => inBlock x.block (F.ptrSub x.val n)
    ptrInc := fun x => inBlock x.block (F.ptrInc x.val)
    ptrDec := fun x => inBlock x.block (F.ptrDec x.val)
    ptrPostInc := fun x => inBlock2 x.block (F.ptrPostInc x.val)
    ptrPostDec := fun x => inBlock2 x.block (F.ptrPostDec x.val)
    ptrDiff := fun x y => sameBlock x y (F.ptrDiff x.val y.val)
    ptrCmp := fun c x y => if x.block = y.block then F.ptrCmp c x.val y.val else lift (foreign.ptr c x.val y.val)
    ptrDeref := fun x => inBlock x.block (F.ptrDeref x.val)
    ptrIndex := fun x n => inBlock x.block (F.ptrIndex x.val n) }

/-- The variables of a program on a memory divided into blocks. -/
abbrev BlockSlots (w : Nat) := Slots (InBlock (BitIter w)) (InBlock (BitRef w)) (InBlock (BitPtr w))

/-- Running a program on a memory divided into blocks. -/
def Client.blocks {α : Type} (S : ShiftSem w) (bi : Bool) (own : Int → Nat) (foreign : Foreign w) (c : Client α) (s : BlockSlots w) :
    M w (α × BlockSlots w) := c.run (ub .badRange) (blockIface S bi own foreign) s

end BitLib
