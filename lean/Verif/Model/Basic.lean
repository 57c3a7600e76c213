/-
Outcomes, memory and shift semantics shared by the whole model.

A C++ word iterator (`std::vector<W>::iterator`, `W*`) is modelled by the address of the word, an `Int`.
A memory maps word addresses to words; `none` is memory that the program must not access.
-/
namespace BitLib

/-- The ways in which a modelled run can leave the defined part of C++ (each is a distinct outcome). -/
inductive UB where
  /-- load from or store to a word that is not part of any live object -/
  | outOfBounds
  /-- shift count greater than or equal to the width of the promoted left operand -/
  | overshift
  /-- failed `assert` -/
  | assertFail
  /-- a `std::` algorithm was called with `last` before `first` -/
  | badRange
  /-- the fuel of a modelled loop ran out (never happens in a terminating loop) -/
  | outOfFuel
  /-- conversion of a floating point value that does not fit the target integer type -/
  | badConversion
  /-- a compiler builtin was called with an argument for which its result is undefined -/
  | undefinedBuiltin
  /-- signed integer overflow -/
  | signedOverflow
  /-- an aligned vector load or store at an address that is not a multiple of the vector size -/
  | misaligned
  deriving DecidableEq, Repr

/-- Memory of words of width `w`. -/
abbrev Mem (w : Nat) := Int → Option (BitVec w)

/-- Replace the word at address `a`. -/
def Mem.set {w : Nat} (m : Mem w) (a : Int) (x : BitVec w) : Mem w :=
  fun b => if b = a then some x else m b

/-- Programs: state is the memory, errors are undefined behaviour. -/
abbrev M (w : Nat) := StateT (Mem w) (Except UB)

/-- `*it` as an rvalue. -/
def load {w : Nat} (a : Int) : M w (BitVec w) := fun m =>
  match m a with
  | some x => .ok (x, m)
  | none => .error .outOfBounds

/-- `*it = x`. -/
def store {w : Nat} (a : Int) (x : BitVec w) : M w Unit := fun m =>
  match m a with
  | some _ => .ok ((), m.set a x)
  | none => .error .outOfBounds

/-- Leave the defined part of the language. -/
def ub {w : Nat} {α : Type} (e : UB) : M w α := fun _ => .error e

/-- A pure computation that may be undefined, run as a program. -/
def lift {w : Nat} {α : Type} (e : Except UB α) : M w α := fun m =>
  match e with
  | .ok a => .ok (a, m)
  | .error u => .error u

/-- `assert(c)`. -/
def assertM {w : Nat} (c : Prop) [Decidable c] : M w Unit :=
  if c then pure () else ub .assertFail

/--
What the shift operators do for words of width `w`.
`pw` is the width of the type in which C++ evaluates the shift: `uint8_t` and `uint16_t` operands are promoted to
`int` (32 bits), `uint32_t` and `uint64_t` stay as they are. A count `< pw` is defined; `over*` says what happens otherwise.
-/
structure ShiftSem (w : Nat) where
  pw : Nat
  le_pw : w ≤ pw
  overShl : BitVec w → Nat → Except UB (BitVec w)
  overShr : BitVec w → Nat → Except UB (BitVec w)

/-- `x << n`, converted back to the word type. -/
def ShiftSem.shl {w : Nat} (S : ShiftSem w) (x : BitVec w) (n : Nat) : Except UB (BitVec w) :=
  if n < S.pw then .ok (x <<< n) else S.overShl x n

/-- `x >> n`. -/
def ShiftSem.shr {w : Nat} (S : ShiftSem w) (x : BitVec w) (n : Nat) : Except UB (BitVec w) :=
  if n < S.pw then .ok (x >>> n) else S.overShr x n

/-- The C++ rule: an oversized shift is undefined. -/
def ShiftSem.strict {w : Nat} (pw : Nat) (h : w ≤ pw) : ShiftSem w where
  pw := pw
  le_pw := h
  overShl := fun _ _ => .error .overshift
  overShr := fun _ _ => .error .overshift

/-- An oversized shift yields some word, about which nothing is assumed
(this covers every CPU: masking the count as on x86, producing zero as on ARM, ...). -/
def ShiftSem.Lenient {w : Nat} (S : ShiftSem w) : Prop :=
  ∀ (x : BitVec w) (n : Nat), (∃ y, S.overShl x n = .ok y) ∧ (∃ y, S.overShr x n = .ok y)

/-- Shifting by the word width is defined: either the word is narrower than `int`, or `S` is lenient. -/
def ShiftSem.FullShiftOk {w : Nat} (S : ShiftSem w) : Prop := w < S.pw ∨ S.Lenient

/-- Conversion of a signed value to `size_t` (64 bits). Values `≥ 0` are kept as they are; sizes of `2^64` bits and more do
not occur (`Model/Wrap.lean` treats the wrap-around of iterator differences). -/
def toSize (x : Int) : Nat := if 0 ≤ x then x.toNat else (2 ^ 64 + x).toNat

/-- `a - b` in `size_t`: wraps around when `b > a`. -/
def subSize (a b : Nat) : Nat := toSize ((a : Int) - (b : Int))

/-- Shift semantics of the four word types of the library (8, 16, 32, 64 bits), strict. -/
def S8 : ShiftSem 8 := .strict 32 (by decide)
def S16 : ShiftSem 16 := .strict 32 (by decide)
def S32 : ShiftSem 32 := .strict 32 (by decide)
def S64 : ShiftSem 64 := .strict 64 (by decide)

end BitLib
