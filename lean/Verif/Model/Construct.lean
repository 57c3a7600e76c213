import Verif.Model.Compile
import Verif.Model.Vector
/-
Which constructor of `bit_vector<W>` an initialisation calls: the declarations of bit_vector.hpp:94-117 under the rules of the language for
overloaded functions ([over.match], [over.ics.rank], [dcl.init.list]), what the selected constructor demands of its arguments, and its run.

Left out: arguments that are themselves lists in braces, enumerations, floating types, and classes with conversions of their own (to numbers, to
`bool`, to the allocator type). `W` is not `char`, and every bit iterator goes over words of type `W`.
-/
namespace BitLib.Construct
variable {w : Nat}

/-- An integer type other than `bool`; `id` tells types of the same range apart. -/
structure IntTy where
  signed : Bool
  bits : Nat
  id : Nat
  deriving DecidableEq, Repr

/-- The type has this value. -/
def IntTy.has (t : IntTy) (n : Int) : Bool :=
  if t.signed then decide (-(2 ^ (t.bits - 1)) ≤ n ∧ n < 2 ^ (t.bits - 1)) else decide (0 ≤ n ∧ n < 2 ^ t.bits)

/-- Every value of `t` is a value of `u`. -/
def IntTy.fits (t u : IntTy) : Bool :=
  if t.signed then u.signed && decide (t.bits ≤ u.bits) else if u.signed then decide (t.bits < u.bits) else decide (t.bits ≤ u.bits)

/-- The implementation: `W`, `size_t` and `int`; which integer types are promoted to which (`bool` is promoted to `int`); and whether a conversion of a
pointer to `bool` is narrowing (C++20, and as a correction of the earlier standards in newer compilers). -/
structure Lang where
  word : IntTy
  size : IntTy
  int : IntTy
  promotes : IntTy → IntTy → Bool
  ptrNarrows : Bool

/-- What `std::iterator_traits<It>::value_type` is: `bool`, `W`, or another type or none. -/
inductive Elem where
  | bool | word | other
  deriving DecidableEq, Repr

/-- `T` of `std::initializer_list<T>`. -/
inductive ListElem where
  | bit | bool | word
  deriving DecidableEq, Repr

/-- Types of arguments. `charPtr` is `const char*`, also of string literals; `ptr` the other pointers and `iter` iterators that are classes: `k` tells
the types with the same `value_type` apart. `bitRef`: any `bit_reference<T>`. `rvalue` is the value category, which matters for vectors only.
`cls`: any other class. -/
inductive Ty where
  | bool
  | int (t : IntTy)
  | bitValue
  | bitRef (k : Nat)
  | charPtr
  | ptr (e : Elem) (k : Nat)
  | iter (e : Elem) (k : Nat)
  | bitIter (t : ItTy)
  | string
  | stringView
  | alloc
  | vec (rvalue : Bool)
  | list (e : ListElem)
  | cls (k : Nat)
  deriving DecidableEq, Repr

/-- The type deduced for a parameter `RandomAccessIt`. -/
def Ty.decay : Ty → Ty
  | .vec _ => .vec false
  | t => t

/-- Types of parameters; `vecL` and `vecR` are `const bit_vector&` and `const bit_vector&&`. -/
inductive Param where
  | size | bitValue | alloc | vecL | vecR | list (e : ListElem) | stringView
  deriving DecidableEq, Repr

/-! ### Implicit conversions

A sequence is given by how good it is: 0 for a reference to an rvalue bound to an rvalue, 1 for an exact match, 2 for a promotion, 3 for a conversion,
4 for a conversion by a constructor or conversion function, 5 for the same if the result is bound to `const bit_vector&` (and not to
`const bit_vector&&`). -/

/-- To an integer type. -/
def Ty.toInt (L : Lang) (u : IntTy) : Ty → Option Nat
  | .bool => some (if u = L.int then 2 else 3)
  | .int t => some (if t = u then 1 else if L.promotes t u then 2 else 3)
  | _ => none

/-- To `bool`; the conversions of bit_value.hpp:65 and bit_reference.hpp:69 are explicit. -/
def Ty.toBool : Ty → Option Nat
  | .bool => some 1
  | .int _ | .charPtr | .ptr _ _ => some 3
  | _ => none

/-- To `bit_value`: bit_value.hpp:41-46, where the constructors from `bool` and from words are explicit. -/
def Ty.toBitValue : Ty → Option Nat
  | .bitValue => some 1
  | .bitRef _ => some 4
  | _ => none

/-- To a parameter. A vector is also made from a `string_view` or an `initializer_list`, whose constructors are not explicit. -/
def Ty.to (L : Lang) (a : Ty) : Param → Option Nat
  | .size => a.toInt L L.size
  | .bitValue => a.toBitValue
  | .alloc => match a with
    | .alloc => some 1
    | _ => none
  | .vecL => match a with
    | .vec _ => some 1
    | .stringView | .list _ => some 5
    | _ => none
  | .vecR => match a with
    | .vec true => some 0
    | .stringView | .list _ => some 4
    | _ => none
  | .list e => match a with
    | .list e' => if e = e' then some 1 else none
    | _ => none
  | .stringView => match a with
    | .stringView => some 1
    | .string | .charPtr => some 4
    | _ => none

/-! ### The constructors -/

/-- bit_vector.hpp:94-117, in this order. -/
inductive Ctor where
  | default | alloc | countVal | count | bitRange | range | copy | copyAlloc | move | moveAlloc | bitList | boolList | wordList | string
  deriving DecidableEq, Repr

def allCtors : List Ctor :=
  [.default, .alloc, .countVal, .count, .bitRange, .range, .copy, .copyAlloc, .move, .moveAlloc, .bitList, .boolList, .wordList, .string]

/-- The parameters without the trailing `const Allocator& alloc=Allocator()`; those of the two templates are deduced. -/
def Ctor.params : Ctor → List Param
  | default | bitRange | range => []
  | alloc => [.alloc]
  | countVal => [.size, .bitValue]
  | count => [.size]
  | copy => [.vecL]
  | copyAlloc => [.vecL, .alloc]
  | move => [.vecR]
  | moveAlloc => [.vecR, .alloc]
  | bitList => [.list .bit]
  | boolList => [.list .bool]
  | wordList => [.list .word]
  | string => [.stringView]

/-- There is a trailing `const Allocator& alloc=Allocator()`. -/
def Ctor.optAlloc : Ctor → Bool
  | countVal | count | bitRange | range | bitList | boolList | wordList => true
  | _ => false

def Ctor.explicit : Ctor → Bool
  | alloc | count => true
  | _ => false

def Ctor.template : Ctor → Bool
  | bitRange | range => true
  | _ => false

/-- The conversions of the arguments to the parameters, `none` if there are none. -/
def convs (L : Lang) : List Param → List Ty → Option (List Nat)
  | [], [] => some []
  | p :: ps, a :: as => do
    let c ← a.to L p
    let cs ← convs L ps as
    pure (c :: cs)
  | _, _ => none

/-- The same with an optional argument for the allocator. -/
def convsOpt (L : Lang) (opt : Bool) : List Param → List Ty → Option (List Nat)
  | [], [] => some []
  | [], [a] => if opt then convs L [.alloc] [a] else none
  | p :: ps, a :: as => do
    let c ← a.to L p
    let cs ← convsOpt L opt ps as
    pure (c :: cs)
  | _, _ => none

/-- A candidate is viable if it has conversions. Lines 103-112: both templates deduce one type from two arguments. -/
def Ctor.seqs (L : Lang) (args : List Ty) : Ctor → Option (List Nat)
  | bitRange => match args with
    | .bitIter s :: .bitIter t :: as => if s = t then (convsOpt L true [] as).map ([1, 1] ++ ·) else none
    | _ => none
  | range => match args with
    | a :: b :: as => if a.decay = b.decay then (convsOpt L true [] as).map ([1, 1] ++ ·) else none
    | _ => none
  | c => convsOpt L c.optAlloc c.params args

/-- [over.match.best]: no argument has a worse conversion, and one has a better one, or else a function is preferred to a template and
`bit_iterator<It>` is more specialised than `It`. -/
def Ctor.better (L : Lang) (args : List Ty) (c d : Ctor) : Bool :=
  match c.seqs L args, d.seqs L args with
  | some s, some t =>
    (List.zipWith (fun x y => decide (x ≤ y)) s t).all id &&
      ((List.zipWith (fun x y => decide (x < y)) s t).any id || (!c.template && d.template) || (c == .bitRange && d == .range))
  | _, _ => false

/-- Why an initialisation is rejected; `undefined`: the linker finds no definition. -/
inductive Err where
  | noMatch | ambiguous | explicit | narrowing | body | undefined
  deriving DecidableEq, Repr

/-- The best viable of the candidates. -/
def resolve (L : Lang) (cands : List Ctor) (args : List Ty) : Except Err Ctor :=
  let viable := cands.filter fun c => (c.seqs L args).isSome
  match viable.find? fun c => viable.all fun d => c == d || c.better L args d with
  | some c => .ok c
  | none => if viable.isEmpty then .error .noMatch else .error .ambiguous

/-! ### Arguments with their values -/

/-- Where an iterator points to: into a sequence of `bool` or of words, before the element of this number, or elsewhere. -/
inductive Src (w : Nat) where
  | bools (l : List Bool) (pos : Nat)
  | words (l : List (BitVec w)) (pos : Nat)
  | other

def Src.elem : Src w → Elem
  | .bools _ _ => .bool
  | .words _ _ => .word
  | .other => .other

/-- `const` of an integer: the argument is a constant expression. No pointer is null. -/
inductive Arg (w : Nat) where
  | bool (b : Bool)
  | int (t : IntTy) (n : Int) (const : Bool)
  | bitValue (b : Bool)
  | bitRef (k : Nat) (b : Bool)
  | charPtr (s : List Char)
  | ptr (s : Src w) (k : Nat)
  | iter (s : Src w) (k : Nat)
  | bitIter (t : ItTy) (i : BitIter w)
  | string (s : List Char)
  | stringView (s : List Char)
  | alloc
  | vec (rvalue : Bool) (v : BV)
  | listBit (l : List Bool)
  | listBool (l : List Bool)
  | listWord (l : List (BitVec w))
  | cls (k : Nat)

def Arg.ty : Arg w → Ty
  | .bool _ => .bool
  | .int t _ _ => .int t
  | .bitValue _ => .bitValue
  | .bitRef k _ => .bitRef k
  | .charPtr _ => .charPtr
  | .ptr s k => .ptr s.elem k
  | .iter s k => .iter s.elem k
  | .bitIter t _ => .bitIter t
  | .string _ => .string
  | .stringView _ => .stringView
  | .alloc => .alloc
  | .vec r _ => .vec r
  | .listBit _ => .list .bit
  | .listBool _ => .list .bool
  | .listWord _ => .list .word
  | .cls k => .cls k

/-- [dcl.init.list]: the conversion of the argument to the integer type is narrowing. -/
def Arg.narrowsInt (u : IntTy) : Arg w → Bool
  | .int t n c => !(t.fits u || (c && u.has n))
  | _ => false

/-- The conversion of the argument to `bool` is narrowing. -/
def Arg.narrowsBool (L : Lang) : Arg w → Bool
  | .int _ n c => !(c && (n == 0 || n == 1))
  | .ptr _ _ | .charPtr _ => L.ptrNarrows
  | _ => false

/-- The argument converted to `bool`, `W`, `size_t`, `bit_value`. -/
def Arg.asBool : Arg w → Bool
  | .bool b => b
  | .int _ n _ => n != 0
  | _ => true

def Arg.asWord : Arg w → BitVec w
  | .bool b => BitVec.ofNat w b.toNat
  | .int _ n _ => BitVec.ofInt w n
  | _ => 0#w

def Arg.asSize : Arg w → Nat
  | .bool b => b.toNat
  | .int _ n _ => (n % 2 ^ 64).toNat
  | _ => 0

def Arg.asBit : Arg w → Bool
  | .bitValue b | .bitRef _ b => b
  | _ => false

/-! ### Initialisation -/

/-- `bit_vector<W> v(args)`, `v{args}`, `v = {args}`, `v = arg`. -/
inductive Form where
  | paren | brace | eqBrace | eq
  deriving DecidableEq, Repr

/-- How an argument list in braces converts to `initializer_list<T>`: as the worst of the elements. -/
def worst (f : Ty → Option Nat) : List Ty → Option Nat
  | [] => some 1
  | a :: as => do
    let c ← f a
    let d ← worst f as
    pure (max c d)

/-- The element conversion for `initializer_list<T>`. -/
def elemConv (L : Lang) : ListElem → Ty → Option Nat
  | .bit => Ty.toBitValue
  | .bool => Ty.toBool
  | .word => Ty.toInt L L.word

/-- [over.match.list], first phase: the constructors from an `initializer_list`, with the list as the one argument. `none`: none is viable. -/
def resolveList (L : Lang) (args : List Ty) : Option (Except Err ListElem) :=
  let viable := [ListElem.bit, .bool, .word].filterMap fun e => (worst (elemConv L e) args).map fun c => (e, c)
  if viable.isEmpty then none
  else match viable.find? fun x => viable.all fun y => x.1 == y.1 || decide (x.2 < y.2) with
    | some x => some (.ok x.1)
    | none => some (.error .ambiguous)

/-- The selected constructor; `list e`: the one from an `initializer_list<e>` made of all arguments. -/
inductive Sel where
  | ctor (c : Ctor)
  | list (e : ListElem)
  deriving DecidableEq, Repr

/-- The selection. An empty list in braces is the default constructor. `v = arg` considers the constructors that are not explicit and converts the
argument by a constructor or conversion function once only, so not again for the parameter. -/
def select (L : Lang) (f : Form) (args : List (Arg w)) : Except Err Sel :=
  let tys := args.map Arg.ty
  match f with
  | .paren => (resolve L allCtors tys).map .ctor
  | .brace | .eqBrace =>
    if args.isEmpty then .ok (.ctor .default)
    else match resolveList L tys with
      | some (.ok e) => .ok (.list e)
      | some (.error x) => .error x
      | none => (resolve L allCtors tys).map .ctor
  | .eq => match tys with
    | [a] => (resolve L (allCtors.filter fun c => !c.explicit && ((c.seqs L [a]).any fun s => s.all (· < 4))) [a]).map .ctor
    | _ => .error .noMatch

/-- An explicit constructor selected for `= {...}` is an error. -/
def Sel.explicitErr (f : Form) : Sel → Bool
  | .ctor c => f == .eqBrace && c.explicit
  | .list _ => false

/-- In braces no conversion of an argument may be narrowing. -/
def Sel.narrows (L : Lang) (f : Form) (args : List (Arg w)) : Sel → Bool
  | .list .bit => false
  | .list .bool => args.any (Arg.narrowsBool L)
  | .list .word => args.any (Arg.narrowsInt L.word)
  | .ctor c => (f == .brace || f == .eqBrace) && (c == .count || c == .countVal) && (args.head?.any (Arg.narrowsInt L.size))

/-- What the bodies demand.
* 252-258: `for (const_reference b : init)` initialises a `bit_reference<W>` with a `bit_value`, for which bit_reference.hpp:45-51 has no constructor.
* 231-242: one of the functions `range_constructor` (291-328) must accept the iterators.
* 219-228: `copy` must compile.
* 114: declared only. -/
def Sel.bodyErr (args : List (Arg w)) : Sel → Option Err
  | .list .bit | .ctor .bitList => some .body
  | .ctor .range => match args with
    | .ptr s _ :: _ | .iter s _ :: _ => if s.elem = .other then some .body else none
    | _ => some .body
  | .ctor .bitRange => match args with
    | .bitIter t _ :: _ => if rangeConstructorOk t then none else some .body
    | _ => some .body
  | .ctor .copyAlloc => some .undefined
  | _ => none

/-- The initialisation compiles and links, and calls this constructor. -/
def compile (L : Lang) (f : Form) (args : List (Arg w)) : Except Err Sel := do
  let s ← select L f args
  if s.explicitErr f then .error .explicit
  else if s.narrows L f args then .error .narrowing
  else match s.bodyErr args with
    | some e => .error e
    | none => .ok s

/-! ### The run of the constructor -/

/-- `[first, last)` in one sequence; otherwise the range is not valid. -/
def between {α : Type} [DecidableEq α] (l : List α) (p : Nat) (l' : List α) (q : Nat) : V w (List α) :=
  if l = l' ∧ p ≤ q ∧ q ≤ l.length then pure ((l.take q).drop p) else ubV .badRange

/-- Lines 291-328 for the two kinds of sequences. -/
def runRange (S : ShiftSem w) (P : Policy) : Src w → Src w → V w BV
  | .bools l p, .bools l' q => do BV.ofBoolRange S P (← between l p l' q)
  | .words l p, .words l' q => do BV.ofWords P (← between l p l' q)
  | _, _ => ubV .badRange

/-- Lines 248-250 with a `string_view`: a temporary vector is made from it (275-288), copied and destroyed. -/
def ofStringAlloc (S : ShiftSem w) (P : Policy) (s : List Char) : V w BV := do
  let t ← BV.ofString S P s
  let v ← BV.copyOf P t
  t.destroy
  pure v

/-- The constructor as modelled in `Model/Vector`; the allocator is left out (see `Model/Allocs`). The last case does not occur for what compiles. -/
def run (S : ShiftSem w) (P : Policy) : Sel → List (Arg w) → V w BV
  | .list .bool, args => BV.ofBoolList S P (args.map Arg.asBool)
  | .list .word, args => BV.ofWords P (args.map Arg.asWord)
  | .ctor .default, _ | .ctor .alloc, _ => pure BV.default
  | .ctor .countVal, a :: b :: _ => BV.ofCountVal P a.asSize b.asBit
  | .ctor .count, a :: _ => BV.ofCount P a.asSize
  | .ctor .bitRange, .bitIter _ i :: .bitIter _ j :: _ => BV.ofBits S P i j
  | .ctor .range, .ptr s _ :: .ptr t _ :: _ | .ctor .range, .iter s _ :: .iter t _ :: _ => runRange S P s t
  | .ctor .copy, .vec _ v :: _ | .ctor .move, .vec _ v :: _ | .ctor .moveAlloc, .vec _ v :: _ => BV.copyOf P v
  | .ctor .moveAlloc, .stringView s :: _ => ofStringAlloc S P s
  | .ctor .boolList, .listBool l :: _ => BV.ofBoolList S P l
  | .ctor .wordList, .listWord l :: _ => BV.ofWords P l
  | .ctor .string, .charPtr s :: _ | .ctor .string, .string s :: _ | .ctor .string, .stringView s :: _ => BV.ofString S P s
  | _, _ => ubV .assertFail

end BitLib.Construct
