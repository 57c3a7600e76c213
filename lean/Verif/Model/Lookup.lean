import Verif.Model.Compile
import Verif.Model.Expr
import Verif.Model.StdAlg
/-
Which function a call such as `copy(first, last, d)` reaches: the templates of namespace `bit` (copy.hpp, copy_backward.hpp, move.hpp, fill.hpp, find.hpp,
count.hpp, equal.hpp, reverse.hpp, rotate.hpp, shift.hpp, swap_ranges.hpp, transform.hpp, bit_algorithm_details.hpp, bit_reference.hpp), those of the same
name in namespace `std`, and the rules of the language that choose among them: the namespaces that a name is looked up in, including those of the arguments
([basic.lookup.argdep]), deduction ([temp.deduct.call]), the ranking of conversions ([over.ics.rank]) and the order of templates ([temp.deduct.partial]).

Left out: overloads of `std` that no argument of these types matches (execution policies, `std::deque`, stream iterators, arrays, `std::vector<bool>`, the
`std::move` of one argument), other namespaces that are associated with a class of the user's, explicit template arguments, and calls inside a class
that has a member of that name.
-/
namespace BitLib.Lookup

inductive Ns where
  | bit | std
  deriving DecidableEq, Repr

inductive Name where
  | copy | copyBackward | move | fill | find | count | equal | reverse | rotate | shiftLeft | shiftRight | swapRanges | transform | distance | advance | swap
  deriving DecidableEq, Repr

/-- The type of an argument, without `const` and `&`: `bit_iterator<It>`; an iterator over words; another iterator, such as `bool*`
or `std::back_insert_iterator<T>`; `bit_value`; `bit_reference<W>` or, with `word`, `bit_reference<const W>`; a number; something that can be called.
`std`: namespace `std` is associated with the class. -/
inductive Ty where
  | it (t : ItTy)
  | word (i : WordIt)
  | iter (std : Bool) (k : Nat)
  | value
  | ref (word : Bool)
  | num (a : Expr.ATy)
  | fn (std : Bool) (k : Nat)
  deriving DecidableEq, Repr

/-- An rvalue, an lvalue, or an lvalue that is `const`. -/
inductive Cat where
  | rvalue | lvalue | const
  deriving DecidableEq, Repr

structure Arg where
  ty : Ty
  cat : Cat
  deriving DecidableEq, Repr

/-! ### Namespaces -/

/-- [basic.lookup.argdep]: the namespace of a class and those of its template arguments. `std::vector<W>::iterator` is a template with `std::vector<W>` among its
arguments (libstdc++), a pointer has the namespaces of `W`, which are none. -/
def WordIt.std (i : WordIt) : Bool := !i.isPtr

/-- bit_iterator.hpp:28-29, bit_value.hpp:28, bit_reference.hpp:28-29 declare classes of namespace `bit`. -/
def Ty.namespaces : Ty → List Ns
  | .it t => if WordIt.std t.it then [.bit, .std] else [.bit]
  | .word i => if WordIt.std i then [.std] else []
  | .iter std _ | .fn std _ => if std then [.std] else []
  | .value | .ref _ => [.bit]
  | .num _ => []

/-- `bit::f(...)`, `std::f(...)`, or `f(...)` where the name is visible from the listed namespaces: because the call is inside the namespace, or by a `using`. -/
inductive Form where
  | qualified (n : Ns)
  | plain (visible : List Ns)

def Form.namespaces : Form → List Arg → List Ns
  | .qualified n, _ => [n]
  | .plain visible, args => visible ++ args.flatMap fun a => a.ty.namespaces

/-! ### Templates -/

/-- Types of parameters with template parameter number `i`: `T`, `const T&`, `T&`; `bit_iterator<T>`, `bit_iterator<T>&`; `bit_reference<T>`;
`bit_value`, `bit_value&`; `difference_type` of an iterator `T` or `bit_iterator<T>`. -/
inductive Pat where
  | any (i : Nat) | anyC (i : Nat) | anyL (i : Nat)
  | bits (i : Nat) | bitsL (i : Nat)
  | refs (i : Nat)
  | value | valueL
  | diff (i : Nat)
  deriving DecidableEq

/-- A template function. `traits`: parameters that `std::iterator_traits` is asked for in the declaration; `swappable`: parameter 0 has to be
movable and assignable (`std::swap`). -/
structure Tmpl where
  ns : Ns
  params : List Pat
  traits : List Nat := []
  swappable : Bool := false
  deriving DecidableEq

/-- The templates of namespace `bit`. -/
def bitTmpls : Name → List Tmpl
  -- copy.hpp:30-34; copy_backward.hpp:27-31; move.hpp:25-29; equal.hpp:29-34; swap_ranges.hpp:23-27
  | .copy | .copyBackward | .move | .equal | .swapRanges => [⟨.bit, [.bits 0, .bits 0, .bits 1], [], false⟩]
  -- fill.hpp:38-40; find.hpp:33-37; count.hpp:34-40
  | .fill | .find | .count => [⟨.bit, [.bits 0, .bits 0, .value], [], false⟩]
  -- reverse.hpp:27-31; bit_algorithm_details.hpp:29-33
  | .reverse | .distance => [⟨.bit, [.bits 0, .bits 0], [], false⟩]
  -- rotate.hpp:184-189
  | .rotate => [⟨.bit, [.bits 0, .bits 0, .bits 0], [], false⟩]
  -- shift.hpp:46-51, 240-245
  | .shiftLeft | .shiftRight => [⟨.bit, [.bits 0, .bits 0, .diff 0], [], false⟩]
  -- transform.hpp:34-39, 130-136
  | .transform => [⟨.bit, [.bits 0, .bits 0, .bits 0, .any 1], [], false⟩, ⟨.bit, [.bits 0, .bits 0, .bits 0, .bits 0, .any 1], [], false⟩]
  -- bit_algorithm_details.hpp:44-45
  | .advance => [⟨.bit, [.bitsL 0, .any 1], [], false⟩]
  -- bit_reference.hpp:107-121
  | .swap => [⟨.bit, [.refs 0, .refs 1], [], false⟩, ⟨.bit, [.refs 0, .valueL], [], false⟩, ⟨.bit, [.valueL, .refs 0], [], false⟩]

/-- The templates of namespace `std` (not code of the repository): [algorithm.syn], [iterator.synopsis], [utility.syn]. `shift_left` and `shift_right` since C++20. -/
def stdTmpls (cpp20 : Bool) : Name → List Tmpl
  | .copy | .copyBackward | .move | .swapRanges => [⟨.std, [.any 0, .any 0, .any 1], [], false⟩]
  | .fill | .find => [⟨.std, [.any 0, .any 0, .anyC 1], [], false⟩]
  | .count => [⟨.std, [.any 0, .any 0, .anyC 1], [0], false⟩]
  | .equal => [⟨.std, [.any 0, .any 0, .any 1], [], false⟩, ⟨.std, [.any 0, .any 0, .any 1, .any 2], [], false⟩, ⟨.std, [.any 0, .any 0, .any 1, .any 1], [], false⟩,
      ⟨.std, [.any 0, .any 0, .any 1, .any 1, .any 2], [], false⟩]
  | .reverse => [⟨.std, [.any 0, .any 0], [], false⟩]
  | .distance => [⟨.std, [.any 0, .any 0], [0], false⟩]
  | .rotate => [⟨.std, [.any 0, .any 0, .any 0], [], false⟩]
  | .shiftLeft | .shiftRight => if cpp20 then [⟨.std, [.any 0, .any 0, .diff 0], [0], false⟩] else []
  | .transform => [⟨.std, [.any 0, .any 0, .any 1, .any 2], [], false⟩, ⟨.std, [.any 0, .any 0, .any 1, .any 2, .any 3], [], false⟩]
  | .advance => [⟨.std, [.anyL 0, .any 1], [], false⟩]
  | .swap => [⟨.std, [.anyL 0, .anyL 0], [], true⟩]

/-! ### Deduction -/

/-- What a template parameter stands for: the type of the argument, or what a `bit_iterator` or `bit_reference` is made from. -/
inductive Bound where
  | ty (t : Ty) (const : Bool)
  | inIt (t : ItTy)
  | inRef (word : Bool)
  deriving DecidableEq

def Pat.deduce : Pat → Arg → Option (List (Nat × Bound))
  | .any i, a | .anyC i, a => some [(i, .ty a.ty false)]
  | .anyL i, a => match a.cat with
    | .rvalue => none
    | .lvalue => some [(i, .ty a.ty false)]
    | .const => some [(i, .ty a.ty true)]
  | .bits i, a => match a.ty with
    | .it t => some [(i, .inIt t)]
    | _ => none
  | .bitsL i, a => match a.ty, a.cat with
    | .it t, .lvalue => some [(i, .inIt t)]
    | _, _ => none
  | .refs i, a => match a.ty with
    | .ref c => some [(i, .inRef c)]
    | _ => none
  | .value, _ | .valueL, _ | .diff _, _ => some []

/-- Two arguments may not give a parameter two meanings. -/
def merge {α : Type} [DecidableEq α] : List (Nat × α) → List (Nat × α) → Option (List (Nat × α))
  | [], s => some s
  | (i, b) :: r, s => match s.lookup i with
    | none => merge r ((i, b) :: s)
    | some c => if c = b then merge r s else none

def deduceAll : List Pat → List Arg → List (Nat × Bound) → Option (List (Nat × Bound))
  | [], [], s => some s
  | p :: ps, a :: as, s => do
    let d ← p.deduce a
    let s ← merge d s
    deduceAll ps as s
  | _, _, _ => none

/-- `std::iterator_traits<T>` has the types of an iterator. -/
def Bound.iterator : Bound → Bool
  | .ty (.it _) _ | .ty (.word _) false | .ty (.iter _ _) _ => true
  | _ => false

/-- `std::is_move_constructible<T>` and `std::is_move_assignable<T>`: assignment to a `const` object does not compile, nor to a `bit_iterator` with a `const`
member (bit_iterator.hpp:187-196). The declarations of `bit_reference<const W>` do not tell that its assignment cannot be compiled. -/
def Bound.movable : Bound → Bool
  | .ty (.it t) c => !t.top && !c
  | .ty _ c => !c
  | _ => false

/-- How good the conversion of an argument to a parameter is: 1 exact, 3 of numbers, 4 a constructor (`bit_value(bit_reference<T>)`, bit_value.hpp:40-41; those
from `bool` and words are explicit, bit_value.hpp:42-44). -/
def Pat.rank : Pat → Arg → Option Nat
  | .value, a => match a.ty with
    | .value => some 1
    | .ref _ => some 4
    | _ => none
  | .valueL, a => if a = ⟨.value, .lvalue⟩ then some 1 else none
  | .diff _, a => match a.ty with
    | .num n => some (if n = .num true 64 then 1 else 3)
    | _ => none
  | _, _ => some 1

def ranks : List Pat → List Arg → Option (List Nat)
  | [], [] => some []
  | p :: ps, a :: as => do
    let r ← p.rank a
    let rs ← ranks ps as
    pure (r :: rs)
  | _, _ => none

/-- The template is viable: its parameters can be deduced, the declaration makes sense, and the arguments can be converted. -/
def Tmpl.viable (f : Tmpl) (args : List Arg) : Option (List Nat) := do
  let s ← deduceAll f.params args []
  let rs ← ranks f.params args
  if (f.traits.all fun i => (s.lookup i).any Bound.iterator) && (!f.swappable || (s.lookup 0).any Bound.movable) then pure rs else none

/-! ### The order of templates -/

/-- A type with a unique type in place of template parameter `i`, without references and `const` ([temp.deduct.partial]). -/
inductive Uniq where
  | plain (i : Nat) | bits (i : Nat) | refs (i : Nat) | value | diff (i : Nat) | inner (i : Nat)
  deriving DecidableEq

def Pat.uniq : Pat → Uniq
  | .any i | .anyC i | .anyL i => .plain i
  | .bits i | .bitsL i => .bits i
  | .refs i => .refs i
  | .value | .valueL => .value
  | .diff i => .diff i

def Pat.deduceUniq : Pat → Uniq → Option (List (Nat × Uniq))
  | .any i, u | .anyC i, u | .anyL i, u => some [(i, u)]
  | .bits i, .bits j | .bitsL i, .bits j => some [(i, .inner j)]
  | .refs i, .refs j => some [(i, .inner j)]
  | .value, _ | .valueL, _ | .diff _, _ => some []   -- no template parameter, or not deduced: not used
  | _, _ => none

def deduceUniqs : List Pat → List Uniq → List (Nat × Uniq) → Option (List (Nat × Uniq))
  | [], [], s => some s
  | p :: ps, a :: as, s => do
    let d ← p.deduceUniq a
    let s ← merge d s
    deduceUniqs ps as s
  | _, _, _ => none

/-- `f` is at least as specialised as `g`. -/
def Tmpl.atLeast (f g : Tmpl) : Bool := (deduceUniqs g.params (f.params.map Pat.uniq) []).isSome

def Tmpl.moreSpecialised (f g : Tmpl) : Bool := f.atLeast g && !g.atLeast f

/-- [over.match.best], for two templates. -/
def better (c d : Tmpl × List Nat) : Bool :=
  (List.zipWith (fun x y => decide (x ≤ y)) c.2 d.2).all id &&
    ((List.zipWith (fun x y => decide (x < y)) c.2 d.2).any id || c.1.moreSpecialised d.1)

/-- The templates that the name is looked up to. -/
def candidates (cpp20 : Bool) (form : Form) (f : Name) (args : List Arg) : List Tmpl :=
  (if .bit ∈ form.namespaces args then bitTmpls f else []) ++ (if .std ∈ form.namespaces args then stdTmpls cpp20 f else [])

def viables (fs : List Tmpl) (args : List Arg) : List (Tmpl × List Nat) := fs.filterMap fun f => (f.viable args).map fun r => (f, r)

/-- The one that is better than all others. -/
def best (v : List (Tmpl × List Nat)) : Option Tmpl := (v.find? fun c => v.all fun d => decide (c.1 = d.1) || better c d).map Prod.fst

/-- The function that is called; `none` if there is none, or if the call is ambiguous. -/
def callee (cpp20 : Bool) (form : Form) (f : Name) (args : List Arg) : Option Tmpl := best (viables (candidates cpp20 form f args) args)

/-! ### The calls in the headers -/

/-- The unqualified calls with bit iterators in the headers, all inside namespace `bit`, by name and types of arguments: `t` is the type of the iterators of the
caller, `n` that of a number. -/
def ownCalls (t : ItTy) (n : Expr.ATy) : List (Name × List Ty) :=
  [-- bit_vector.hpp:226-227
   (.distance, [.it t, .it t]), (.copy, [.it t, .it t, .it vecIt]),
   -- bit_vector.hpp:511, 528, 550: `cbegin()` and a `const_iterator`; 551, 581-582
   (.distance, [.it vecConstIt, .it vecConstIt]), (.distance, [.it vecIt, .it vecIt]),
   -- bit_vector.hpp:516, 539, 562; 570, 586; 540, 624: `value` is a `const value_type&`, and `value_type` is `bit_value` (line 79); 563
   (.shiftRight, [.it vecIt, .it vecIt, .num n]), (.shiftLeft, [.it vecIt, .it vecIt, .num n]), (.fill, [.it vecIt, .it vecIt, .value]),
   (.copy, [.it vecIt, .it vecIt, .it vecIt]),
   -- copy.hpp:51, 72, 91; copy_backward.hpp:48, 67, 85; move.hpp:46, 67, 86; equal.hpp:50, 67, 87; swap_ranges.hpp:53, 140; transform.hpp:51, 72, 115, 148, 173-174,
   -- 195-196; find.hpp:54; fill.hpp:52, 56; rotate.hpp:39, 77, 240, 246; bit_algorithm_details.hpp:75
   (.advance, [.it t, .num n]),
   -- reverse.hpp:70, 78: `bit_iterator(first.base())`
   (.shiftLeft, [.it ⟨t.it, false⟩, .it ⟨t.it, false⟩, .num n]), (.shiftRight, [.it ⟨t.it, false⟩, .it ⟨t.it, false⟩, .num n]),
   -- rotate.hpp:50, 133, 242; 88, 158, 248; 51-58, 89-97: from an array of words; 120, 141, 146, 169, 174
   (.shiftLeft, [.it t, .it t, .num n]), (.shiftRight, [.it t, .it t, .num n]), (.copy, [.it ⟨.ptr t.const, false⟩, .it ⟨.ptr t.const, false⟩, .it t]),
   (.swapRanges, [.it t, .it t, .it t])]

/-! ### Bodies -/

/-- The body of a function of namespace `bit` compiles for the arguments (`Model/Compile`). `word k`: the operation number `k` can be called with words and
returns a word. -/
def bitBody (cpp20 : Bool) (word : Nat → Bool) : Name → List Ty → Bool
  | .copy, [.it t, _, .it u] => Alg2.copy.compiles t u
  | .copyBackward, [.it t, _, .it u] => Alg2.copyBackward.compiles t u
  | .move, [.it t, _, .it u] => Alg2.move.compiles t u
  | .equal, [.it t, _, .it u] => Alg2.equal.compiles t u
  | .swapRanges, [.it t, _, .it u] => Alg2.swapRanges.compiles t u
  | .fill, .it t :: _ => Alg1.fill.compiles cpp20 t
  | .find, .it t :: _ => Alg1.find.compiles cpp20 t
  | .count, .it t :: _ => Alg1.count.compiles cpp20 t
  | .reverse, .it t :: _ => Alg1.reverse.compiles cpp20 t
  | .rotate, .it t :: _ => Alg1.rotate.compiles cpp20 t
  | .shiftLeft, .it t :: _ => Alg1.shiftLeft.compiles cpp20 t
  | .shiftRight, .it t :: _ => Alg1.shiftRight.compiles cpp20 t
  | .transform, [.it t, _, _, .fn _ k] => Alg1.transformUnary.compiles cpp20 t && word k
  | .transform, [.it t, _, _, _, .fn _ k] => Alg1.transformBinary.compiles cpp20 t && word k
  | .distance, _ => true
  | .advance, [.it t, .num _] => advanceOk t
  -- bit_reference.hpp:401-438: both bits are written
  | .swap, [a, b] => a ≠ .ref true && b ≠ .ref true
  | _, _ => false

/-! ### Loops of the standard library with a reference as the value -/

open BitLib.Std (ask run)

/-- `std::find` with a `bit_reference` as the value, in reference variable 2: `*first == value` reads both (bit_value.hpp:84-87). -/
def findRef : Nat → Client (Option Unit)
  | 0 => .done none
  | n+1 => ask (.cmpIt .ne 0 1) fun c =>
    if c then run (.derefIt 0 0) (ask (.read 0) fun a => ask (.read 2) fun b => if a = b then .done (some ()) else run (.incIt 0) (findRef n))
    else .done (some ())

/-- `std::count`, the same. -/
def countRef : Nat → Int → Client (Option Int)
  | 0, _ => .done none
  | n+1, acc => ask (.cmpIt .ne 0 1) fun c =>
    if c then run (.derefIt 0 0) (ask (.read 0) fun a => ask (.read 2) fun b => run (.incIt 0) (countRef n (if a = b then acc + 1 else acc)))
    else .done (some acc)

/-- `std::fill`: a `bit_reference` is not a scalar type, so the loop is `for (; first != last; ++first) *first = value;` with the parameter itself, and
each assignment reads the bit again (bit_reference.hpp:184-203). -/
def fillRef : Nat → Client (Option Unit)
  | 0 => .done none
  | n+1 => ask (.cmpIt .ne 0 1) fun c =>
    if c then run (.derefIt 0 0) (run (.assign 0 2) (run (.incIt 0) (fillRef n))) else .done (some ())

/-- The variables: a range, and a reference in variable 2. -/
def start {I R P : Type} (first last : I) (value : R) : Slots I R P :=
  ⟨fun k => match k with | 0 => some first | 1 => some last | _ => none, fun k => if k = 2 then some value else none, fun _ => none⟩

/-- The functions of namespace `bit` with a `bit_reference` as the value: the parameter of type `bit_value` is made first (bit_value.hpp:156-162). -/
def fillVal {w : Nat} (S : ShiftSem w) (first last : BitIter w) (r : BitRef w) : M w Unit := do
  let v ← r.toBool
  fill S first last v
def findVal {w : Nat} (S : ShiftSem w) (first last : BitIter w) (r : BitRef w) : M w (BitIter w) := do
  let v ← r.toBool
  find S first last v
def countVal {w : Nat} (S : ShiftSem w) (first last : BitIter w) (r : BitRef w) : M w Int := do
  let v ← r.toBool
  count S first last v

end BitLib.Lookup
