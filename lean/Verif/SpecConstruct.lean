import Verif.SpecVec
import Verif.Model.Construct
/- What an initialisation of a `bit_vector<W>` builds, read off the shape of its arguments. -/
namespace BitLib.Construct
variable {w : Nat}

/-- What the new vector holds: these bits; `n` times the bit `b`; what another vector or a range of bit iterators holds. -/
inductive Content (w : Nat) where
  | bits (l : List Bool)
  | count (n : Nat) (b : Bool)
  | vec (v : BV)
  | range (first last : BitIter w)

/-- The content is `l`, in the heap before the call. Counts are below `2^32` (C34), and ranges and vectors are valid. -/
def Content.Is (h : Heap w) (l : List Bool) : Content w → Prop
  | bits l' => l = l'
  | count n b => n < 2 ^ 32 ∧ l = List.replicate n b
  | vec v => Rep h v l
  | range i j => HoldsSeq h i j l

/-- The content is `bits`, given that the two positions are in order and in one sequence. -/
def slice? {α : Type} [DecidableEq α] (l : List α) (p : Nat) (l' : List α) (q : Nat) (g : List α → List Bool) : Option (Content w) :=
  if l = l' ∧ p ≤ q ∧ q ≤ l.length then some (.bits (g ((l.take q).drop p))) else none

/-- The number an argument stands for as a count. -/
def Arg.number? : Arg w → Option Nat
  | .bool b => some b.toNat
  | .int _ n _ => some (n % 2 ^ 64).toNat
  | _ => none

/-- The bit an argument stands for where a `bit_value` is wanted: `bool` and numbers are none. -/
def Arg.bit? : Arg w → Option Bool
  | .bitValue b | .bitRef _ b => some b
  | _ => none

/-- Bit iterators over words that are not `const`, and not of the type `bit_iterator<const It>` of `cbegin()`. -/
def Copyable (t : ItTy) : Bool := !t.const && !t.top

/-- What a sequence between two iterators of one type contributes; `some none` if the range is not valid. -/
def between? : Src w → Src w → Except Err (Option (Content w))
  | .bools l p, .bools l' q => .ok (slice? l p l' q id)
  | .words l p, .words l' q => .ok (slice? l p l' q bitsOfWords)
  | _, _ => .error .body

/-- `(a, b)` or, with `al`, `(a, b, alloc)`. -/
def pairContent (a b : Arg w) (al : Bool) : Except Err (Option (Content w)) :=
  if a.ty.decay = b.ty.decay then
    match a, b with
    | .bitIter t i, .bitIter _ j => if Copyable t then .ok (some (.range i j)) else .error .body
    | .ptr s _, .ptr t _ | .iter s _, .iter t _ => between? s t
    | _, _ => .error .body
  else match a.number?, b.bit?, b, al with
    | some n, some x, _, _ => .ok (some (.count n x))
    | some n, none, .alloc, false => .ok (some (.count n false))
    | none, _, .alloc, false => match a with
      | .vec true v => .ok (some (.vec v))
      | .vec false _ => .error .undefined
      | .stringView s => .ok (some (.bits (digitsOf s)))
      | .listBit _ => .error .body
      | .listBool l => .ok (some (.bits l))
      | .listWord l => .ok (some (.bits (bitsOfWords l)))
      | _ => .error .noMatch
    | _, _, _, _ => .error .noMatch

/-- `bit_vector<W> v(args)`: an error, or the content; `none` if the range given is not valid. -/
def parenContent : List (Arg w) → Except Err (Option (Content w))
  | [] => .ok (some (.bits []))
  | [a] => match a with
    | .alloc => .ok (some (.bits []))
    | .bool b => .ok (some (.count b.toNat false))
    | .int _ n _ => .ok (some (.count (n % 2 ^ 64).toNat false))
    | .charPtr s | .string s | .stringView s => .ok (some (.bits (digitsOf s)))
    | .vec _ v => .ok (some (.vec v))
    | .listBit _ => .error .body
    | .listBool l => .ok (some (.bits l))
    | .listWord l => .ok (some (.bits (bitsOfWords l)))
    | _ => .error .noMatch
  | [a, b] => pairContent a b false
  | [a, b, .alloc] => pairContent a b true
  | _ => .error .noMatch

/-- The argument converts to `bool` without a class being involved. -/
def Arg.scalar : Arg w → Bool
  | .bool _ | .int _ _ _ | .charPtr _ | .ptr _ _ => true
  | _ => false

def Arg.isBool : Arg w → Bool
  | .bool _ => true
  | _ => false

def Arg.isPtr : Arg w → Bool
  | .charPtr _ | .ptr _ _ => true
  | _ => false

def Arg.isAlloc : Arg w → Bool
  | .alloc => true
  | _ => false

/-- The argument is a word or is promoted to one. -/
def Arg.isWord (L : Lang) : Arg w → Bool
  | .int t _ _ => t = L.word || L.promotes t L.word
  | _ => false

/-- The arguments in braces (`eq`: after `=`). -/
def braceContent (L : Lang) (eq : Bool) (args : List (Arg w)) : Except Err (Option (Content w)) :=
  if args = [] then .ok (some (.bits []))
  else if args.all fun a => a.bit?.isSome then .error .body
  else if args.all Arg.scalar then
    if args.all Arg.isBool || args.any Arg.isPtr then
      if args.any (Arg.narrowsBool L) then .error .narrowing else .ok (some (.bits (args.map Arg.asBool)))
    else if args.all (Arg.isWord L) then .ok (some (.bits (bitsOfWords (args.map Arg.asWord))))
    else .error .ambiguous
  else match args with
    | [a] => if eq && a.isAlloc then .error .explicit else parenContent args
    | [a, b] =>
      if b.isAlloc && eq && a.number?.isSome then .error .explicit
      else if (b.isAlloc || b.bit?.isSome) && a.narrowsInt L.size then .error .narrowing
      else parenContent args
    | [a, b, c] => if c.isAlloc && b.bit?.isSome && a.narrowsInt L.size then .error .narrowing else parenContent args
    | _ => parenContent args

/-- `bit_vector<W> v = a`. -/
def eqContent : List (Arg w) → Except Err (Option (Content w))
  | [.stringView s] => .ok (some (.bits (digitsOf s)))
  | [.vec _ v] => .ok (some (.vec v))
  | [.listBit _] => .error .body
  | [.listBool l] => .ok (some (.bits l))
  | [.listWord l] => .ok (some (.bits (bitsOfWords l)))
  | _ => .error .noMatch

/-- What the initialisation builds. -/
def content (L : Lang) (f : Form) (args : List (Arg w)) : Except Err (Option (Content w)) :=
  match f with
  | .paren => parenContent args
  | .brace => braceContent L false args
  | .eqBrace => braceContent L true args
  | .eq => eqContent args

/-- An implementation of C++: `W` is unsigned, `int` is not, and promotions keep values. -/
structure Lang.Ok (L : Lang) : Prop where
  word : L.word.signed = false
  int : L.int.signed = true
  promotes : ∀ t u, L.promotes t u = true → t.fits u = true

/-! ### `std::vector<bool>`

The same for `std::vector<bool>`, from its constructors in the standard: `()`, `(a)`, `(n, a)`, `(n, const bool&, a)`, `(first, last, a)` for iterators only,
`(initializer_list<bool>, a)`. `none`: it does not compile. Left out (`none`): ranges of elements other than `bool` and words, ranges of bit iterators,
and `bit_vector`s as arguments. -/

def stdBetween? : Src w → Src w → Option (Option (Content w))
  | .bools l p, .bools l' q => some (slice? l p l' q id)
  | .words l p, .words l' q => some (slice? l p l' q fun ws => ws.map (· != 0#w))
  | _, _ => none

def stdPair (a b : Arg w) (al : Bool) : Option (Option (Content w)) :=
  match a.number?, a, b with
  | some n, _, .alloc => if al then none else some (some (.count n false))
  | some n, _, b => if b.scalar then some (some (.count n b.asBool)) else none
  | none, .ptr s k, .ptr t k' | none, .iter s k, .iter t k' => if k = k' then stdBetween? s t else none
  | none, .listBool l, .alloc => if al then none else some (some (.bits l))
  | _, _, _ => none

def stdParen : List (Arg w) → Option (Option (Content w))
  | [] | [.alloc] => some (some (.bits []))
  | [.bool b] => some (some (.count b.toNat false))
  | [.int _ n _] => some (some (.count (n % 2 ^ 64).toNat false))
  | [.listBool l] => some (some (.bits l))
  | [a, b] => stdPair a b false
  | [a, b, .alloc] => stdPair a b true
  | _ => none

/-- Arguments in braces that all convert to `bool` are the elements. -/
def stdBrace (L : Lang) (eq : Bool) (args : List (Arg w)) : Option (Option (Content w)) :=
  if args = [] then some (some (.bits []))
  else if args.all Arg.scalar then
    if args.any (Arg.narrowsBool L) then none else some (some (.bits (args.map Arg.asBool)))
  else match args with
    | [a] => if eq && a.isAlloc then none else stdParen args
    | [a, b] =>
      if b.isAlloc && eq && a.number?.isSome then none
      else if a.narrowsInt L.size then none else stdParen args
    | [a, b, c] => if a.narrowsInt L.size || (a.number?.isSome && b.narrowsBool L) then none else stdParen args
    | _ => none

def stdContent (L : Lang) (f : Form) (args : List (Arg w)) : Option (Option (Content w)) :=
  match f with
  | .paren => stdParen args
  | .brace => stdBrace L false args
  | .eqBrace => stdBrace L true args
  | .eq => match args with
    | [.listBool l] => some (some (.bits l))
    | _ => none

end BitLib.Construct
