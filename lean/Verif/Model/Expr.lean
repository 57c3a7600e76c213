import Verif.Model.Client
/-
Expressions that mix bits, `bool` and numbers: which of the overloaded operators and members of `bit_value` and `bit_reference<W>` they call
(bit_value.hpp, bit_reference.hpp under the rules of the language for overloaded functions and operators, [over.match], [over.ics.rank],
[over.match.oper], [expr.cond]), whether the bodies of the selected templates compile, and the run of the calls.

An expression `E` is first resolved to a `Core`, in which every call names its function and every operand the conversion it undergoes, and a `Core` is run.

Left out: lists in braces as operands, enumerations, floating types, pointers, other classes, `volatile`, streams, and variables of type `bool` or
of a number type (such operands stand in the expression with their values). `W` is an unsigned type of `w` bits. Operators on numbers alone are those
of the language, which are a parameter (`Arith`). `assert` is enabled.
-/
namespace BitLib.Expr
variable {w : Nat}

/-- A type of numbers: `bool`, `char`, or an integer type by its sign and its digits. -/
inductive ATy where
  | bool
  | char
  | num (signed : Bool) (bits : Nat)
  deriving DecidableEq, Repr

/-- The type and value category of an expression: a number; a `bit_value`; a `bit_reference<W>` or, with `word`, `bit_reference<const W>`; or `void`.
`const`: the object is `const`; `lv`: it is an lvalue. -/
inductive ETy where
  | arith (a : ATy)
  | val (const lv : Bool)
  | ref (const word lv : Bool)
  | void
  deriving DecidableEq, Repr

/-- `==`, `!=`, `<`, `<=`, `>`, `>=`, `&`, `|`, `^`. -/
inductive BOp where
  | cmp (c : Cmp)
  | and | or | xor
  deriving DecidableEq

/-- `=`, `&=`, `|=`, `^=`. -/
inductive AOp where
  | set | and | or | xor
  deriving DecidableEq

/-- The members `set()`, `reset()`, `flip()`. -/
inductive SetOp where
  | set | reset | flip
  deriving DecidableEq

/-- The operators of the language on numbers: the types of the results, and the results. -/
structure Arith where
  binTy : BOp → ATy → ATy → ATy
  bin : BOp → ATy → ATy → Int → Int → Int
  complTy : ATy → ATy
  compl : ATy → Int → Int
  commonTy : ATy → ATy → ATy
  conv : ATy → ATy → Int → Int

/-- Expressions. Where the language leaves the order open, the expression says which operand is evaluated first: `lr` is from left to right; the operands
of assignments are evaluated from right to left, and with `late` the right one is converted to the parameter after the left one is evaluated. -/
inductive E where
  | lit (t : ATy) (n : Int)
  | var (k : Nat)                          -- a variable of type `bit_value`
  | ref (k : Nat)                          -- an expression such as `*it`, `v[i]` or the name of a reference, without side effects
  | initVal (x : E)                        -- `x` in `bit_value b = x`, or as an argument for a parameter `bit_value`
  | initBool (x : E)                       -- the same for `bool`
  | toVal (x : E)                          -- `bit_value(x)`
  | toValPos (lr : Bool) (x p : E)         -- `bit_value(x, p)`
  | toBool (x : E)                         -- `bool(x)`
  | not (x : E)                            -- `!x`
  | compl (x : E)                          -- `~x`
  | land (x y : E) | lor (x y : E)         -- `x && y`, `x || y`
  | cond (x y z : E)                       -- `x ? y : z`
  | comma (x y : E)                        -- `x, y`
  | bin (o : BOp) (lr : Bool) (x y : E)
  | asg (o : AOp) (late : Bool) (x y : E)
  | call (f : SetOp) (x : E)               -- `x.set()`, ...
  | setTo (x y : E)                        -- `x.set(y)`
  | assign (x y : E)                       -- `x.assign(y)`
  | assignPos (lr : Bool) (x y p : E)      -- `x.assign(y, p)`
  | swapWith (x y : E)                     -- `x.swap(y)`
  | swap (lr : Bool) (x y : E)             -- `swap(x, y)`, found in namespace `bit`
  | stdSwap (lr : Bool) (x y : E)          -- `std::swap(x, y)`

/-- The variables in scope: a `bit_value` is `const` or not; an expression for a reference has a type and value category. -/
structure Scope where
  val : Nat → Option Bool
  ref : Nat → Option (Bool × Bool × Bool)

/-! ### Functions and conversions -/

/-- The functions that an expression may call. -/
inductive Fn where
  | friendOp (o : BOp) | friendCompl | builtin (o : BOp) | builtinCompl
  | ctorRef | ctorWord | ctorBool | ctorCopy | ctorMove | ctorPos
  | refAssignSame | refAssignAny | refAssignVal | valAssignCopy | valAssignMove | valAssignRef
  | refOpAssign (o : AOp) | valOpAssign (o : AOp)
  | refSet (f : SetOp) | valSet (f : SetOp) | refSetTo | valSetTo
  | refAssignWord | valAssignWord | refAssignPos | valAssignPos
  | refSwapRef | refSwapVal | valSwapVal | valSwapRef
  | swapRefRef | swapRefVal | swapValRef | stdSwap
  deriving DecidableEq

/-- What happens to an operand on its way to a parameter: nothing (also if a reference is bound to it, or a `bit_reference` is copied); the constructor
`bit_value(bit_reference<T>)`; a copy of a `bit_value`; an rvalue becomes an object that a member may change; conversions of numbers. -/
inductive Conv where
  | none
  | ofRef
  | copy
  | object
  | arith (t : ATy)
  deriving DecidableEq

/-- Types of parameters: `bit_value`, `bit_value&`, `const bit_value&`, `bit_value&&`; the templates `bit_reference<T>`, `const bit_reference<T>&`;
`const bit_reference&` as a member of `bit_reference<W>` or of `bit_reference<const W>`; the templates `WordType` of a constructor of `bit_value` and of
another function; `bool`, another number type; any number (operators of the language); the object a member that is not `const` is called for; `T&`. -/
inductive Param where
  | value | valueL | valueC | valueR
  | anyRef | anyRefC | sameRefC (word : Bool)
  | ctorWord | word
  | bool | arith | number
  | this | anyL
  deriving DecidableEq

/-- The implicit conversion of an operand to a parameter and how good it is: 1 exact, 2 the same for an rvalue bound to `const&` where `&&` is better, 3 a
conversion of numbers, 4 a constructor, 5 the same with the result bound to `const&`. The conversions to `bool` (bit_value.hpp:65, bit_reference.hpp:68) and
the constructors from `bool` and from words (bit_value.hpp:42-44, bit_reference.hpp:48) are explicit; a constructor template does not stand in for the
copy constructor ([class.copy]). -/
def Param.conv : Param → ETy → Option (Nat × Conv)
  | value, .val _ _ => some (1, .copy)
  | value, .ref _ _ _ => some (4, .ofRef)
  | valueL, .val false true => some (1, .none)
  | valueC, .val _ lv => some (if lv then 1 else 2, .none)
  | valueC, .ref _ _ _ => some (5, .ofRef)
  | valueR, .val false false => some (1, .none)
  | valueR, .ref _ _ _ => some (4, .ofRef)
  | anyRef, .ref _ _ _ => some (1, .none)
  | anyRefC, .ref _ _ _ => some (1, .none)
  | sameRefC c, .ref _ u _ => some (if u = c then 1 else 4, .none)
  | ctorWord, .arith _ | ctorWord, .ref _ _ _ => some (1, .none)
  | word, .arith _ | word, .ref _ _ _ => some (1, .none)
  | word, .val _ _ => some (1, .copy)
  | bool, .arith a => some (if a = .bool then 1 else 3, .none)
  | arith, .arith _ => some (3, .none)
  | number, .arith _ => some (1, .none)
  | this, .val false lv => some (1, if lv then .none else .object)
  | this, .ref false _ _ => some (1, .none)
  | anyL, .val false true => some (1, .none)
  | anyL, .ref false _ true => some (1, .none)
  | _, _ => none

/-- A candidate. `level`: 2 for a function, 1 for a template, 0 for a less specialised template. `same`: one type is deduced from all operands. -/
structure Cand where
  fn : Fn
  params : List Param
  level : Nat := 2
  same : Bool := false

def convs : List Param → List ETy → Option (List (Nat × Conv))
  | [], [] => some []
  | p :: ps, t :: ts => do
    let c ← p.conv t
    let cs ← convs ps ts
    pure (c :: cs)
  | _, _ => none

def Cand.seqs (c : Cand) (ts : List ETy) : Option (List (Nat × Conv)) :=
  if c.same && !(ts.all fun t => some t == ts.head?) then none else convs c.params ts

/-- [over.match.best]. -/
def better (c d : Cand × List (Nat × Conv)) : Bool :=
  (List.zipWith (fun x y => decide (x.1 ≤ y.1)) c.2 d.2).all id &&
    ((List.zipWith (fun x y => decide (x.1 < y.1)) c.2 d.2).any id || decide (d.1.level < c.1.level))

/-- bit_details.hpp:41-54, `binary_digits<T>::value` is an error for all but unsigned types, and for `bool` and `char`; `static_assert(binary_digits<T>::value)`. -/
def ETy.digits : ETy → Bool
  | .arith (.num false bits) => decide (0 < bits)
  | _ => false

/-- The words of the reference may be written. -/
def ETy.writable : ETy → Bool
  | .ref _ word _ => !word
  | _ => true

/-- The body of the function compiles, for operands of these types: members of `bit_reference<W>` end in `*_ptr |= `, `*_ptr &= ` or `*_ptr ^= `
(bit_reference.hpp:184-269, 299-363, 401-438), those of `bit_value` that take a `WordType` ask for its digits (bit_value.hpp:173-228), `std::swap` assigns,
and bit_value.hpp:290 compares a `bit_reference` with a `bool`. -/
def Fn.body (f : Fn) (ts : List ETy) : Bool :=
  match f with
  | refAssignSame | refAssignAny | refAssignVal | refOpAssign _ | refSet _ | refSetTo | refAssignWord | refAssignPos => (ts.take 1).all ETy.writable
  | refSwapRef | refSwapVal | swapRefRef | swapRefVal | swapValRef | stdSwap => ts.all ETy.writable
  | ctorWord | ctorPos => (ts.take 1).all ETy.digits
  | valAssignWord | valAssignPos => ((ts.drop 1).take 1).all ETy.digits
  | valSwapRef => false
  | _ => true

/-- The lvalue that a member returning `*this` yields. -/
def ETy.self : ETy → ETy
  | .val _ _ => .val false true
  | .ref _ word _ => .ref false word true
  | t => t

/-- What the function returns. -/
def Fn.ret (A : Arith) (f : Fn) (ts : List ETy) : ETy :=
  match f with
  | friendOp (.cmp _) => .arith .bool
  | friendOp _ | friendCompl | ctorRef | ctorWord | ctorBool | ctorCopy | ctorMove | ctorPos => .val false false
  | builtin o => match ts with
    | [.arith a, .arith b] => .arith (A.binTy o a b)
    | _ => .void
  | builtinCompl => match ts with
    | [.arith a] => .arith (A.complTy a)
    | _ => .void
  | refSwapRef | refSwapVal | valSwapVal | valSwapRef | swapRefRef | swapRefVal | swapValRef | stdSwap => .void
  | _ => match ts with
    | t :: _ => t.self
    | [] => .void

/-- The best viable candidate with the conversions of the operands, if there is one and its body compiles. -/
def resolve (cands : List Cand) (ts : List ETy) : Option (Fn × List Conv) :=
  let viable := cands.filterMap fun c => (c.seqs ts).map fun s => (c, s)
  match viable.find? fun c => viable.all fun d => c.1.fn == d.1.fn || better c d with
  | some c => if c.1.fn.body ts then some (c.1.fn, c.2.map Prod.snd) else none
  | none => none

/-! ### Candidates -/

/-- bit_value.hpp:84-127: the operators that are friends of `bit_value`, and the operators of the language. -/
def opCands (o : BOp) : List Cand := [⟨.friendOp o, [.value, .value], 2, false⟩, ⟨.builtin o, [.number, .number], 2, false⟩]
def complCands : List Cand := [⟨.friendCompl, [.value], 2, false⟩, ⟨.builtinCompl, [.number], 2, false⟩]

/-- bit_value.hpp:40-44, and the implicit copy and move constructors. -/
def ctorCands : List Cand :=
  [⟨.ctorRef, [.anyRef], 1, false⟩, ⟨.ctorWord, [.ctorWord], 0, false⟩, ⟨.ctorBool, [.bool], 2, false⟩, ⟨.ctorCopy, [.valueC], 2, false⟩,
    ⟨.ctorMove, [.valueR], 2, false⟩]
/-- The same without the explicit constructors. For the parameters of a copy or move constructor no second constructor is considered
([over.best.ics]). -/
def initCands : List Cand := [⟨.ctorRef, [.anyRef], 1, false⟩, ⟨.ctorCopy, [.valueC], 2, false⟩, ⟨.ctorMove, [.valueR], 2, false⟩]
/-- bit_value.hpp:45-46. -/
def ctorPosCands : List Cand := [⟨.ctorPos, [.word, .arith], 1, false⟩]

/-- bit_reference.hpp:53-56; bit_value.hpp:50-51 and the implicit assignments of `bit_value`. -/
def asgCands : ETy → List Cand
  | .ref _ word _ => [⟨.refAssignSame, [.this, .sameRefC word], 2, false⟩, ⟨.refAssignAny, [.this, .anyRefC], 1, false⟩, ⟨.refAssignVal, [.this, .value], 2, false⟩]
  | .val _ _ => [⟨.valAssignCopy, [.this, .valueC], 2, false⟩, ⟨.valAssignMove, [.this, .valueR], 2, false⟩, ⟨.valAssignRef, [.this, .anyRef], 1, false⟩]
  | _ => []
/-- bit_reference.hpp:62-64; bit_value.hpp:59-61. -/
def opAsgCands (o : AOp) : ETy → List Cand
  | .ref _ _ _ => [⟨.refOpAssign o, [.this, .value], 2, false⟩]
  | .val _ _ => [⟨.valOpAssign o, [.this, .value], 2, false⟩]
  | _ => []
/-- bit_reference.hpp:83-85; bit_value.hpp:76-78. -/
def setCands (f : SetOp) : ETy → List Cand
  | .ref _ _ _ => [⟨.refSet f, [.this], 2, false⟩]
  | .val _ _ => [⟨.valSet f, [.this], 2, false⟩]
  | _ => []
/-- bit_reference.hpp:82; bit_value.hpp:75. -/
def setToCands : ETy → List Cand
  | .ref _ _ _ => [⟨.refSetTo, [.this, .bool], 2, false⟩]
  | .val _ _ => [⟨.valSetTo, [.this, .bool], 2, false⟩]
  | _ => []
/-- bit_reference.hpp:57; bit_value.hpp:52-53. -/
def assignCands : ETy → List Cand
  | .ref _ _ _ => [⟨.refAssignWord, [.this, .arith], 2, false⟩]
  | .val _ _ => [⟨.valAssignWord, [.this, .word], 1, false⟩]
  | _ => []
/-- bit_reference.hpp:58; bit_value.hpp:54-55. -/
def assignPosCands : ETy → List Cand
  | .ref _ _ _ => [⟨.refAssignPos, [.this, .arith, .arith], 2, false⟩]
  | .val _ _ => [⟨.valAssignPos, [.this, .word, .arith], 1, false⟩]
  | _ => []
/-- bit_reference.hpp:76-78; bit_value.hpp:69-71. -/
def swapWithCands : ETy → List Cand
  | .ref _ _ _ => [⟨.refSwapRef, [.this, .anyRef], 1, false⟩, ⟨.refSwapVal, [.this, .valueL], 2, false⟩]
  | .val _ _ => [⟨.valSwapVal, [.this, .valueL], 2, false⟩, ⟨.valSwapRef, [.this, .anyRef], 1, false⟩]
  | _ => []
/-- bit_reference.hpp:107-121. -/
def swapCands : List Cand :=
  [⟨.swapRefRef, [.anyRef, .anyRef], 1, false⟩, ⟨.swapRefVal, [.anyRef, .valueL], 1, false⟩, ⟨.swapValRef, [.valueL, .anyRef], 1, false⟩]
/-- `std::swap(T&, T&)`, for types that can be moved and assigned. -/
def stdSwapCands : List Cand := [⟨.stdSwap, [.anyL, .anyL], 1, true⟩]

/-! ### Resolution -/

/-- The order in which two operands are evaluated and converted. -/
inductive Ord where
  | lr | rl | rlLate
  deriving DecidableEq

inductive Core where
  | lit (t : ATy) (n : Int)
  | var (k : Nat)
  | ref (k : Nat)
  | call1 (f : Fn) (c : Conv) (x : Core)
  | call2 (f : Fn) (o : Ord) (c d : Conv) (x y : Core)
  | call3 (f : Fn) (lr : Bool) (c d e : Conv) (x y z : Core)
  | toBool (x : Core)
  | not (x : Core)
  | land (x y : Core) | lor (x y : Core)
  | cond (d e : Conv) (x y z : Core)
  | comma (x y : Core)

/-- A call with one, two, three operands, which the candidates are chosen by. -/
def mk1 (A : Arith) (cands : List Cand) (x : Core × ETy) : Option (Core × ETy) :=
  match resolve cands [x.2] with
  | some (f, [c]) => some (.call1 f c x.1, f.ret A [x.2])
  | _ => none
def mk2 (A : Arith) (cands : List Cand) (o : Ord) (x y : Core × ETy) : Option (Core × ETy) :=
  match resolve cands [x.2, y.2] with
  | some (f, [c, d]) => some (.call2 f o c d x.1 y.1, f.ret A [x.2, y.2])
  | _ => none
def mk3 (A : Arith) (cands : List Cand) (lr : Bool) (x y z : Core × ETy) : Option (Core × ETy) :=
  match resolve cands [x.2, y.2, z.2] with
  | some (f, [c, d, e]) => some (.call3 f lr c d e x.1 y.1 z.1, f.ret A [x.2, y.2, z.2])
  | _ => none

def ordOf (lr : Bool) : Ord := if lr then .lr else .rl

/-- A conversion to `bool` as of a condition: a number, or the explicit conversions of bit_value.hpp:65 and bit_reference.hpp:68. -/
def ETy.condition : ETy → Bool
  | .void => false
  | _ => true

/-- [expr.cond]: the type of `x ? y : z` and the conversions of `y` and `z`. Two lvalues of one class stay an lvalue; two operands of one class are copied;
a reference is converted to `bit_value`, but not the other way round; `bit_reference<W>` and `bit_reference<const W>` convert to each other by
bit_reference.hpp:45-46, whose body is not looked at, and this is an error. -/
def condTy (A : Arith) : ETy → ETy → Option (Conv × Conv × ETy)
  | .arith a, .arith b => some (.arith (A.commonTy a b), .arith (A.commonTy a b), .arith (A.commonTy a b))
  | .val c true, .val d true => some (.none, .none, .val (c || d) true)
  | .val c _, .val d _ => some (.copy, .copy, .val (c || d) false)
  | .ref c u l, .ref d v m => if u = v then some (.none, .none, .ref (c || d) u (l && m)) else none
  | .ref _ _ _, .val d _ => some (.ofRef, .copy, .val d false)
  | .val c _, .ref _ _ _ => some (.copy, .ofRef, .val c false)
  | .void, .void => some (.none, .none, .void)
  | _, _ => none

/-- Resolution of an expression: `none` if it does not compile. -/
def E.elab (A : Arith) (Γ : Scope) : E → Option (Core × ETy)
  | .lit t n => some (.lit t n, .arith t)
  | .var k => (Γ.val k).map fun c => (.var k, .val c true)
  | .ref k => (Γ.ref k).map fun t => (.ref k, .ref t.1 t.2.1 t.2.2)
  | .initVal x => do mk1 A initCands (← x.elab A Γ)
  | .initBool x => do
    let x ← x.elab A Γ
    match x.2 with
    | .arith _ => some (.toBool x.1, .arith .bool)
    | _ => none
  | .toVal x => do mk1 A ctorCands (← x.elab A Γ)
  | .toValPos lr x p => do
    let x ← x.elab A Γ
    let p ← p.elab A Γ
    mk2 A ctorPosCands (ordOf lr) x p
  | .toBool x => do
    let x ← x.elab A Γ
    if x.2.condition then some (.toBool x.1, .arith .bool) else none
  | .not x => do
    let x ← x.elab A Γ
    if x.2.condition then some (.not x.1, .arith .bool) else none
  | .compl x => do mk1 A complCands (← x.elab A Γ)
  | .land x y => do
    let x ← x.elab A Γ
    let y ← y.elab A Γ
    if x.2.condition && y.2.condition then some (.land x.1 y.1, .arith .bool) else none
  | .lor x y => do
    let x ← x.elab A Γ
    let y ← y.elab A Γ
    if x.2.condition && y.2.condition then some (.lor x.1 y.1, .arith .bool) else none
  | .cond x y z => do
    let x ← x.elab A Γ
    let y ← y.elab A Γ
    let z ← z.elab A Γ
    if x.2.condition then
      let t ← condTy A y.2 z.2
      some (.cond t.1 t.2.1 x.1 y.1 z.1, t.2.2)
    else none
  | .comma x y => do
    let x ← x.elab A Γ
    let y ← y.elab A Γ
    some (.comma x.1 y.1, y.2)
  | .bin o lr x y => do
    let x ← x.elab A Γ
    let y ← y.elab A Γ
    mk2 A (opCands o) (ordOf lr) x y
  | .asg o late x y => do
    let x ← x.elab A Γ
    let y ← y.elab A Γ
    mk2 A (if o = .set then asgCands x.2 else opAsgCands o x.2) (if late then .rlLate else .rl) x y
  | .call f x => do
    let x ← x.elab A Γ
    mk1 A (setCands f x.2) x
  | .setTo x y => do
    let x ← x.elab A Γ
    let y ← y.elab A Γ
    mk2 A (setToCands x.2) .lr x y
  | .assign x y => do
    let x ← x.elab A Γ
    let y ← y.elab A Γ
    mk2 A (assignCands x.2) .lr x y
  | .assignPos lr x y p => do
    let x ← x.elab A Γ
    let y ← y.elab A Γ
    let p ← p.elab A Γ
    mk3 A (assignPosCands x.2) lr x y p
  | .swapWith x y => do
    let x ← x.elab A Γ
    let y ← y.elab A Γ
    mk2 A (swapWithCands x.2) .lr x y
  | .swap lr x y => do
    let x ← x.elab A Γ
    let y ← y.elab A Γ
    mk2 A swapCands (ordOf lr) x y
  | .stdSwap lr x y => do
    let x ← x.elab A Γ
    let y ← y.elab A Γ
    mk2 A stdSwapCands (ordOf lr) x y

/-! ### Running -/

/-- What an expression yields: a number, an object of type `bit_value`, an rvalue `bit_value`, a `bit_reference`, or nothing. -/
inductive Res (w : Nat) where
  | num (t : ATy) (n : Int)
  | obj (k : Nat)
  | bit (v : BitVal)
  | ref (r : BitRef w)
  | unit

/-- The state has a list of the objects of type `bit_value`, variables and temporary objects, next to the memory. -/
abbrev X (w : Nat) := StateT (List BitVal) (M w)

/-- Not reached after resolution. -/
def stuck {α : Type} : X w α := StateT.lift (ub .badRange)

def getObj (k : Nat) : X w BitVal := do
  let s ← get
  match s[k]? with
  | some v => pure v
  | none => stuck

def putObj (k : Nat) (v : BitVal) : X w Unit := modify fun s => s.set k v

/-- A number converted to `bool`. -/
def truthOf (n : Int) : Bool := decide (n ≠ 0)

/-- A `bool` as a result. -/
def ofBool (b : Bool) : Res w := .num .bool (if b then 1 else 0)

def Conv.apply (A : Arith) : Conv → Res w → X w (Res w)
  | none, v => pure v
  | ofRef, .ref r => do
    let v ← StateT.lift r.toVal
    pure (.bit v)
  | copy, .obj k => do
    let v ← getObj k
    pure (.bit v)
  | copy, .bit v => pure (.bit v)
  | object, .bit v => do
    let s ← get
    set (s ++ [v])
    pure (.obj s.length)
  | arith t, .num u n => pure (.num t (A.conv u t n))
  | _, _ => stuck

/-- A result as a `bool`. -/
def asBool : Res w → X w Bool
  | .num _ n => pure (truthOf n)
  | .obj k => do
    let v ← getObj k
    pure v.toBool
  | .bit v => pure v.toBool
  | .ref r => StateT.lift r.toBool
  | .unit => stuck

/-- The `bit_value` that a reference `const bit_value&`, `bit_value&&` or a parameter `bit_value` has. -/
def asVal : Res w → X w BitVal
  | .obj k => getObj k
  | .bit v => pure v
  | _ => stuck

/-- bit_value.hpp:338-432. -/
def friendRun (a b : BitVal) : BOp → Res w
  | .cmp .eq => ofBool (a.eq b)
  | .cmp .ne => ofBool (a.ne b)
  | .cmp .lt => ofBool (a.lt b)
  | .cmp .le => ofBool (a.le b)
  | .cmp .gt => ofBool (a.gt b)
  | .cmp .ge => ofBool (a.ge b)
  | .and => .bit (a.and b)
  | .or => .bit (a.or b)
  | .xor => .bit (a.xor b)

def valOp (a b : BitVal) : AOp → BitVal
  | .set => b
  | .and => a.andAssign b
  | .or => a.orAssign b
  | .xor => a.xorAssign b

def refOp (r : BitRef w) (b : BitVal) : AOp → M w Unit
  | .set => r.assignVal b
  | .and => r.andAssign b
  | .or => r.orAssign b
  | .xor => r.xorAssign b

def valSetRun (a : BitVal) : SetOp → BitVal
  | .set => a.set
  | .reset => a.reset
  | .flip => a.flip

def refSetRun (r : BitRef w) : SetOp → M w Unit
  | .set => r.set
  | .reset => r.reset
  | .flip => r.flip

/-- The digits of a `WordType`. -/
def ATy.width : ATy → Nat
  | .num _ k => k
  | .char => 8
  | .bool => 1

/-- A number as `size_type`. -/
def asSize (n : Int) : Nat := (n % 2 ^ 64).toNat

/-- The call of a function on its converted operands. -/
def run1 (A : Arith) : Fn → Res w → X w (Res w)
  -- bit_value.hpp:338-344
  | .friendCompl, x => do
    let a ← asVal x
    pure (.bit a.not)
  | .builtinCompl, .num t n => pure (.num (A.complTy t) (A.compl t n))
  -- bit_value.hpp:155-162
  | .ctorRef, .ref r => do
    let v ← StateT.lift r.toVal
    pure (.bit v)
  -- bit_value.hpp:172-180
  | .ctorWord, .num t n => pure (.bit (BitVal.ofWord (BitVec.ofInt t.width n)))
  -- bit_value.hpp:164-170
  | .ctorBool, .num _ n => pure (.bit (BitVal.ofBool (truthOf n)))
  | .ctorCopy, x | .ctorMove, x => do
    let a ← asVal x
    pure (.bit a)
  -- bit_reference.hpp:338-363
  | .refSet f, .ref r => do
    StateT.lift (refSetRun r f)
    pure (.ref r)
  -- bit_value.hpp:310-331
  | .valSet f, .obj k => do
    let a ← getObj k
    putObj k (valSetRun a f)
    pure (.obj k)
  | _, _ => stuck

def run2 (A : Arith) (S : ∀ k, ShiftSem k) : Fn → Res w → Res w → X w (Res w)
  | .friendOp o, x, y => do
    let a ← asVal x
    let b ← asVal y
    pure (friendRun a b o)
  | .builtin o, .num t m, .num u n => pure (.num (A.binTy o t u) (A.bin o t u m n))
  -- bit_value.hpp:182-191
  | .ctorPos, .num t n, .num _ p => do
    let v ← StateT.lift (lift (BitVal.ofWordPos (S t.width) (BitVec.ofInt t.width n) (asSize p)))
    pure (.bit v)
  -- bit_reference.hpp:184-203
  | .refAssignSame, .ref r, .ref s | .refAssignAny, .ref r, .ref s => do
    StateT.lift (r.assignRef s)
    pure (.ref r)
  -- bit_reference.hpp:206-213
  | .refAssignVal, .ref r, y => do
    let b ← asVal y
    StateT.lift (r.assignVal b)
    pure (.ref r)
  | .valAssignCopy, .obj k, y | .valAssignMove, .obj k, y => do
    let b ← asVal y
    putObj k b
    pure (.obj k)
  -- bit_value.hpp:197-205
  | .valAssignRef, .obj k, .ref s => do
    let b ← StateT.lift s.toBool
    putObj k ⟨b⟩
    pure (.obj k)
  -- bit_reference.hpp:242-269
  | .refOpAssign o, .ref r, y => do
    let b ← asVal y
    StateT.lift (refOp r b o)
    pure (.ref r)
  -- bit_value.hpp:235-259
  | .valOpAssign o, .obj k, y => do
    let b ← asVal y
    let a ← getObj k
    putObj k (valOp a b o)
    pure (.obj k)
  -- bit_reference.hpp:328-336
  | .refSetTo, .ref r, .num _ n => do
    StateT.lift (r.setTo (truthOf n))
    pure (.ref r)
  -- bit_value.hpp:301-307
  | .valSetTo, .obj k, .num _ n => do
    let a ← getObj k
    putObj k (a.setTo (truthOf n))
    pure (.obj k)
  -- bit_reference.hpp:216-223
  | .refAssignWord, .ref r, .num _ n => do
    StateT.lift (r.assignWord (BitVec.ofInt w n))
    pure (.ref r)
  -- bit_value.hpp:207-215
  | .valAssignWord, .obj k, .num t n => do
    let a ← getObj k
    putObj k (a.assign (BitVec.ofInt t.width n))
    pure (.obj k)
  -- bit_reference.hpp:300-310, 402-412
  | .refSwapRef, .ref r, .ref s | .swapRefRef, .ref r, .ref s => do
    StateT.lift (BitRef.swap r s)
    pure .unit
  -- bit_reference.hpp:313-322, 415-425
  | .refSwapVal, .ref r, .obj k | .swapRefVal, .ref r, .obj k => do
    let a ← getObj k
    let b ← StateT.lift (BitRef.swapVal r a)
    putObj k b
    pure .unit
  -- bit_reference.hpp:428-438
  | .swapValRef, .obj k, .ref r => do
    let a ← getObj k
    let b ← StateT.lift (BitRef.swapVal r a)
    putObj k b
    pure .unit
  -- bit_value.hpp:277-282, and `std::swap` of two objects: `T tmp = a; a = b; b = tmp;`
  | .valSwapVal, .obj k, .obj l | .stdSwap, .obj k, .obj l => do
    let tmp ← getObj k
    let b ← getObj l
    putObj k b
    putObj l tmp
    pure .unit
  -- the same for two references: `tmp` designates the bit of `a`
  | .stdSwap, .ref a, .ref b => do
    let tmp := a
    StateT.lift (a.assignRef b)
    StateT.lift (b.assignRef tmp)
    pure .unit
  | _, _, _ => stuck

def run3 (S : ∀ k, ShiftSem k) : Fn → Res w → Res w → Res w → X w (Res w)
  -- bit_reference.hpp:226-235
  | .refAssignPos, .ref r, .num _ n, .num _ p => do
    StateT.lift (r.assignWordPos (S w) (BitVec.ofInt w n) (asSize p))
    pure (.ref r)
  -- bit_value.hpp:218-228
  | .valAssignPos, .obj k, .num t n, .num _ p => do
    let a ← getObj k
    let v ← StateT.lift (lift (a.assignPos (S t.width) (BitVec.ofInt t.width n) (asSize p)))
    putObj k v
    pure (.obj k)
  | _, _, _, _ => stuck

/-- The run of a resolved expression; `refs` are the references in scope. Operands are evaluated and converted to the parameter one after the other
([expr.call]); for `land`, `lor`, `cond` only the operands that are needed. -/
def Core.eval (A : Arith) (S : ∀ k, ShiftSem k) (refs : Nat → BitRef w) : Core → X w (Res w)
  | lit t n => pure (.num t n)
  | var k => pure (.obj k)
  | ref k => pure (.ref (refs k))
  | call1 f c x => do
    let a ← x.eval A S refs
    let a ← c.apply A a
    run1 A f a
  | call2 f .lr c d x y => do
    let a ← x.eval A S refs
    let a ← c.apply A a
    let b ← y.eval A S refs
    let b ← d.apply A b
    run2 A S f a b
  | call2 f .rl c d x y => do
    let b ← y.eval A S refs
    let b ← d.apply A b
    let a ← x.eval A S refs
    let a ← c.apply A a
    run2 A S f a b
  | call2 f .rlLate c d x y => do
    let b ← y.eval A S refs
    let a ← x.eval A S refs
    let a ← c.apply A a
    let b ← d.apply A b
    run2 A S f a b
  | call3 f lr c d e x y z => do
    let a ← x.eval A S refs
    let a ← c.apply A a
    if lr then do
      let p ← y.eval A S refs
      let p ← d.apply A p
      let q ← z.eval A S refs
      let q ← e.apply A q
      run3 S f a p q
    else do
      let q ← z.eval A S refs
      let q ← e.apply A q
      let p ← y.eval A S refs
      let p ← d.apply A p
      run3 S f a p q
  | toBool x => do
    let a ← x.eval A S refs
    let b ← asBool a
    pure (ofBool b)
  | not x => do
    let a ← x.eval A S refs
    let b ← asBool a
    pure (ofBool !b)
  | land x y => do
    let a ← x.eval A S refs
    let b ← asBool a
    if b then do
      let a ← y.eval A S refs
      let b ← asBool a
      pure (ofBool b)
    else pure (ofBool false)
  | lor x y => do
    let a ← x.eval A S refs
    let b ← asBool a
    if b then pure (ofBool true)
    else do
      let a ← y.eval A S refs
      let b ← asBool a
      pure (ofBool b)
  | cond d e x y z => do
    let a ← x.eval A S refs
    let b ← asBool a
    if b then do
      let a ← y.eval A S refs
      d.apply A a
    else do
      let a ← z.eval A S refs
      e.apply A a
  | comma x y => do
    let _ ← x.eval A S refs
    y.eval A S refs

end BitLib.Expr
