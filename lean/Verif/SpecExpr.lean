import Verif.Model.Expr
import Verif.SpecRef
/-
What expressions with bits mean, without overloads and conversions: a table of the operands that are allowed, and an evaluation in which a bit is a
`Bool`, a reference is the address of a bit, and the memory is a map of bits.
-/
namespace BitLib.Expr
variable {w : Nat}

/-! ### What compiles -/

/-- A `bit_value` or a `bit_reference`. -/
def ETy.isBit : ETy → Bool
  | .val _ _ | .ref _ _ _ => true
  | _ => false

def ETy.isNum : ETy → Bool
  | .arith _ => true
  | _ => false

/-- A number of an unsigned type other than `bool` and `char`. -/
def ETy.isUnsigned : ETy → Bool
  | .arith (.num false (_ + 1)) => true
  | _ => false

/-- A bit that may be assigned to: neither the object nor the word is `const`. -/
def ETy.modifiable : ETy → Bool
  | .val c _ => !c
  | .ref c word _ => !c && !word
  | _ => false

/-- A `bit_value` that has a name and is not `const`. -/
def ETy.isVariable : ETy → Bool
  | .val c lv => !c && lv
  | _ => false

/-- A `bit_reference<W>`, even if it is itself `const`. -/
def ETy.isRef : ETy → Bool
  | .ref _ word _ => !word
  | _ => false

/-- A `bit_reference` of any kind. -/
def ETy.isAnyRef : ETy → Bool
  | .ref _ _ _ => true
  | _ => false

def ETy.isVal : ETy → Bool
  | .val _ _ => true
  | _ => false

def ETy.isVoid (t : ETy) : Bool := !t.isBit && !t.isNum

/-- What a modifiable bit is after a call that returns it. -/
def ETy.named : ETy → ETy
  | .ref _ word _ => .ref false word true
  | _ => .val false true

/-- The type if the condition holds. -/
def when (b : Bool) (t : ETy) : Option ETy := if b then some t else none

def bitTy : ETy := .val false false
def boolTy : ETy := .arith .bool

def binType (A : Arith) (o : BOp) : ETy → ETy → Option ETy
  | .arith a, .arith b => some (.arith (A.binTy o a b))
  | s, t => when (s.isBit && t.isBit) (match o with
    | .cmp _ => boolTy
    | _ => bitTy)

def condType (A : Arith) : ETy → ETy → Option ETy
  | .arith a, .arith b => some (.arith (A.commonTy a b))
  | .val c l, .val d m => some (.val (c || d) (l && m))
  | .ref c u l, .ref d v m => when (u == v) (.ref (c || d) u (l && m))
  | .ref _ _ _, .val d _ => some (.val d false)
  | .val c _, .ref _ _ _ => some (.val c false)
  | .void, .void => some .void
  | _, _ => none

/-- The type of an expression that compiles. -/
def E.type (A : Arith) (Γ : Scope) : E → Option ETy
  | .lit t _ => some (.arith t)
  | .var k => (Γ.val k).bind fun c => some (.val c true)
  | .ref k => (Γ.ref k).bind fun t => some (.ref t.1 t.2.1 t.2.2)
  | .initVal x => (x.type A Γ).bind fun t => when t.isBit bitTy
  | .initBool x => (x.type A Γ).bind fun t => when t.isNum boolTy
  | .toVal x => (x.type A Γ).bind fun t => when (t.isBit || t == boolTy || t.isUnsigned) bitTy
  | .toValPos _ x p => (x.type A Γ).bind fun t => (p.type A Γ).bind fun u => when (t.isUnsigned && u.isNum) bitTy
  | .toBool x | .not x => (x.type A Γ).bind fun t => when (!t.isVoid) boolTy
  | .compl x => (x.type A Γ).bind fun t => match t with
    | .arith a => some (.arith (A.complTy a))
    | t => when t.isBit bitTy
  | .land x y | .lor x y => (x.type A Γ).bind fun t => (y.type A Γ).bind fun u => when (!t.isVoid && !u.isVoid) boolTy
  | .cond x y z => (x.type A Γ).bind fun t => (y.type A Γ).bind fun u => (z.type A Γ).bind fun v => if t.isVoid then none else condType A u v
  | .comma x y => (x.type A Γ).bind fun _ => (y.type A Γ)
  | .bin o _ x y => (x.type A Γ).bind fun t => (y.type A Γ).bind fun u => binType A o t u
  | .asg _ _ x y => (x.type A Γ).bind fun t => (y.type A Γ).bind fun u => when (t.modifiable && u.isBit) t.named
  | .call _ x => (x.type A Γ).bind fun t => when t.modifiable t.named
  | .setTo x y => (x.type A Γ).bind fun t => (y.type A Γ).bind fun u => when (t.modifiable && u.isNum) t.named
  | .assign x y => (x.type A Γ).bind fun t => (y.type A Γ).bind fun u =>
    when (t.modifiable && (if t.isVal then u.isUnsigned else u.isNum)) t.named
  | .assignPos _ x y p => (x.type A Γ).bind fun t => (y.type A Γ).bind fun u => (p.type A Γ).bind fun v =>
    when (t.modifiable && (if t.isVal then u.isUnsigned else u.isNum) && v.isNum) t.named
  | .swapWith x y => (x.type A Γ).bind fun t => (y.type A Γ).bind fun u =>
    when (t.modifiable && (u.isVariable || (t.isAnyRef && u.isRef))) .void
  | .swap _ x y => (x.type A Γ).bind fun t => (y.type A Γ).bind fun u =>
    when ((t.isRef && (u.isRef || u.isVariable)) || (t.isVariable && u.isRef)) .void
  | .stdSwap _ x y => (x.type A Γ).bind fun t => (y.type A Γ).bind fun u => when (t.modifiable && t == t.named && u == t) .void

/-! ### What it computes -/

/-- What an expression yields: a number, a named bit, an unnamed one, the bit at an address, or nothing. -/
inductive Val where
  | num (t : ATy) (n : Int)
  | obj (k : Nat)
  | bit (b : Bool)
  | ref (a : Int)
  | unit

structure State where
  bits : Int → Option Bool
  objs : List Bool

/-- A computation that ends in an assertion yields `none`. -/
abbrev Comp := StateT State Option

/-- The bit. -/
def Val.get : Val → Comp Bool
  | .num _ n => pure (n != 0)
  | .obj k => fun s => (s.objs[k]?).map fun b => (b, s)
  | .bit b => pure b
  | .ref a => fun s => (s.bits a).map fun b => (b, s)
  | .unit => fun _ => none

/-- Give an unnamed bit a place. -/
def Val.place : Val → Comp Val
  | .bit b => fun s => some (.obj s.objs.length, { s with objs := s.objs ++ [b] })
  | v => pure v

/-- Change the bit. -/
def Val.put (v : Val) (b : Bool) : Comp Unit :=
  match v with
  | .obj k => fun s => some ((), { s with objs := s.objs.set k b })
  | .ref a => fun s => some ((), { s with bits := fun i => if i = a then some b else s.bits i })
  | _ => fun _ => none

/-- An operand that is used for its value: a bit is read now. -/
def Val.value : Val → Comp Val
  | .num t n => pure (.num t n)
  | v => do
    let b ← v.get
    pure (.bit b)

def ofTruth (b : Bool) : Val := .num .bool b.toNat

def cmpBits : Cmp → Bool → Bool → Bool
  | .eq, a, b => a == b
  | .ne, a, b => a != b
  | .lt, a, b => !a && b
  | .le, a, b => !a || b
  | .gt, a, b => a && !b
  | .ge, a, b => a || !b

def binVal (A : Arith) (o : BOp) : Val → Val → Comp Val
  | .num t m, .num u n => pure (.num (A.binTy o t u) (A.bin o t u m n))
  | x, y => do
    let a ← x.get
    let b ← y.get
    pure (match o with
      | .cmp c => ofTruth (cmpBits c a b)
      | .and => .bit (a && b)
      | .or => .bit (a || b)
      | .xor => .bit (a != b))

def AOp.apply : AOp → Bool → Bool → Bool
  | .set, _, b => b
  | .and, a, b => a && b
  | .or, a, b => a || b
  | .xor, a, b => a != b

def SetOp.apply : SetOp → Bool → Bool
  | .set, _ => true
  | .reset, _ => false
  | .flip, a => !a

/-- Bit `p` of the number in two's complement. -/
def intBit (n : Int) (p : Nat) : Bool := n / 2 ^ p % 2 == 1

/-- The number that is converted to the place of a number: its lowest bit, or bit `p` if it exists among `k` bits. -/
def Val.lowBit : Val → Comp Bool
  | .num _ n => pure (intBit n 0)
  | _ => fun _ => none

def Val.bitNo (k : Nat) : Val → Val → Comp Bool
  | .num _ n, .num _ p => fun s => if (p % 2 ^ 64).toNat < k then some (intBit n (p % 2 ^ 64).toNat, s) else none
  | _, _ => fun _ => none

/-- How many bits `assign(y, p)` and `bit_value(y, p)` see: those of `W` for a reference, those of the type of `y` for a `bit_value`. -/
def bitsOf : ETy → Nat
  | .arith (.num _ k) => k
  | _ => 0

/-- When the right operand of an assignment is read: with `&=`, `|=`, `^=`, and if a `bit_value` is assigned to a reference, this may be before
the left operand is evaluated; else it is after. -/
def early (o : AOp) (late : Bool) (left right : Option ETy) : Bool :=
  !late && (o != .set || (left.any ETy.isAnyRef && right.any ETy.isVal))

/-- A value of the operands of `x ? y : z`: the type is a number's, a `bit_value`'s without a name, or else the operand is the result. -/
def Val.as (A : Arith) (t : Option ETy) (v : Val) : Comp Val :=
  match t, v with
  | some (.arith a), .num b n => pure (.num a (A.conv b a n))
  | some (.val _ false), v => v.value
  | _, v => pure v

/-- The evaluation of an expression that compiles, in `w`-bit words; `refs` are the addresses of the bits that the references designate. -/
def E.value (A : Arith) (Γ : Scope) (w : Nat) (refs : Nat → Int) : E → Comp Val
  | .lit t n => pure (.num t n)
  | .var k => pure (.obj k)
  | .ref k => pure (.ref (refs k))
  | .initVal x => do (← x.value A Γ w refs).value
  | .initBool x | .toBool x => do
    let b ← (← x.value A Γ w refs).get
    pure (ofTruth b)
  | .toVal x => do
    let v ← x.value A Γ w refs
    let b ← match x.type A Γ with
      | some (.arith (.num _ _)) => v.lowBit
      | _ => v.get
    pure (.bit b)
  | .toValPos lr x p => do
    let r ← if lr then do
        let v ← x.value A Γ w refs
        let q ← p.value A Γ w refs
        pure (v, q)
      else do
        let q ← p.value A Γ w refs
        let v ← x.value A Γ w refs
        pure (v, q)
    let b ← r.1.bitNo (((x.type A Γ).map bitsOf).getD 0) r.2
    pure (.bit b)
  | .not x => do
    let b ← (← x.value A Γ w refs).get
    pure (ofTruth !b)
  | .compl x => do
    match ← x.value A Γ w refs with
    | .num t n => pure (.num (A.complTy t) (A.compl t n))
    | v => do
      let b ← v.get
      pure (.bit !b)
  | .land x y => do
    let b ← (← x.value A Γ w refs).get
    let c ← if b then do (← y.value A Γ w refs).get else pure false
    pure (ofTruth c)
  | .lor x y => do
    let b ← (← x.value A Γ w refs).get
    let c ← if b then pure true else do (← y.value A Γ w refs).get
    pure (ofTruth c)
  | .cond x y z => do
    let b ← (← x.value A Γ w refs).get
    let v ← if b then y.value A Γ w refs else z.value A Γ w refs
    v.as A ((E.cond x y z).type A Γ)
  | .comma x y => do
    let _ ← x.value A Γ w refs
    y.value A Γ w refs
  | .bin o lr x y =>
    if lr then do
      let a ← (← x.value A Γ w refs).value
      let b ← (← y.value A Γ w refs).value
      binVal A o a b
    else do
      let b ← (← y.value A Γ w refs).value
      let a ← (← x.value A Γ w refs).value
      binVal A o a b
  | .asg o late x y => do
    let v ← y.value A Γ w refs
    let v ← if early o late (x.type A Γ) (y.type A Γ) then v.value else pure v
    let p ← (← x.value A Γ w refs).place
    let b ← v.get
    let a ← p.get
    p.put (o.apply a b)
    pure p
  | .call f x => do
    let p ← (← x.value A Γ w refs).place
    let a ← p.get
    p.put (f.apply a)
    pure p
  | .setTo x y => do
    let p ← (← x.value A Γ w refs).place
    let b ← (← y.value A Γ w refs).get
    p.put b
    pure p
  | .assign x y => do
    let p ← (← x.value A Γ w refs).place
    let b ← (← y.value A Γ w refs).lowBit
    p.put b
    pure p
  | .assignPos lr x y p => do
    let q ← (← x.value A Γ w refs).place
    let r ← if lr then do
        let v ← y.value A Γ w refs
        let i ← p.value A Γ w refs
        pure (v, i)
      else do
        let i ← p.value A Γ w refs
        let v ← y.value A Γ w refs
        pure (v, i)
    let b ← r.1.bitNo (if ((x.type A Γ).any ETy.isVal) then ((y.type A Γ).map bitsOf).getD 0 else w) r.2
    q.put b
    pure q
  | .swapWith x y => do
    let p ← (← x.value A Γ w refs).place
    let q ← y.value A Γ w refs
    let a ← p.get
    let b ← q.get
    p.put b
    q.put a
    pure .unit
  | .swap lr x y => do
    let r ← if lr then do
        let p ← x.value A Γ w refs
        let q ← y.value A Γ w refs
        pure (p, q)
      else do
        let q ← y.value A Γ w refs
        let p ← x.value A Γ w refs
        pure (p, q)
    let a ← r.1.get
    let b ← r.2.get
    r.1.put b
    r.2.put a
    pure .unit
  -- for references the first bit takes the value of the second, which stays as it is
  | .stdSwap lr x y => do
    let r ← if lr then do
        let p ← x.value A Γ w refs
        let q ← y.value A Γ w refs
        pure (p, q)
      else do
        let q ← y.value A Γ w refs
        let p ← x.value A Γ w refs
        pure (p, q)
    let a ← r.1.get
    let b ← r.2.get
    r.1.put b
    r.2.put (if (x.type A Γ).any ETy.isVal then a else b)
    pure .unit

/-- The references in scope designate bits that exist, and the variables are among the objects. -/
structure InScope (Γ : Scope) (refs : Nat → BitRef w) (addrs : Nat → Int) (s : State) : Prop where
  ref : ∀ k t, Γ.ref k = some t → (refs k).At (addrs k) ∧ (s.bits (addrs k)).isSome
  val : ∀ k c, Γ.val k = some c → k < s.objs.length

/-- The code's result is the one that is meant. -/
def Res.Is : Res w → Val → Prop
  | .num t n, .num u m => t = u ∧ n = m
  | .obj k, .obj l => k = l
  | .bit v, .bit b => v.value = b
  | .ref r, .ref a => r.At a
  | .unit, .unit => True
  | _, _ => False

/-- No operand has a side effect. -/
def E.Pure : E → Prop
  | .lit _ _ | .var _ | .ref _ => True
  | .initVal x | .initBool x | .toVal x | .toBool x | .not x | .compl x => x.Pure
  | .toValPos _ x y | .land x y | .lor x y | .comma x y | .bin _ _ x y => x.Pure ∧ y.Pure
  | .cond x y z => x.Pure ∧ y.Pure ∧ z.Pure
  | _ => False

/-- The expression has a call `bit_value(y, p)` or `assign(y, p)`. -/
def E.HasPos : E → Prop
  | .lit _ _ | .var _ | .ref _ => False
  | .toValPos _ _ _ | .assignPos _ _ _ _ => True
  | .initVal x | .initBool x | .toVal x | .toBool x | .not x | .compl x | .call _ x => x.HasPos
  | .land x y | .lor x y | .comma x y | .bin _ _ x y | .asg _ _ x y | .setTo x y | .assign x y | .swapWith x y | .swap _ x y | .stdSwap _ x y => x.HasPos ∨ y.HasPos
  | .cond x y z => x.HasPos ∨ y.HasPos ∨ z.HasPos

/-- The same expression with all flags for the order of operands as `f` says. -/
def E.ordered (f : Bool → Bool) : E → E
  | .initVal x => .initVal (x.ordered f)
  | .initBool x => .initBool (x.ordered f)
  | .toVal x => .toVal (x.ordered f)
  | .toBool x => .toBool (x.ordered f)
  | .not x => .not (x.ordered f)
  | .compl x => .compl (x.ordered f)
  | .toValPos lr x y => .toValPos (f lr) (x.ordered f) (y.ordered f)
  | .land x y => .land (x.ordered f) (y.ordered f)
  | .lor x y => .lor (x.ordered f) (y.ordered f)
  | .comma x y => .comma (x.ordered f) (y.ordered f)
  | .bin o lr x y => .bin o (f lr) (x.ordered f) (y.ordered f)
  | .cond x y z => .cond (x.ordered f) (y.ordered f) (z.ordered f)
  | e => e

end BitLib.Expr
