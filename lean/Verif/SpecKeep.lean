import Verif.SpecClient
import Verif.Model.Keep
/-
What a program that keeps iterators means: its vectors are lists, and an iterator, reference or pointer is a position in one of them. The rules
that tell which of them stay valid are those of the standard for `std::vector`.
-/
namespace BitLib
variable {w : Nat}

/-- A position of a vector: its number, and the distance from `begin()`. -/
abbrev Loc := Nat × Int

/-- The element at a position. -/
def locBit (ls : List (List Bool)) (p : Loc) : Option Bool := (ls[p.1]?).bind fun l => listTape l p.2

/-- Programs on lists. -/
abbrev LocM := StateT (List (List Bool)) (Except UB)

namespace Loc

def get (p : Loc) : LocM Bool := fun ls =>
  match locBit ls p with
  | some b => .ok (b, ls)
  | none => .error .outOfBounds

def put (p : Loc) (b : Bool) : LocM Unit := fun ls =>
  match locBit ls p with
  | some _ => .ok ((), ls.set p.1 ((Op.at' ls p.1).set p.2.toNat b))
  | none => .error .outOfBounds

/-- Something that is only defined for two positions of one vector. -/
def both {α : Type} (p q : Loc) (x : LocM α) : LocM α := if p.1 = q.1 then x else fun _ => .error .badRange

end Loc

/-- The operations on positions. Differences and comparisons of positions of different vectors are undefined. -/
def locIface : Iface LocM Loc Loc Loc where
  itAdd p n := pure (p.1, p.2 + n)
  itSub p n := pure (p.1, p.2 - n)
  itInc p := pure (p.1, p.2 + 1)
  itDec p := pure (p.1, p.2 - 1)
  itPostInc p := pure (p, (p.1, p.2 + 1))
  itPostDec p := pure (p, (p.1, p.2 - 1))
  itAddAssign p n := pure (p.1, p.2 + n)
  itSubAssign p n := pure (p.1, p.2 - n)
  itDiff p q := Loc.both p q (pure (p.2 - q.2))
  itCmp c p q := Loc.both p q (pure (c.on p.2 q.2))
  itDistance p q := Loc.both p q (if p.2 ≤ q.2 then pure (q.2 - p.2) else fun _ => .error .assertFail)
  itDeref p := pure p
  itIndex p n := pure (p.1, p.2 + n)
  itArrow p := pure p
  refRead p := Loc.get p
  refUpd u p := do
    let b ← Loc.get p
    Loc.put p (u.on b)
  refAssign p q := do
    let b ← Loc.get q
    Loc.put p b
  refSwap p q := do
    let a ← Loc.get p
    let b ← Loc.get q
    Loc.put q a
    Loc.put p b
  refSwapVal p b := do
    let a ← Loc.get p
    Loc.put p b
    pure a
  refAddr p := pure p
  ptrAdd p n := pure (p.1, p.2 + n)
  ptrSub p n := pure (p.1, p.2 - n)
  ptrInc p := pure (p.1, p.2 + 1)
  ptrDec p := pure (p.1, p.2 - 1)
  ptrPostInc p := pure (p, (p.1, p.2 + 1))
  ptrPostDec p := pure (p, (p.1, p.2 - 1))
  ptrDiff p q := Loc.both p q (pure (p.2 - q.2))
  ptrCmp c p q := Loc.both p q (pure (c.on p.2 q.2))
  ptrDeref p := pure p
  ptrIndex p n := pure (p.1, p.2 + n)

/-- The state of a program: the lists, for every vector the number of elements it may have without its storage being replaced, and the variables. -/
structure KState where
  ls : List (List Bool)
  caps : List Nat
  slots : Slots Loc Loc Loc

/-- What a call does to capacities and to positions; `none`: iterators, references and pointers to that position become invalid. -/
structure Fate where
  caps : List Nat
  keep : Loc → Option Loc

namespace Fate

/-- All positions stay valid. -/
def same (caps : List Nat) : Fate := ⟨caps, some⟩

/-- The positions of vector `i` become invalid, and its capacity is `n`. -/
def drop (caps : List Nat) (i n : Nat) : Fate := ⟨caps.set i n, fun p => if p.1 = i then none else some p⟩

/-- Vector `i` gets `n` elements more. -/
def grow (ls : List (List Bool)) (caps : List Nat) (i n : Nat) : Fate :=
  if (Op.at' ls i).length + n ≤ caps.getD i 0 then same caps else drop caps i ((Op.at' ls i).length + n)

end Fate

/-- The rules for the members: growth within the capacity, removal of elements and `reserve` within the capacity keep everything valid; so does
move assignment for the positions of the source, which become positions of the target. (The standard also ends the validity of positions behind
an insertion or removal, because they then denote other elements. Here they stay positions.) -/
def Op.fate (ls : List (List Bool)) (caps : List Nat) : Op w → Fate
  | newEmpty => ⟨caps ++ [0], some⟩
  | newCount n => ⟨caps ++ [n], some⟩
  | newCountVal n _ => ⟨caps ++ [n], some⟩
  | newString s => ⟨caps ++ [(digitsOf s).length], some⟩
  | newBoolRange l => ⟨caps ++ [l.length], some⟩
  | newBoolList l => ⟨caps ++ [l.length], some⟩
  | newWords l => ⟨caps ++ [(bitsOfWords l).length], some⟩
  | newBits _ a b => ⟨caps ++ [b - a], some⟩
  | newCopy j => ⟨caps ++ [(at' ls j).length], some⟩
  | push i _ => Fate.grow ls caps i 1
  | insert i _ _ => Fate.grow ls caps i 1
  | insertN i _ n _ => Fate.grow ls caps i n
  | insertRange i _ _ a b => Fate.grow ls caps i (b - a)
  | pop _ => Fate.same caps
  | erase _ _ => Fate.same caps
  | eraseRange _ _ _ => Fate.same caps
  | clear _ => Fate.same caps
  | set _ _ _ => Fate.same caps
  | shrink _ _ => Fate.same caps
  | reserve i n => if n ≤ caps.getD i 0 then Fate.same caps else Fate.drop caps i (if n < 2 ^ 32 then n else (at' ls i).length)
  | shrinkToFit i => Fate.drop caps i (at' ls i).length
  | copyAssign i j => Fate.drop caps i (at' ls j).length
  | moveAssign i j => ⟨(caps.set i (caps.getD j 0)).set j 0, fun p => if p.1 = j then some (i, p.2) else if p.1 = i then none else some p⟩
  | destroy i => Fate.drop caps i 0

/-- The algorithms and the observers leave every vector where it is. -/
def Call.fate (ls : List (List Bool)) (caps : List Nat) : Call w → Fate
  | vec op => op.fate ls caps
  | _ => Fate.same caps

/-- The variables after a call. -/
def Slots.move (s : Slots Loc Loc Loc) (f : Loc → Option Loc) : Slots Loc Loc Loc :=
  ⟨fun k => (s.it k).bind f, fun k => (s.ref k).bind f, fun k => (s.ptr k).bind f⟩

/-- Where a call leaves an iterator: nowhere; in variable `r`, at the position of vector `i` that it answers; in variable `r`, at position `d` of
vector `i`. -/
inductive Res where
  | none
  | answer (r i : Nat)
  | pos (r i d : Nat)

def Res.put (s : Slots Loc Loc Loc) (ans : Ans) : Res → Slots Loc Loc Loc
  | none => s
  | answer r i => match ans with
    | .pos n => s.putIt r (i, n)
    | _ => s
  | pos r i d => s.putIt r (i, (d : Int))

/-- What the program sees of an answer: iterators are not answered but kept. -/
def Ans.seen : Ans → Ans
  | .pos _ => .unit
  | a => a

/-- The call with iterators from variables is the call with positions. -/
inductive AtCall.Is (t : Slots Loc Loc Loc) : AtCall w → Call w → Res → Prop
  | copy {f l d r i j a b c : Nat} : t.it f = some (j, (a : Int)) → t.it l = some (j, (b : Int)) → t.it d = some (i, (c : Int)) →
      Is t (.copy f l d r) (.copy j a b i c) (.answer r i)
  | move {f l d r i j a b c : Nat} : t.it f = some (j, (a : Int)) → t.it l = some (j, (b : Int)) → t.it d = some (i, (c : Int)) →
      Is t (.move f l d r) (.move j a b i c) (.answer r i)
  | copyBackward {f l d r i j a b c : Nat} : t.it f = some (j, (a : Int)) → t.it l = some (j, (b : Int)) →
      t.it d = some (i, ((c + (b - a) : Nat) : Int)) → Is t (.copyBackward f l d r) (.copyBackward j a b i c) (.answer r i)
  | fill {f l i a b : Nat} {x : Bool} : t.it f = some (i, (a : Int)) → t.it l = some (i, (b : Int)) → Is t (.fill f l x) (.fill i a b x) .none
  | reverse {f l i a b : Nat} : t.it f = some (i, (a : Int)) → t.it l = some (i, (b : Int)) → Is t (.reverse f l) (.reverse i a b) .none
  | rotate {f m l r i a k b : Nat} : t.it f = some (i, (a : Int)) → t.it m = some (i, (k : Int)) → t.it l = some (i, (b : Int)) →
      Is t (.rotate f m l r) (.rotate i a k b) (.answer r i)
  | shiftLeft {f l n r i a b : Nat} : t.it f = some (i, (a : Int)) → t.it l = some (i, (b : Int)) →
      Is t (.shiftLeft f l n r) (.shiftLeft i a b n) (.answer r i)
  | shiftRight {f l n r i a b : Nat} : t.it f = some (i, (a : Int)) → t.it l = some (i, (b : Int)) →
      Is t (.shiftRight f l n r) (.shiftRight i a b n) (.answer r i)
  | swapRanges {f l d r i j a b k : Nat} : t.it f = some (i, (a : Int)) → t.it l = some (i, (b : Int)) → t.it d = some (j, (k : Int)) →
      Is t (.swapRanges f l d r) (.swapRanges i a b j k) (.answer r j)
  | transform {op : BitVec w → BitVec w} {g : Bool → Bool} {f l d r i j a b c : Nat} : t.it f = some (j, (a : Int)) → t.it l = some (j, (b : Int)) →
      t.it d = some (i, (c : Int)) → Is t (.transform op g f l d r) (.transform op g j a b i c) (.answer r i)
  | transform2 {op : BitVec w → BitVec w → BitVec w} {g : Bool → Bool → Bool} {f l f2 d r i j j2 a b c e : Nat} : t.it f = some (j, (a : Int)) →
      t.it l = some (j, (b : Int)) → t.it f2 = some (j2, (c : Int)) → t.it d = some (i, (e : Int)) →
      Is t (.transform2 op g f l f2 d r) (.transform2 op g j a b j2 c i e) (.answer r i)
  | find {f l r i a b : Nat} {x : Bool} : t.it f = some (i, (a : Int)) → t.it l = some (i, (b : Int)) → Is t (.find f l x r) (.find i a b x) (.answer r i)
  | count {f l i a b : Nat} {x : Bool} : t.it f = some (i, (a : Int)) → t.it l = some (i, (b : Int)) → Is t (.count f l x) (.count i a b x) .none
  | equal {f l f2 i j a b c : Nat} : t.it f = some (i, (a : Int)) → t.it l = some (i, (b : Int)) → t.it f2 = some (j, (c : Int)) →
      Is t (.equal f l f2) (.equal i a b j c) .none
  | newBits {f l j a b : Nat} : t.it f = some (j, (a : Int)) → t.it l = some (j, (b : Int)) → Is t (.newBits f l) (.vec (.newBits j a b)) .none
  | insert {i p r d : Nat} {x : Bool} : t.it p = some (i, (d : Int)) → Is t (.insert i p x r) (.vec (.insert i d x)) (.pos r i d)
  | insertN {i p n r d : Nat} {x : Bool} : t.it p = some (i, (d : Int)) → Is t (.insertN i p n x r) (.vec (.insertN i d n x)) (.pos r i d)
  | insertRange {i p f l r j d a b : Nat} : t.it p = some (i, (d : Int)) → t.it f = some (j, (a : Int)) → t.it l = some (j, (b : Int)) →
      Is t (.insertRange i p f l r) (.vec (.insertRange i d j a b)) (.pos r i d)
  | erase {i p r d : Nat} : t.it p = some (i, (d : Int)) → Is t (.erase i p r) (.vec (.erase i d)) (.pos r i d)
  | eraseRange {i f l r a b : Nat} : t.it f = some (i, (a : Int)) → t.it l = some (i, (b : Int)) →
      Is t (.eraseRange i f l r) (.vec (.eraseRange i a b)) (.pos r i a)

/-- One valid step within the limits of the library: state before, step, state after, answer. -/
inductive KStep.Spec (S : ShiftSem w) (st : KState) : KStep w → KState → KAns → Prop
  | iter {k i n : Nat} : i < st.ls.length → Spec S st (.iter k i n) ⟨st.ls, st.caps, st.slots.putIt k (i, (n : Int))⟩ (.it .unit)
  | op {o : IOp} {t : Slots Loc Loc Loc} {a : IAns} {ls : List (List Bool)} :
      o.run (fun _ => .error .badRange) locIface st.slots st.ls = .ok ((t, a), ls) → Spec S st (.op o) ⟨ls, st.caps, t⟩ (.it a)
  | call {c : Call w} {ls : List (List Bool)} {a : Ans} : c.Pre st.ls → c.Lim S st.ls → c.Spec st.ls ls a →
      Spec S st (.call c) ⟨ls, (c.fate st.ls st.caps).caps, st.slots.move (c.fate st.ls st.caps).keep⟩ (.call a)
  | atCall {x : AtCall w} {c : Call w} {r : Res} {ls : List (List Bool)} {a : Ans} : x.Is st.slots c r → c.Pre st.ls → c.Lim S st.ls →
      c.Spec st.ls ls a →
      Spec S st (.atCall x) ⟨ls, (c.fate st.ls st.caps).caps, r.put (st.slots.move (c.fate st.ls st.caps).keep) a⟩ (.call a.seen)

/-- A run of a program. -/
inductive Keeper.Run {α : Type} (S : ShiftSem w) : KState → Keeper w α → KState → α → Prop
  | done {st : KState} {x : α} : Run S st (.done x) st x
  | step {st st1 st2 : KState} {k : KStep w} {next : KAns → Keeper w α} {a : KAns} {x : α} : k.Spec S st st1 a → Run S st1 (next a) st2 x →
      Run S st (.step k next) st2 x

/-- Position `p` of the program is the bit with address `a`. -/
def LocAt (w : Nat) (vs : List BV) (p : Loc) (a : Int) : Prop := ∃ v, vs[p.1]? = some v ∧ a = v.vec.ptr * (w : Int) + p.2

/-- The positions `l` are at the addresses `t`. -/
structure SlotsLoc (w : Nat) (vs : List BV) (l : Slots Loc Loc Loc) (t : Slots Int Int Int) : Prop where
  it : ∀ k p, l.it k = some p → ∃ a, t.it k = some a ∧ LocAt w vs p a
  ref : ∀ k p, l.ref k = some p → ∃ a, t.ref k = some a ∧ LocAt w vs p a
  ptr : ∀ k p, l.ptr k = some p → ∃ a, t.ptr k = some a ∧ LocAt w vs p a

/-- The vectors have at least these capacities. -/
def CapsOk (w : Nat) (vs : List BV) (caps : List Nat) : Prop :=
  caps.length = vs.length ∧ ∀ (i : Nat) (v : BV) (c : Nat), vs[i]? = some v → caps[i]? = some c → c ≤ v.capacity w

/-- The program on the library is in the given state: the vectors hold the lists, and every variable with a valid iterator, reference or pointer
holds the one to that bit. -/
structure KeepOk (h : Heap w) (vs : List BV) (s : CodeSlots w) (st : KState) : Prop where
  env : EnvOk h vs st.ls
  caps : CapsOk w vs st.caps
  slots : ∃ t, SlotsAt 0 s t ∧ SlotsLoc w vs st.slots t

end BitLib
