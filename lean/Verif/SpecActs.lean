import Verif.SpecStore
import Verif.Props.Programs
/-
Programs that also call `resize` (C87, C88): the calls, the modelled code they run, and what they do to the bits of the words and to lists.

C65 describes a vector by its elements. `resize` to more elements shows bits that are not elements (C31), so what a program with `resize`
sees is not determined by the elements: it is determined by all the bits of the words.
-/
namespace BitLib
variable {w : Nat}
open Store

/-- A call of C65, or `resize(n)`, or `resize(n, x)`, of vector `i`. -/
inductive Act (w : Nat) where
  | call (c : Call w)
  | resize (i n : Nat)
  | resizeVal (i n : Nat) (x : Bool)

/-- The state of vector `i`. -/
def Store.at' (ss : List Store) (i : Nat) : Store := (ss[i]?).getD ⟨[], 0⟩

/-- What the members do to the words. -/
def Op.store (ss : List Store) : Op w → List Store
  | newEmpty => ss ++ [⟨[], 0⟩]
  | newCount n => ss ++ [⟨List.replicate (ceilW w n) false, n⟩]
  | newCountVal n x => ss ++ [⟨List.replicate (ceilW w n) x, n⟩]
  | newString s => ss ++ [roomy w (digitsOf s)]
  | newBoolRange l => ss ++ [roomy w l]
  | newBoolList l => ss ++ [⟨widen w l l.length, l.length⟩]
  | newWords l => ss ++ [⟨bitsOfWords l, l.length * w⟩]
  | newBits j a b => ss ++ [roomy w (slice (Store.at' ss j).bits a b)]
  | newCopy j => ss ++ [Store.at' ss j]
  | push i x => ss.set i (put w (Store.at' ss i) (Store.at' ss i).n [x])
  | pop i => ss.set i ((Store.at' ss i).pop w)
  | insert i d x => ss.set i (put w (Store.at' ss i) d [x])
  | insertN i d n x => ss.set i (put w (Store.at' ss i) d (List.replicate n x))
  | insertRange i d j a b => ss.set i (put w (Store.at' ss i) d (slice (Store.at' ss j).bits a b))
  | erase i d => ss.set i ((Store.at' ss i).erase w d)
  | eraseRange i a b => ss.set i ((Store.at' ss i).eraseRange w a b)
  | clear i => ss.set i ⟨[], 0⟩
  | set i k x => ss.set i ⟨(Store.at' ss i).bits.set k x, (Store.at' ss i).n⟩
  | copyAssign i j => ss.set i (Store.at' ss j)
  | moveAssign i j => (ss.set i (Store.at' ss j)).set j ⟨[], 0⟩
  | reserve _ _ => ss
  | shrinkToFit _ => ss
  | shrink i n => ss.set i ((Store.at' ss i).resize w n)
  | destroy i => ss.set i ⟨[], 0⟩

namespace Act

/-- The modelled code. -/
def exec (S : ShiftSem w) (P : Policy) (vs : List BV) : Act w → V w (List BV × Ans)
  | call c => c.exec S P vs
  | resize i n => onVec vs i (fun v => v.resize P n) >>= fun vs' => pure (vs', .unit)
  | resizeVal i n x => onVec vs i (fun v => v.resizeVal S P n x) >>= fun vs' => pure (vs', .unit)

/-- What the call does to the words, and its answer. An algorithm changes the bits as it changes a list that consists of all of them. -/
def Spec (ss : List Store) (a : Act w) (ss' : List Store) (ans : Ans) : Prop :=
  match a with
  | call (.vec op) => ss' = op.store ss ∧ ans = .unit
  | call (.size i) => ss' = ss ∧ ans = .num ((Store.at' ss i).n : Int)
  | call (.debugString i) => ss' = ss ∧ ans = .text (grouped w 0 (Store.at' ss i).elems)
  | call c => c.Spec (ss.map Store.bits) (ss'.map Store.bits) ans ∧ ss'.map Store.n = ss.map Store.n
  | resize i n | resizeVal i n _ => ss' = ss.set i ((Store.at' ss i).resize w n) ∧ ans = .unit

/-- The precondition speaks of elements only. -/
def Pre (ss : List Store) : Act w → Prop
  | call c => c.Pre (ss.map Store.elems)
  | resize i _ | resizeVal i _ _ => i < ss.length

/-- The limits of the library. -/
def Lim (S : ShiftSem w) (ss : List Store) : Act w → Prop
  | call (.count i a _ _) => a < (Store.at' ss i).bits.length
  | call c => c.Lim S (ss.map Store.elems)
  | resize _ n | resizeVal _ n _ => n < 2 ^ 32

end Act

/-- The vectors `vs` of a program hold the bits `ss`, and no two of them share storage. -/
structure EnvAll (h : Heap w) (vs : List BV) (ss : List Store) : Prop where
  wf : h.WF
  len : vs.length = ss.length
  holds : ∀ (i : Nat) (v : BV) (s : Store), vs[i]? = some v → ss[i]? = some s → HoldsAll h v s
  sep : ∀ (i j : Nat) (v o : BV), vs[i]? = some v → vs[j]? = some o → i ≠ j → Sep w v.vec o.vec

/-- Running a program: the vectors and the answers, in order. -/
def runActs (S : ShiftSem w) (P : Policy) (vs : List BV) : List (Act w) → V w (List BV × List Ans)
  | [] => pure (vs, [])
  | a :: as => a.exec S P vs >>= fun r => runActs S P r.1 as >>= fun q => pure (q.1, r.2 :: q.2)

/-- A program on the bits of words. -/
inductive StoreRun : List Store → List (Act w) → List Store → List Ans → Prop
  | nil (ss : List Store) : StoreRun ss [] ss []
  | cons {ss s1 s2 : List Store} {a : Act w} {as : List (Act w)} {x : Ans} {xs : List Ans} :
    a.Spec ss s1 x → StoreRun s1 as s2 xs → StoreRun ss (a :: as) s2 (x :: xs)

/-- Every call satisfies `R` in the state in which, according to the specification, it is made. -/
def AlongS (R : List Store → Act w → Prop) : List (Act w) → List Store → Prop
  | [], _ => True
  | a :: as, ss => R ss a ∧ ∀ ss' x, a.Spec ss ss' x → AlongS R as ss'

/-! ### On plain lists -/

/-- What the standard says: `resize(n, x)` keeps the first `n` elements and appends elements `x`. -/
def Act.ListSpec (ls : List (List Bool)) (a : Act w) (ls' : List (List Bool)) (ans : Ans) : Prop :=
  match a with
  | .call c => c.Spec ls ls' ans
  | .resize i n => ls' = ls.set i ((Op.at' ls i).take n ++ List.replicate (n - (Op.at' ls i).length) false) ∧ ans = .unit
  | .resizeVal i n x => ls' = ls.set i ((Op.at' ls i).take n ++ List.replicate (n - (Op.at' ls i).length) x) ∧ ans = .unit

def Act.ListPre (ls : List (List Bool)) : Act w → Prop
  | .call c => c.Pre ls
  | .resize i _ | .resizeVal i _ _ => i < ls.length

def Act.ListLim (S : ShiftSem w) (ls : List (List Bool)) : Act w → Prop
  | .call c => c.Lim S ls
  | .resize _ n | .resizeVal _ n _ => n < 2 ^ 32

/-- The call leaves no 1 behind the elements: it does not call `erase`, removes only zeros at the end (or all elements with `clear`), fills
no unfinished word with ones, and does not ask `resize` for ones. -/
def Act.Calm (ls : List (List Bool)) : Act w → Prop
  | .call (.vec (.pop i)) => (Op.at' ls i).getLast? = some false
  | .call (.vec (.shrink i n)) => ∀ x ∈ (Op.at' ls i).drop n, x = false
  | .call (.vec (.erase _ _)) => False
  | .call (.vec (.eraseRange _ _ _)) => False
  | .call (.vec (.newCountVal n x)) => x = false ∨ n % w = 0
  | .call _ => True
  | .resize i n => ∀ x ∈ (Op.at' ls i).drop n, x = false
  | .resizeVal i n x => (∀ x ∈ (Op.at' ls i).drop n, x = false) ∧ (x = false ∨ n ≤ (Op.at' ls i).length)

/-- The vectors hold the elements `ls`, and no bit behind them is set. -/
def CleanEnv (h : Heap w) (vs : List BV) (ls : List (List Bool)) : Prop :=
  ∃ ss : List Store, ss.map Store.elems = ls ∧ EnvAll h vs ss ∧ ∀ s ∈ ss, s.Clean

/-- A program on plain lists, with `resize` as the standard describes it. -/
inductive ListRun : List (List Bool) → List (Act w) → List (List Bool) → List Ans → Prop
  | nil (ls : List (List Bool)) : ListRun ls [] ls []
  | cons {ls l1 l2 : List (List Bool)} {a : Act w} {as : List (Act w)} {x : Ans} {xs : List Ans} :
    a.ListSpec ls l1 x → ListRun l1 as l2 xs → ListRun ls (a :: as) l2 (x :: xs)

/-- Every call satisfies `R` in the state in which, according to the standard, it is made. -/
def AlongL (R : List (List Bool) → Act w → Prop) : List (Act w) → List (List Bool) → Prop
  | [], _ => True
  | a :: as, ls => R ls a ∧ ∀ ls' x, a.ListSpec ls ls' x → AlongL R as ls'

end BitLib
