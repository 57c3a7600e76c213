import Verif.SpecIso
import Mathlib.Logic.Function.Basic
/-
Several threads that call the library at the same time. The library has no synchronisation of its own: a call is a sequence of loads and
stores of single words, and the accesses of different threads can be interleaved in every order.
-/
namespace BitLib
variable {w : Nat} {α : Type}

/-- Code as it is executed: a sequence of accesses to single words, each of which may depend on the words loaded before. -/
inductive Code (w : Nat) (α : Type) where
  /-- ends with a result -/
  | ret (a : α)
  /-- undefined behaviour -/
  | stop (e : UB)
  /-- loads the word at `a` and goes on with `k x`, where `x` is the word -/
  | load (a : Int) (k : BitVec w → Code w α)
  /-- stores `x` at `a` and goes on with `k` -/
  | store (a : Int) (x : BitVec w) (k : Code w α)

namespace Code

/-- The code executed without interruption. -/
def run : Code w α → M w α
  | ret a => pure a
  | stop e => ub e
  | load a k => do
    let x ← BitLib.load a
    (k x).run
  | store a x k => do
    BitLib.store a x
    k.run

/-- `c` is code for `x`: executed without interruption, it does what `x` does. -/
def Does (c : Code w α) (x : M w α) : Prop := ∀ m, c.run m = x m

/-- The code contains a store to the word at `b`. -/
inductive Stores : Code w α → Int → Prop
  | here (b : Int) (x : BitVec w) (k : Code w α) : Stores (store b x k) b
  | store {b : Int} (a : Int) (x : BitVec w) (k : Code w α) : Stores k b → Stores (store a x k) b
  | load {b : Int} (a : Int) (k : BitVec w → Code w α) (x : BitVec w) : Stores (k x) b → Stores (load a k) b

/-- The next access: the address of the word and whether it is a store. -/
def access : Code w α → Option (Int × Bool)
  | ret _ | stop _ => none
  | load a _ => some (a, false)
  | store a _ _ => some (a, true)

/-- One access to the common memory. -/
def next : Code w α → Mem w → Option (Code w α × Mem w)
  | ret _, _ | stop _, _ => none
  | load a k, m =>
    match m a with
    | some x => some (k x, m)
    | none => some (stop .outOfBounds, m)
  | store a x k, m =>
    match m a with
    | some _ => some (k, m.set a x)
    | none => some (stop .outOfBounds, m)

end Code

section
variable {ι : Type} {β : ι → Type}

/-- What the threads still have to do (`p i` for thread `i`), and the common memory. -/
abbrev Threads (w : Nat) (β : ι → Type) := ((i : ι) → Code w (β i)) × Mem w

/-- Some thread makes its next access. -/
def Step [DecidableEq ι] (s t : Threads w β) : Prop :=
  ∃ (i : ι) (c : Code w (β i)), (s.1 i).next s.2 = some (c, t.2) ∧ t.1 = Function.update s.1 i c

/-- `n` accesses, in any order. -/
def Exec [DecidableEq ι] : Nat → Threads w β → Threads w β → Prop
  | 0, s, t => s = t
  | n + 1, s, t => ∃ u, Exec n s u ∧ Step u t

/-- A data race: the next accesses of two threads are to the same word, and one of them is a store. This is undefined in C++. -/
def Race (s : Threads w β) : Prop :=
  ∃ i j a b, i ≠ j ∧ (s.1 i).access = some (a, true) ∧ (s.1 j).access = some (a, b)

/-- Some thread ran into undefined behaviour. -/
def Undef (s : Threads w β) : Prop := ∃ i e, s.1 i = .stop e

/-- All threads have ended, with the results `r`. -/
def Done (s : Threads w β) (r : (i : ι) → β i) : Prop := ∀ i, s.1 i = .ret (r i)

end

/-- The result types of two threads. -/
def Two (α β : Type) : Bool → Type
  | false => α
  | true => β

/-- Two threads: `c` is thread `false`, `d` is thread `true`. -/
def duo {α β : Type} (c : Code w α) (d : Code w β) : (i : Bool) → Code w (Two α β i)
  | false => c
  | true => d

/-- The results of two threads. -/
def duoResult {α β : Type} (a : α) (b : β) : (i : Bool) → Two α β i
  | false => a
  | true => b

/-- The word at `a` holds one of the bits `P`. -/
def WordOf (w : Nat) (P : Int → Prop) (a : Int) : Prop := ∃ i, P i ∧ i / (w : Int) = a

/-- Every word. -/
def AnyWord (_ : Int) : Prop := True
/-- No word. -/
def NoWord (_ : Int) : Prop := False

/-- There is code for `x` that stores only to words of `P`. -/
def HasCode (P : Int → Prop) (x : M w α) : Prop := ∃ c : Code w α, c.Does x ∧ ∀ a, c.Stores a → P a

end BitLib
