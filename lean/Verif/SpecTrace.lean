import Verif.SpecThreads
/-
Which words code accesses, one after the other.
-/
namespace BitLib
variable {w : Nat} {α : Type}

/-- The accesses that the code makes when it is executed on the memory `m`, in their order: the address of the word and whether it is a store. An
access to a word that does not exist is the last one. -/
def Code.trace : Code w α → Mem w → List (Int × Bool)
  | ret _, _ | stop _, _ => []
  | load a k, m =>
    match m a with
    | some x => (a, false) :: (k x).trace m
    | none => [(a, false)]
  | store a x k, m =>
    match m a with
    | some _ => (a, true) :: k.trace (m.set a x)
    | none => [(a, true)]

end BitLib
