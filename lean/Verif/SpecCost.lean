import Verif.SpecThreads
import Verif.SpecClient
/-
How often code accesses the memory.
-/
namespace BitLib
variable {w : Nat} {α : Type}

/-- The number of accesses (loads and stores of single words) that the code makes when it is executed on the memory `m`. An access to a word that does
not exist counts and is the last one. -/
def Code.accesses : Code w α → Mem w → Nat
  | ret _, _ | stop _, _ => 0
  | load a k, m =>
    match m a with
    | some x => (k x).accesses m + 1
    | none => 1
  | store a x k, m =>
    match m a with
    | some _ => k.accesses (m.set a x) + 1
    | none => 1

/-- The number of bits that an operation of iterators, references and pointers reads or changes. -/
def IOp.bits : IOp → Nat
  | read _ | upd _ _ | swapVal _ _ => 1
  | assign _ _ | swap _ _ => 2
  | _ => 0

/-- The number of bits that a program reads or changes on the tape, each time counted, up to its end or its first error. -/
def Client.bits : Client α → Slots Int Int Int → Tape → Nat
  | .done _, _, _ => 0
  | .call op next, t, tape =>
    match op.run (fun _ => .error .badRange) idealIface t tape with
    | .ok ((t', a), tape') => op.bits + (next a).bits t' tape'
    | .error _ => 0

end BitLib
