import Verif.Model.Bench
/-
Vocabulary of C85: what the containers hold at the start, and the sizes for which the benchmarks work.
-/
namespace BitLib.Bench
open Op (at')

/-- The contents of the containers: any, but BM_BitFind starts with zeros (find_bench.hpp:13). -/
structure Start (N : Nat) (b : B) (ls : List (List Bool)) : Prop where
  sizes : ls.map List.length = (words N b).map (64 * ·)
  zero : b = .find → at' ls 0 = List.replicate (last N) false

/-- Sizes for which a benchmark makes only valid calls. For BM_BitShiftLeft/Right the condition excludes the shift of a single word. -/
def Fits (N : Nat) : B → Prop
  | .shiftLeft | .shiftRight => ¬ (ceilWords N = 1 ∧ 4 ≤ N)
  | .shiftLeftUU | .shiftRightUU | .reverseUU | .fill | .count => 1 ≤ ceilWords N
  | .rotate draw => draw < last N
  | .find => N / 2 + 4 < last N ∧ 1 ≤ ceilWords N
  | .copy | .move | .copyBackward | .swapUU => 7 ≤ N
  | .equal => 5 ≤ N
  | .notUU | .andUU => 6 ≤ N
  | .reverse | .swapAA | .notAA | .andAA | .set | .get | .profile => True

/-- The numbers the rotate benchmark can draw (rotate_bench.hpp:13-17). -/
def Drawn (N : Nat) : B → Prop
  | .rotate draw => draw ≤ N - 1
  | _ => True

end BitLib.Bench
