import Verif.Lemmas.Footprint
/- Running a modelled program on a concrete list of words (used by the examples and the counterexamples). -/
namespace BitLib
variable {w : Nat}

/-- Run `p` on the memory holding exactly the words `l`; show the result and the words afterwards. -/
def runOn {α : Type} (p : M w α) (l : List (BitVec w)) : Except UB (α × List (BitVec w)) :=
  match p (memOf l) with
  | .ok (a, m) => .ok (a, (List.range l.length).map fun i => (m (i : Nat)).getD 0)
  | .error e => .error e

/-- The outcome kind of a run. -/
def outcome {α : Type} (p : M w α) (m : Mem w) : Option UB :=
  match p m with
  | .ok _ => none
  | .error e => some e

/-- The fully mapped memory whose bits are given by `f` (used by counterexamples). -/
def bitsMem (w : Nat) (f : Int → Bool) : Mem w := fun a =>
  some ((BitVec.ofBoolListLE ((List.range w).map fun p : Nat => f (a * w + p))).setWidth w)

theorem bitAt_bitsMem (hw : 0 < w) (f : Int → Bool) (i : Int) : bitAt (bitsMem w f) i = some (f i) := by
  have h1 := Int.emod_add_mul_ediv i (w : Int)
  have h2 : 0 ≤ i % (w : Int) := Int.emod_nonneg _ (by omega)
  have h3 : i % (w : Int) < w := Int.emod_lt_of_pos _ (by omega)
  rw [Int.mul_comm] at h1
  unfold bitAt bitsMem
  simp only [Option.map_some]
  congr 1
  rw [BitVec.getLsbD_setWidth, BitVec.getLsbD_ofBoolListLE, decide_eq_true (by omega), Bool.true_and, List.getD_eq_getElem?_getD,
    List.getElem?_map, List.getElem?_range (by omega)]
  show f (i / (w : Int) * w + ((i % (w : Int)).toNat : Int)) = f i
  congr 1
  omega

theorem mapped_bitsMem (hw : 0 < w) (f : Int → Bool) (a b : Int) : Mapped (bitsMem w f) a b := by
  intro i _ _; rw [bitAt_bitsMem hw]; rfl

end BitLib
