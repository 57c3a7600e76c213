import Verif.Spec
/- What it means for a program to work only with certain bits, whatever the rest of the memory (also of the same words) holds. -/
namespace BitLib
variable {w : Nat}

/-- The bits of `[a, b)`. -/
def Within (a b : Int) (i : Int) : Prop := a ≤ i ∧ i < b

/-- The bit `a`. -/
def Just (a : Int) (i : Int) : Prop := i = a

/-- No bits. -/
def NoBits (_ : Int) : Prop := False

/-- The bits of one or the other set. -/
def Either (P Q : Int → Prop) (i : Int) : Prop := P i ∨ Q i

/-- The bits of the first set that are not in the second. -/
def Minus (P Q : Int → Prop) (i : Int) : Prop := P i ∧ ¬ Q i

/-- No bit belongs to both sets. -/
def Apart (P Q : Int → Prop) : Prop := ∀ i, P i → ¬ Q i

instance (a b : Int) : DecidablePred (Within a b) := fun i => inferInstanceAs (Decidable (a ≤ i ∧ i < b))
instance (a : Int) : DecidablePred (Just a) := fun i => inferInstanceAs (Decidable (i = a))
instance (P Q : Int → Prop) [DecidablePred P] [DecidablePred Q] : DecidablePred (Either P Q) :=
  fun i => inferInstanceAs (Decidable (P i ∨ Q i))

/-- `p` works with the bits `R` and `W` only: when these bits exist, it runs to completion, it changes no bit outside `W`, and its result
and what it leaves in `W` depend on the bits `R` alone (two memories that agree on `R` give the same). -/
def Isolated {α : Type} (p : M w α) (R W : Int → Prop) : Prop :=
  ∀ m1 m2 : Mem w, (∀ i, R i ∨ W i → (bitAt m1 i).isSome ∧ (bitAt m2 i).isSome) → (∀ i, R i → bitAt m1 i = bitAt m2 i) →
    ∃ r m1' m2', p m1 = .ok (r, m1') ∧ p m2 = .ok (r, m2') ∧
      (∀ i, W i → (bitAt m1' i).isSome ∧ bitAt m1' i = bitAt m2' i) ∧
      (∀ i, ¬ W i → bitAt m1' i = bitAt m1 i ∧ bitAt m2' i = bitAt m2 i)

end BitLib
