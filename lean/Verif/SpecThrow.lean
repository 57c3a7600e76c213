import Verif.Model.Throw
/- When a request for storage fails. -/
namespace BitLib

/-- The request for storage is refused, with exception `e`. -/
def Refused (A : Alloc) (next : Int) (n cap : Nat) (e : Exn) : Prop :=
  (A.maxWords < n ∧ e = .lengthError) ∨ (n ≤ A.maxWords ∧ A.grants next cap = false ∧ e = .badAlloc)

end BitLib
