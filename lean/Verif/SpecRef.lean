import Verif.Spec
import Verif.Model.Ref
import Verif.Model.Bytes
/- What it means for a bit reference or a bit pointer to designate a bit. -/
namespace BitLib
variable {w : Nat}

/-- The reference designates the bit with address `a`. -/
def BitRef.At (r : BitRef w) (a : Int) : Prop :=
  ∃ p : Nat, p < w ∧ r.mask = 1#w <<< p ∧ a = r.ptr * (w : Int) + (p : Int)

/-- The pointer points to the bit with address `a`. -/
def BitPtr.At (p : BitPtr w) (a : Int) : Prop := p.ref.At a

/-- The bit at `a` becomes `b`; every other bit keeps its value. -/
def OneBit (m m' : Mem w) (a : Int) (b : Bool) : Prop :=
  ∀ i, bitAt m' i = if i = a then some b else bitAt m i

/-- The bit address (in a memory of bytes) of bit `p` of the `k`-byte word at byte address `a`. -/
def bitLoc (e : Endian) (k : Nat) (a : Int) (p : Nat) : Int :=
  match e with
  | .little => a * 8 + (p : Int)
  | .big => (a + (k : Int) - 1 - ((p / 8 : Nat) : Int)) * 8 + ((p % 8 : Nat) : Int)

/-- The `k` bytes of the word at `a` exist. -/
def WordMapped (m : Mem 8) (k : Nat) (a : Int) : Prop := ∀ c, a ≤ c → c < a + (k : Int) → (m c).isSome

/-- An array of `k`-byte words at byte address `base`, as a memory of words: word `j` is the value of the bytes from
`base + k * j` on. -/
def wordView (e : Endian) (k : Nat) (base : Int) (m : Mem 8) : Mem (8 * k) := fun j =>
  match loadWord e k (base + (k : Int) * j) m with
  | .ok (x, _) => some x
  | .error _ => none

/-- The reference to a `k`-byte word designates the bit with address `c` of the byte memory. -/
def BitRef.AtB {k : Nat} (e : Endian) (r : BitRef (8 * k)) (c : Int) : Prop :=
  ∃ p : Nat, p < 8 * k ∧ r.mask = 1#(8 * k) <<< p ∧ c = bitLoc e k r.ptr p

end BitLib
