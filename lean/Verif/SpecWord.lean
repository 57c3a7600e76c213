/-
Specification vocabulary for single words and for numbers made of several words.
Nothing here refers to the functions of the library.
-/
namespace BitLib
variable {w : Nat}

/-- Number of set bits of `x` below position `k`. -/
def onesBelow (x : BitVec w) (k : Nat) : Nat := (List.range k).countP (fun i => x.getLsbD i)

/-- `k` is the number of zeros above the highest set bit (the width for the word 0). -/
def LeadingZeros (x : BitVec w) (k : Nat) : Prop :=
  k ≤ w ∧ (∀ i, w - k ≤ i → x.getLsbD i = false) ∧ (k < w → x.getLsbD (w - 1 - k) = true)

/-- `k` is the number of zeros below the lowest set bit (the width for the word 0). -/
def TrailingZeros (x : BitVec w) (k : Nat) : Prop :=
  k ≤ w ∧ (∀ i, i < k → x.getLsbD i = false) ∧ (k < w → x.getLsbD k = true)

/-- `r` consists of the low bits of `x` placed, in order, at the positions of the set bits of `m`. -/
def Deposited (x m r : BitVec w) : Prop :=
  ∀ i, i < w → r.getLsbD i = (m.getLsbD i && x.getLsbD (onesBelow m i))

/-- `r` consists of the bits of `x` at the positions of the set bits of `m`, gathered in order at the low end, and zeros above. -/
def Extracted (x m r : BitVec w) : Prop :=
  (∀ i, i < w → m.getLsbD i = true → r.getLsbD (onesBelow m i) = x.getLsbD i) ∧
  ∀ j, onesBelow m w ≤ j → r.getLsbD j = false

/-- Byte `i` of a word, counted from the least significant one. -/
def byteOf (x : BitVec w) (i : Nat) : Nat := x.toNat / 256 ^ i % 256

/-- Value of a number given by its words, least significant first. -/
def wordsVal : List (BitVec w) → Nat
  | [] => 0
  | x :: xs => x.toNat + 2 ^ w * wordsVal xs

end BitLib
