import Verif.Spec
/-
What copying to a place further right in the same bits gives when the words of the destination are written one after the other (C106).
-/
namespace BitLib

/-- The destination at `d` is written word by word. The bit `d + j` is written together with the bits of the same word; this is the number of bits
written before them. -/
def before (w : Nat) (d : Int) (j : Nat) : Nat := j - ((d + j) % w).toNat

/-- What is written to the bit `d + j`, if the source begins `s` bits before `d` and `b` holds the bits of memory before the call: `f` of the bit
`d - s + j`, which is by then what has been written there, if it belongs to a word of the destination that was written before. -/
def echo (w : Nat) (f : Bool → Bool) (b : Int → Option Bool) (d : Int) (s : Nat) (j : Nat) : Option Bool :=
  if s ≤ j ∧ j - s < before w d j then (echo w f b d s (j - s)).map f else (b (d - s + j)).map f
termination_by j
decreasing_by unfold before at *; omega

/-- What binary `transform` writes to the bit `d + j`, for sources at `p` and `q`, anywhere: `f` of the bits `p + j` and `q + j`, each as it has been
written, if it belongs to a word of the destination that was written before, or as it was. -/
def echo2 (w : Nat) (f : Bool → Bool → Bool) (b : Int → Option Bool) (p q d : Int) (j : Nat) : Option Bool :=
  zipBit f
    (if d ≤ p + j ∧ p + j < d + before w d j then echo2 w f b p q d (p + j - d).toNat else b (p + j))
    (if d ≤ q + j ∧ q + j < d + before w d j then echo2 w f b p q d (q + j - d).toNat else b (q + j))
termination_by j
decreasing_by all_goals (unfold before at *; omega)

/-- The destination that ends at `e` is written word by word from the right. The bit `e - 1 - j` is written together with the bits of the same word;
this is the number of bits written before them. -/
def beforeBack (w : Nat) (e : Int) (j : Nat) : Nat := j - (w - 1 - ((e - 1 - j) % w).toNat)

/-- What is written to the bit `e - 1 - j`, if the source ends `s` bits after `e`: the bit `e + s - 1 - j`, which is by then what has been written
there, if it belongs to a word of the destination that was written before. -/
def echoBack (w : Nat) (b : Int → Option Bool) (e : Int) (s : Nat) (j : Nat) : Option Bool :=
  if s ≤ j ∧ j - s < beforeBack w e j then echoBack w b e s (j - s) else b (e + s - 1 - j)
termination_by j
decreasing_by unfold beforeBack at *; omega

/-- The `n` bits at `d` are all in one word. -/
def InOneWord (w : Nat) (d n : Int) : Prop := d % w + n ≤ w

end BitLib
