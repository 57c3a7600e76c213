import Verif.Spec
import Verif.Props.VectorHistory
/-
When the C++20 build depends on what the standard library leaves in the words it vacates (C96). Positions and lengths only.
-/
namespace BitLib
variable {w : Nat}

/-- A `shift_right` of `[a, b)` by `n > 0` moves whole words: `n` is a multiple of the word width, and the bits that stay in the range reach
into a later word than the one of `a`. -/
def WordMove (w : Nat) (a b n : Int) : Prop := n % w = 0 ∧ a / w < (b - n) / w

instance {a b n : Int} : Decidable (WordMove w a b n) := by unfold WordMove; infer_instance

/-- Rotating `left` bits at `a` with the `right` bits that follow them ends in a right shift by exactly one word of a range that starts inside
a word. The three cases are the rounds of the block-swap algorithm. -/
inductive RotSpoils (w : Nat) : Int → Int → Int → Prop where
  | here {a left : Int} : (w : Int) ≤ left → a % w ≠ 0 → RotSpoils w a left w
  | left {a left right : Int} : w < left → left < right → RotSpoils w (a + right) (left - right % left) (right % left) →
      RotSpoils w a left right
  | right {a left right : Int} : w < right → right ≤ left → RotSpoils w a (left % right) (right - left % right) → RotSpoils w a left right

/-- Inserting `n` bits before position `d` of a `bit_vector` of `len` bits moves whole words although `d` is inside a word. -/
def InsertSpoils (w d n len : Nat) : Prop := 0 < n ∧ n % w = 0 ∧ d % w ≠ 0 ∧ d / w < len / w

/-- The calls whose effect does not depend on what the library leaves behind. -/
def Op.Portable (w : Nat) (ls : List (List Bool)) : Op w → Prop
  | .insertN i d n _ => ¬ InsertSpoils w d n (Op.at' ls i).length
  | .insertRange i d _ a b => ¬ InsertSpoils w d (b - a) (Op.at' ls i).length
  | _ => True

end BitLib
