import Verif.Props.VectorHistory
/-
What a call on a `bit_vector` may cost, in words loaded and stored. The size of a vector here is the number `s` of its words and the number `n` of its elements; nothing else
matters for the price, and nothing here refers to the code.
-/
namespace BitLib
variable {w : Nat}

/-- Words needed for `n` bits. -/
def wordsFor (w n : Nat) : Nat := (n + w - 1) / w

/-- Full storage grows by at least its `k`-th part: `k = 1` if capacities are doubled, `k = 2` if they grow by half. -/
def Grows (k : Nat) (P : Policy) : Prop := 0 < k ∧ ∀ cap need, cap + cap / k ≤ P.grow cap need

/-- Words and elements of each vector. -/
abbrev Shape := List (Nat × Nat)

/-- Words and elements of the vectors of a program. -/
def shapeOf (vs : List BV) : Shape := vs.map fun v => (v.vec.size, v.length)

namespace Shape

def words (σ : Shape) (i : Nat) : Nat := ((σ[i]?).getD (0, 0)).1
def elems (σ : Shape) (i : Nat) : Nat := ((σ[i]?).getD (0, 0)).2

/-- All words of all vectors. -/
def total (σ : Shape) : Nat := (σ.map Prod.fst).sum

/-- Words that are added for `c` more elements. -/
def added (w : Nat) (σ : Shape) (i c : Nat) : Nat := wordsFor w (σ.elems i + c - σ.words i * w)

end Shape

namespace Op
open Shape

/-- Words and elements after a call. -/
def shape (σ : Shape) : Op w → Shape
  | newEmpty => σ ++ [(0, 0)]
  | newCount n | newCountVal n _ => σ ++ [(wordsFor w n, n)]
  | newString s => σ ++ [((digitsOf s).length, (digitsOf s).length)]
  | newBoolRange l => σ ++ [(l.length, l.length)]
  | newBoolList l => σ ++ [(wordsFor w l.length, l.length)]
  | newWords l => σ ++ [(l.length, l.length * w)]
  | newBits _ a b => σ ++ [(b - a, b - a)]
  | newCopy j => σ ++ [(words σ j, elems σ j)]
  | push i _ | insert i _ _ => σ.set i (words σ i + added w σ i 1, elems σ i + 1)
  | insertN i _ c _ => σ.set i (words σ i + added w σ i c, elems σ i + c)
  | insertRange i _ _ a b => σ.set i (words σ i + added w σ i (b - a), elems σ i + (b - a))
  | pop i | erase i _ => σ.set i (if (elems σ i - 1) % w = 0 then words σ i - 1 else words σ i, elems σ i - 1)
  | eraseRange i a b => if a = b then σ else σ.set i (wordsFor w (elems σ i - (b - a)), elems σ i - (b - a))
  | clear i | destroy i => σ.set i (0, 0)
  | set _ _ _ | reserve _ _ | shrinkToFit _ => σ
  | copyAssign i j => σ.set i (words σ j, elems σ j)
  | moveAssign i j => (σ.set i (words σ j, elems σ j)).set j (0, 0)
  | shrink i n => σ.set i (wordsFor w n, n)

/-- The price of a call, if storage grows by its `k`-th part: two accesses for a single element; `4 k + 1` for each new word; for members that move
elements three accesses for each word behind the position and a constant; for members that copy or move whole vectors four for each word. -/
def price (k : Nat) (σ : Shape) : Op w → Nat
  | newEmpty | pop _ | clear _ | destroy _ | moveAssign _ _ | shrink _ _ => 0
  | newCount n | newCountVal n _ => 3 * wordsFor w n
  | newString s => 5 * (digitsOf s).length
  | newBoolRange l => 5 * l.length
  | newBoolList l => 2 * l.length + (4 * k + 1) * wordsFor w l.length
  | newWords l => 3 * l.length
  | newBits _ a b => 3 * (b - a) + 3 * ((b - a) / w) + 8
  | newCopy j => 4 * words σ j
  | push i _ => 2 + (4 * k + 1) * added w σ i 1
  | set _ _ _ => 2
  | insert i d _ => (4 * k + 1) * added w σ i 1 + 3 * ((elems σ i - d) / w) + 17
  | insertN i d c _ => if c = 0 then 0 else (4 * k + 1) * added w σ i c + 3 * ((elems σ i - d) / w) + c / w + 19
  | insertRange i d _ a b => if a = b then 0 else (4 * k + 1) * added w σ i (b - a) + 3 * ((elems σ i - d) / w) + 3 * ((b - a) / w) + 23
  | erase i d => 3 * ((elems σ i - (d + 1)) / w) + 17
  | eraseRange i a b => if a = b then 0 else 3 * ((elems σ i - b) / w) + 17
  | copyAssign _ j => 4 * words σ j
  | reserve i _ => 2 * words σ i
  | shrinkToFit i => 4 * words σ i

end Op

/-- The price of a history. -/
def priceHist (k : Nat) : List (Op w) → Shape → Nat
  | [], _ => 0
  | op :: ops, σ => op.price k σ + priceHist k ops (op.shape σ)

/-- The sizes of the vectors after a history. -/
def shapeHist (ops : List (Op w)) (σ : Shape) : Shape := ops.foldl (fun σ op => op.shape σ) σ

end BitLib
