import Verif.Model.Basic
/-
The `std::` algorithms on word ranges that the library calls, in the element order of libstdc++
(forward element by element, backward for the `_backward` versions).
`n` is the number of words, `last - first`.
-/
namespace BitLib
variable {w : Nat}

/-- Number of words of `[first, last)`; calling an algorithm with `last` before `first` is undefined. -/
def wordDist (first last : Int) : M w Nat :=
  if first ≤ last then pure (last - first).toNat else ub .badRange

/-- `std::copy` / `std::move(first, last, d)`; returns the end of the destination. -/
def stdCopyN : Nat → Int → Int → M w Int
  | 0, _, d => pure d
  | n+1, s, d => do
    let x ← load s
    store d x
    stdCopyN n (s + 1) (d + 1)

/-- `std::copy(first, last, d)`. -/
def stdCopy (first last d : Int) : M w Int := do
  let n ← wordDist first last
  stdCopyN n first d

/-- `std::copy_backward` / `std::move_backward`: `l`, `dl` are the ends; returns the beginning of the destination. -/
def stdCopyBackwardN : Nat → Int → Int → M w Int
  | 0, _, dl => pure dl
  | n+1, l, dl => do
    let x ← load (l - 1)
    store (dl - 1) x
    stdCopyBackwardN n (l - 1) (dl - 1)

/-- `std::copy_backward(first, last, dl)`. -/
def stdCopyBackward (first last dl : Int) : M w Int := do
  let n ← wordDist first last
  stdCopyBackwardN n last dl

def stdFillN (x : BitVec w) : Nat → Int → M w Unit
  | 0, _ => pure ()
  | n+1, d => do
    store d x
    stdFillN x n (d + 1)

/-- `std::fill(first, last, x)`. -/
def stdFill (first last : Int) (x : BitVec w) : M w Unit := do
  let n ← wordDist first last
  stdFillN x n first

def stdFindIfN (p : BitVec w → Bool) : Nat → Int → M w Int
  | 0, a => pure a
  | n+1, a => do
    let x ← load a
    if p x then pure a else stdFindIfN p n (a + 1)

/-- `std::find_if(first, last, p)`. -/
def stdFindIf (first last : Int) (p : BitVec w → Bool) : M w Int := do
  let n ← wordDist first last
  stdFindIfN p n first

def stdEqualN : Nat → Int → Int → M w Bool
  | 0, _, _ => pure true
  | n+1, a, b => do
    let x ← load a
    let y ← load b
    if x = y then stdEqualN n (a + 1) (b + 1) else pure false

/-- `std::equal(first, last, d)`. -/
def stdEqual (first last d : Int) : M w Bool := do
  let n ← wordDist first last
  stdEqualN n first d

/-- `std::reverse` for random access iterators: `n` words left between `a` and `b` (exclusive end);
swaps `*a` and `*(b-1)` and moves inwards. -/
def stdReverseN : Nat → Int → Int → M w Unit
  | 0, _, _ => pure ()
  | 1, _, _ => pure ()
  | n+2, a, b => do
    let x ← load a
    let y ← load (b - 1)
    store a y
    store (b - 1) x
    stdReverseN n (a + 1) (b - 1)

/-- `std::reverse(first, last)`. -/
def stdReverse (first last : Int) : M w Unit := do
  let n ← wordDist first last
  stdReverseN n first last

def stdTransformN (f : BitVec w → BitVec w) : Nat → Int → Int → M w Int
  | 0, _, d => pure d
  | n+1, s, d => do
    let x ← load s
    store d (f x)
    stdTransformN f n (s + 1) (d + 1)

/-- `std::transform(first, last, d, f)`. -/
def stdTransform (first last d : Int) (f : BitVec w → BitVec w) : M w Int := do
  let n ← wordDist first last
  stdTransformN f n first d

def stdTransform2N (f : BitVec w → BitVec w → BitVec w) : Nat → Int → Int → Int → M w Int
  | 0, _, _, d => pure d
  | n+1, s, t, d => do
    let x ← load s
    let y ← load t
    store d (f x y)
    stdTransform2N f n (s + 1) (t + 1) (d + 1)

/-- `std::transform(first1, last1, first2, d, f)`. -/
def stdTransform2 (first1 last1 first2 d : Int) (f : BitVec w → BitVec w → BitVec w) : M w Int := do
  let n ← wordDist first1 last1
  stdTransform2N f n first1 first2 d

def stdSwapRangesN : Nat → Int → Int → M w Int
  | 0, _, b => pure b
  | n+1, a, b => do
    let x ← load a
    let y ← load b
    store a y
    store b x
    stdSwapRangesN n (a + 1) (b + 1)

/-- `std::swap_ranges(first1, last1, first2)`; returns the end of the second range. -/
def stdSwapRanges (first1 last1 first2 : Int) : M w Int := do
  let n ← wordDist first1 last1
  stdSwapRangesN n first1 first2

end BitLib
