import Verif.Model.Copy
/-
`bit::transform` with an arbitrary operation.

Model/Copy.lean gives `transform` a function from words to words. Here the operation is a C++ function object: it may keep data of its own,
read and change data outside of it, and throw. It does not touch the words the iterators are over, so that it makes no difference whether the
`*it` in `*it = _bitblend(*it, unary_op(..), ..)` is read before or after the call (C++ leaves that open).

The operation is passed by value, to `bit::transform` and again to `std::transform` (transform.hpp:38, :104, :136, :185). What a call changes in
the object itself is lost with the copy.
-/
namespace BitLib.OpCalls
variable {w : Nat} {γ τ σ ε α : Type}

/-- A function object with arguments `γ`: `τ` is what the object holds, `σ` what it refers to. A call returns a word or throws an `ε`, and
changes both. -/
abbrev Op (w : Nat) (γ τ σ ε : Type) : Type := γ → τ × σ → Except ε (BitVec w) × (τ × σ)

/-- Programs that hold a function object and may end with an exception. -/
abbrev CallM (w : Nat) (τ σ ε α : Type) : Type := ExceptT ε (StateT (τ × σ) (M w)) α

/-- What does not call the operation. -/
def words (x : M w α) : CallM w τ σ ε α :=
  ExceptT.mk fun s m => match x m with
    | .ok (a, m') => .ok ((.ok a, s), m')
    | .error u => .error u

/-- A call. -/
def call (op : Op w γ τ σ ε) (x : γ) : CallM w τ σ ε (BitVec w) :=
  ExceptT.mk fun s m => .ok (op x s, m)

/-- A function that takes the operation by value: it begins with a copy of the object and the object itself stays as it was. -/
def onCopy (x : CallM w τ σ ε α) : CallM w τ σ ε α :=
  ExceptT.mk fun s m => match x.run s m with
    | .ok ((r, s'), m') => .ok ((r, (s.1, s'.2)), m')
    | .error u => .error u

/-! ### unary -/

/-- The loop of `std::transform` over words: `*d = op(*s)`, in order, as all implementations do for iterators to words. -/
def stdTransformN (op : Op w (BitVec w) τ σ ε) : Nat → Int → Int → CallM w τ σ ε Int
  | 0, _, d => pure d
  | n+1, s, d => do
    let x ← words (load s)
    let y ← call op x
    words (store d y)
    stdTransformN op n (s + 1) (d + 1)

/-- `std::transform(first, last, d, op)`. -/
def stdTransform (op : Op w (BitVec w) τ σ ε) (first last d : Int) : CallM w τ σ ε Int := onCopy do
  let n ← words (wordDist first last)
  stdTransformN op n first d

/-- transform.hpp:55-74. -/
def head (S : ShiftSem w) (op : Op w (BitVec w) τ σ ε) (first dFirst : BitIter w) (total : Nat) :
    CallM w τ σ ε (Nat × BitIter w × Int) :=
  if dFirst.pos ≠ 0 then do
    let part := min total (w - dFirst.pos)
    let x ← words (do let x ← getWord S first part; lift (S.shl x dFirst.pos))
    let y ← call op x
    words (blendAt S dFirst.base y dFirst.pos part)
    pure (total - part, first.add part, dFirst.base + 1)
  else pure (total, first, dFirst.base)

/-- transform.hpp:118-125. -/
def tail (S : ShiftSem w) (op : Op w (BitVec w) τ σ ε) (remaining : Nat) (first : BitIter w) (it : Int) : CallM w τ σ ε Unit :=
  if remaining > 0 then do
    let x ← words (getWord S first remaining)
    let y ← call op x
    words (blendLowAt S it y remaining)
  else pure ()

/-- transform.hpp:111-116. -/
def loop (S : ShiftSem w) (op : Op w (BitVec w) τ σ ε) : Nat → Nat → BitIter w → Int → CallM w τ σ ε Unit
  | 0, _, _, _ => words (ub .outOfFuel)
  | fuel+1, remaining, first, it =>
    if remaining ≥ w then do
      let x ← words (getWord S first w)
      let y ← call op x
      words (store it y)
      loop S op fuel (remaining - w) (first.add w) (it + 1)
    else tail S op remaining first it

/-- transform.hpp:34-128, without `BITLIB_HWY` (or with an operation other than `std::bit_not<word_type>`, for which the block at
transform.hpp:83-102 is discarded). -/
def transform (S : ShiftSem w) (op : Op w (BitVec w) τ σ ε) (first last dFirst : BitIter w) : CallM w τ σ ε (BitIter w) := onCopy do
  words (assertViable first last)
  if first.beq last then pure dFirst
  else do
    let d ← words (distance first last)
    let total := d.toNat
    let (remaining, first, it) ← head S op first dFirst total
    if remaining > 0 then
      if first.pos = 0 ∧ remaining > w then do
        let N ← words (wordDist first.base last.base)
        let it ← stdTransform op first.base last.base it
        tail S op (subSize remaining (w * N)) ⟨first.base + N, 0⟩ it
        pure (dFirst.add total)
      else do
        loop S op (remaining + 1) remaining first it
        pure (dFirst.add total)
    else pure (dFirst.add total)

/-! ### binary -/

/-- The loop of `std::transform` over two ranges of words. -/
def stdTransform2N (op : Op w (BitVec w × BitVec w) τ σ ε) : Nat → Int → Int → Int → CallM w τ σ ε Int
  | 0, _, _, d => pure d
  | n+1, s, t, d => do
    let x ← words (do let x ← load s; let y ← load t; pure (x, y))
    let y ← call op x
    words (store d y)
    stdTransform2N op n (s + 1) (t + 1) (d + 1)

/-- `std::transform(first1, last1, first2, d, op)`. -/
def stdTransform2 (op : Op w (BitVec w × BitVec w) τ σ ε) (first1 last1 first2 d : Int) : CallM w τ σ ε Int := onCopy do
  let n ← words (wordDist first1 last1)
  stdTransform2N op n first1 first2 d

/-- transform.hpp:152-176. -/
def head2 (S : ShiftSem w) (op : Op w (BitVec w × BitVec w) τ σ ε) (first1 first2 dFirst : BitIter w) (total : Nat) :
    CallM w τ σ ε (Nat × BitIter w × BitIter w × Int) :=
  if dFirst.pos ≠ 0 then do
    let part := min total (w - dFirst.pos)
    let x ← words (do
      let x ← getWord S first1 part
      let x ← lift (S.shl x dFirst.pos)
      let y ← getWord S first2 part
      let y ← lift (S.shl y dFirst.pos)
      pure (x, y))
    let y ← call op x
    words (blendAt S dFirst.base y dFirst.pos part)
    pure (total - part, first1.add part, first2.add part, dFirst.base + 1)
  else pure (total, first1, first2, dFirst.base)

/-- transform.hpp:199-209. -/
def tail2 (S : ShiftSem w) (op : Op w (BitVec w × BitVec w) τ σ ε) (remaining : Nat) (first1 first2 : BitIter w) (it : Int) :
    CallM w τ σ ε Unit :=
  if remaining > 0 then do
    let x ← words (do let x ← getWord S first1 remaining; let y ← getWord S first2 remaining; pure (x, y))
    let y ← call op x
    words (blendLowAt S it y remaining)
  else pure ()

/-- transform.hpp:189-197. -/
def loop2 (S : ShiftSem w) (op : Op w (BitVec w × BitVec w) τ σ ε) : Nat → Nat → BitIter w → BitIter w → Int → CallM w τ σ ε Unit
  | 0, _, _, _, _ => words (ub .outOfFuel)
  | fuel+1, remaining, first1, first2, it =>
    if remaining ≥ w then do
      let x ← words (do let x ← getWord S first1 w; let y ← getWord S first2 w; pure (x, y))
      let y ← call op x
      words (store it y)
      loop2 S op fuel (remaining - w) (first1.add w) (first2.add w) (it + 1)
    else tail2 S op remaining first1 first2 it

/-- transform.hpp:130-212. -/
def transform2 (S : ShiftSem w) (op : Op w (BitVec w × BitVec w) τ σ ε) (first1 last1 first2 dFirst : BitIter w) :
    CallM w τ σ ε (BitIter w) := onCopy do
  words (assertViable first1 last1)
  if first1.beq last1 then pure dFirst
  else do
    let d ← words (distance first1 last1)
    let total := d.toNat
    let (remaining, first1, first2, it) ← head2 S op first1 first2 dFirst total
    if remaining > 0 then
      if first1.pos = 0 ∧ first2.pos = 0 ∧ remaining > w then do
        let N ← words (wordDist first1.base last1.base)
        let it ← stdTransform2 op first1.base last1.base first2.base it
        tail2 S op (subSize remaining (w * N)) (first1.add ((w : Int) * N)) (first2.add ((w : Int) * N)) it
        pure (dFirst.add total)
      else do
        loop2 S op (remaining + 1) remaining first1 first2 it
        pure (dFirst.add total)
    else pure (dFirst.add total)

end BitLib.OpCalls
