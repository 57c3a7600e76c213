import Verif.Model.Details
/-
fill.hpp, find.hpp, equal.hpp, count.hpp (scalar paths) of include/bitlib/bit-algorithms.
-/
namespace BitLib
variable {w : Nat}

/-- `bv == bit0 ? 0 : ones`. -/
def fillWord (v : Bool) : BitVec w := if v then BitVec.allOnes w else 0#w

/-- fill.hpp:38-82, `bit::fill`. -/
def fill (S : ShiftSem w) (first last : BitIter w) (v : Bool) : M w Unit := do
  assertViable first last
  let d ← distance first last
  if d = 0 then pure ()
  else if isWithin w first last then writeWord S (fillWord v) first d.toNat
  else do
    if first.pos ≠ 0 then do
      writeWord S (fillWord v) first (w - first.pos)
      stdFill (first.base + 1) last.base (fillWord v)
    else stdFill first.base last.base (fillWord v)
    if last.pos ≠ 0 then writeWord S (fillWord v) (BitIter.aligned last.base) last.pos
    else pure ()

/-- The repeated expression of find.hpp: `(bv == bit0) ? _tzcnt(~x) : _tzcnt(x)`. -/
def tzFor (v : Bool) (x : BitVec w) : Nat := if v then tzcnt x else tzcnt (~~~x)

/-- find.hpp:102-122: the word search and the last partial word. -/
def findWords (it : Int) (last : BitIter w) (v : Bool) : M w (BitIter w) := do
  let it ← stdFindIf it last.base
    (fun a => if v then decide (a ≠ 0#w) else decide (a ≠ BitVec.allOnes w))
  if it ≠ last.base then do
    let x ← load it
    BitIter.mk? it (tzFor v x)
  else if last.pos ≠ 0 then do
    let x ← load it
    BitIter.mk? it (min (tzFor v x) last.pos)
  else pure last

/-- find.hpp:33-123, `bit::find` (scalar path). `std::next(first.base(), is_last_aligned)` adds the bool. -/
def find (S : ShiftSem w) (first last : BitIter w) (v : Bool) : M w (BitIter w) := do
  if first.pos ≠ 0 then do
    let x ← load first.base
    let sh ← lift (S.shr x first.pos)
    let num := tzFor v sh
    if first.base + (if last.pos = 0 then 1 else 0) = last.base then do
      let d ← distance first last
      pure (first.add (min num d.toNat : Nat))
    else if num + first.pos < w then pure (first.add num)
    else findWords (first.add ((w - first.pos : Nat) : Int)).base last v
  else findWords first.base last v

/-- equal.hpp:90-96: the final partial word. -/
def equalTail (S : ShiftSem w) (remaining : Nat) (first : BitIter w) (it : Int) : M w Bool :=
  if remaining > 0 then do
    let mask ← lift (lowMask S remaining)
    let comp ← getWord S first remaining
    let x ← load it
    pure (decide (mask &&& x = mask &&& comp))
  else pure true

/-- equal.hpp:83-88. -/
def equalLoop (S : ShiftSem w) : Nat → Nat → BitIter w → Int → M w Bool
  | 0, _, _, _ => ub .outOfFuel
  | fuel+1, remaining, first, it =>
    if remaining ≥ w then do
      let x ← load it
      let y ← getWord S first w
      if x = y then equalLoop S fuel (remaining - w) (first.add w) (it + 1)
      else pure false
    else equalTail S remaining first it

/-- equal.hpp:71-98: the part after the destination has been aligned. -/
def equalBody (S : ShiftSem w) (remaining : Nat) (first last : BitIter w) (it : Int) : M w Bool :=
  if remaining > 0 then
    if first.pos = 0 ∧ remaining ≥ w then do
      let N ← wordDist first.base last.base
      let e ← stdEqual first.base last.base it
      if e then equalTail S (subSize remaining (w * N)) (first.add ((w : Int) * N)) (it + N)
      else pure false
    else equalLoop S (remaining + 1) remaining first it
  else pure true

/-- equal.hpp:29-99, `bit::equal`. -/
def equal (S : ShiftSem w) (first last dFirst : BitIter w) : M w Bool := do
  assertViable first last
  if first.beq last then pure true
  else do
    let d ← distance first last
    let total := d.toNat
    if dFirst.pos ≠ 0 then do
      let part := min total (w - dFirst.pos)
      let mask ← lift (lowMask S part)
      let mask ← lift (S.shl mask dFirst.pos)
      let x ← getWord S first part
      let comp ← lift (S.shl x dFirst.pos)
      let y ← load dFirst.base
      if mask &&& y = mask &&& comp then
        equalBody S (total - part) (first.add part) last (dFirst.base + 1)
      else pure false
    else equalBody S total first last dFirst.base

/-- libpopcnt.h `popcnt(&*it, bytes)` on the bytes of `n` words: the number of set bits of the words
(count.hpp:96). The byte level algorithm is modelled in `Model/Popcnt.lean`. -/
def popcntWords : Nat → Int → M w Nat
  | 0, _ => pure 0
  | n+1, a => do
    let x ← load a
    let r ← popcntWords n (a + 1)
    pure (popcnt x + r)

/-- count.hpp:34-117, `bit::count`. The result is `difference_type`. -/
def count (S : ShiftSem w) (first last : BitIter w) (v : Bool) : M w Int := do
  assertViable first last
  let ones ←
    if first.base ≠ last.base then do
      let (r0, it) ←
        if first.pos ≠ 0 then do
          let x ← load first.base
          let x ← lift (S.shr x first.pos)
          pure (popcnt x, first.base + 1)
        else pure (0, first.base)
      let n ← wordDist it last.base
      let r1 ← popcntWords n it
      if last.pos ≠ 0 then do
        let x ← load last.base
        let x ← lift (S.shl x (w - last.pos))
        pure (r0 + r1 + popcnt x)
      else pure (r0 + r1)
    else do
      let x ← load first.base
      let y ← lift (bextr S x first.pos (subSize last.pos first.pos))
      pure (popcnt y)
  pure (if v then (ones : Int) else last.diff first - (ones : Int))

end BitLib
