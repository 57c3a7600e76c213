import Verif.Model.Copy
import Verif.Model.Query
import Verif.Model.Shift
/-
The `BITLIB_HWY` (SIMD, Google Highway) branches of fill.hpp, find.hpp, transform.hpp and shift.hpp.

A vector is a list of words, `lanes` of them. `hn::Load`/`hn::Store` need an address that is a multiple of the vector size
in bytes (Highway: "may fault if the pointer is not aligned"), `hn::LoadU`/`hn::StoreU` do not.
A vector load reads all its words before anything else happens.
The loop conditions `std::distance(a, b) >= hn::Lanes(d)` compare a `ptrdiff_t` with a `size_t`, hence `toSize`.
-/
namespace BitLib
variable {w : Nat}

/-- The machine: number of lanes of `hn::ScalableTag<word_type>`, size of a word in bytes and byte address of word 0. -/
structure Simd where
  lanes : Nat
  bytes : Nat
  org : Int
  lanes_pos : 0 < lanes

/-- The vectors of the target are 1, 2, ..., 64 bytes long (all Highway targets with vectors of fixed size). -/
def Simd.Ok (U : Simd) : Prop := U.lanes * U.bytes ∣ 64

/-- `is_aligned(&*it, 64)` (fill.hpp:25-26 and the same lines elsewhere). -/
def Simd.al64 (U : Simd) (a : Int) : Bool := decide ((U.org + a * U.bytes) % 64 = 0)

/-- The address is a multiple of the vector size. -/
def Simd.alVec (U : Simd) (a : Int) : Bool := decide ((U.org + a * U.bytes) % ((U.lanes * U.bytes : Nat) : Int) = 0)

/-- Read `n` consecutive words. -/
def loadN : Nat → Int → M w (List (BitVec w))
  | 0, _ => pure []
  | n+1, a => do
    let x ← load a
    let l ← loadN n (a + 1)
    pure (x :: l)

/-- Write consecutive words. -/
def storeN : List (BitVec w) → Int → M w Unit
  | [], _ => pure ()
  | x :: l, a => do
    store a x
    storeN l (a + 1)

/-- `hn::LoadU`. -/
def vloadU (U : Simd) (a : Int) : M w (List (BitVec w)) := loadN U.lanes a

/-- `hn::Load`. -/
def vload (U : Simd) (a : Int) : M w (List (BitVec w)) :=
  if U.alVec a then loadN U.lanes a else ub .misaligned

/-- `hn::StoreU`. -/
def vstoreU (v : List (BitVec w)) (a : Int) : M w Unit := storeN v a

/-- `hn::Store`. -/
def vstore (U : Simd) (v : List (BitVec w)) (a : Int) : M w Unit :=
  if U.alVec a then storeN v a else ub .misaligned

/-- transform.hpp:96-101: `if (out_is_aligned) hn::Store else hn::StoreU`. -/
def vstoreEither (U : Simd) (outAligned : Bool) (v : List (BitVec w)) (a : Int) : M w Unit :=
  if outAligned then vstore U v a else vstoreU v a

/-- `hn::ShiftRightSame(v, n)`: defined for counts below the lane width. -/
def vshr (v : List (BitVec w)) (n : Nat) : Except UB (List (BitVec w)) :=
  if n < w then .ok (v.map fun y : BitVec w => y >>> n) else .error .overshift

/-- `hn::ShiftLeftSame(v, n)`. -/
def vshl (v : List (BitVec w)) (n : Nat) : Except UB (List (BitVec w)) :=
  if n < w then .ok (v.map fun y : BitVec w => y <<< n) else .error .overshift

/-! ### fill -/

/-- fill.hpp:66-68: word stores up to a 64-byte boundary. -/
def hwyFillAlign (U : Simd) (x : BitVec w) (lastBase : Int) : Nat → Int → M w Int
  | 0, _ => ub .outOfFuel
  | fuel+1, it =>
    if it ≠ lastBase ∧ ¬ U.al64 it then do
      store it x
      hwyFillAlign U x lastBase fuel (it + 1)
    else pure it

/-- fill.hpp:71-74: vector stores. -/
def hwyFillVec (U : Simd) (x : BitVec w) (lastBase : Int) : Nat → Int → M w Int
  | 0, _ => ub .outOfFuel
  | fuel+1, it =>
    if toSize (lastBase - it) ≥ U.lanes then do
      vstore U (List.replicate U.lanes x) it
      hwyFillVec U x lastBase fuel (it + U.lanes)
    else pure it

/-- fill.hpp:64-76. -/
def hwyFillWords (U : Simd) (it lastBase : Int) (x : BitVec w) : M w Unit := do
  let it ← hwyFillAlign U x lastBase ((lastBase - it).toNat + 1) it
  let it ← hwyFillVec U x lastBase ((lastBase - it).toNat + 1) it
  stdFill it lastBase x

/-- fill.hpp:38-82 with `BITLIB_HWY`. -/
def fillHwy (S : ShiftSem w) (U : Simd) (first last : BitIter w) (v : Bool) : M w Unit := do
  assertViable first last
  let d ← distance first last
  if d = 0 then pure ()
  else if isWithin w first last then writeWord S (fillWord v) first d.toNat
  else do
    if first.pos ≠ 0 then do
      writeWord S (fillWord v) first (w - first.pos)
      hwyFillWords U (first.base + 1) last.base (fillWord v)
    else hwyFillWords U first.base last.base (fillWord v)
    if last.pos ≠ 0 then writeWord S (fillWord v) (BitIter.aligned last.base) last.pos
    else pure ()

/-! ### find -/

/-- find.hpp:68-78: word by word up to a 64-byte boundary; `inl` is the early `return`. -/
def hwyFindAlign (U : Simd) (v : Bool) (lastBase : Int) : Nat → Int → M w (BitIter w ⊕ Int)
  | 0, _ => ub .outOfFuel
  | fuel+1, it =>
    if it ≠ lastBase ∧ ¬ U.al64 it then do
      let x ← load it
      if (v = true ∧ x = 0#w) ∨ (v = false ∧ x = BitVec.allOnes w) then
        hwyFindAlign U v lastBase fuel (it + 1)
      else do
        let r ← BitIter.mk? it (tzFor v x)
        pure (.inl r)
    else pure (.inr it)

/-- find.hpp:83-99: the vector loop. `hn::Gt(v, 0)` on unsigned lanes holds for the non-zero ones; `FindKnownFirstTrue` is the index
of the first. -/
def hwyFindVec (U : Simd) (v : Bool) (lastBase : Int) : Nat → Int → M w (BitIter w ⊕ Int)
  | 0, _ => ub .outOfFuel
  | fuel+1, it =>
    if toSize (lastBase - it) ≥ U.lanes then do
      let l ← vload U it
      let l := if v = false then l.map (~~~ ·) else l
      let found := l.map fun y => decide (y > 0#w)
      if found.any id then do
        let it := it + (found.findIdx id : Nat)
        let x ← load it
        let r ← BitIter.mk? it (tzFor v x)
        pure (.inl r)
      else hwyFindVec U v lastBase fuel (it + U.lanes)
    else pure (.inr it)

/-- find.hpp:62-122 with `BITLIB_HWY`. -/
def hwyFindWords (U : Simd) (it : Int) (last : BitIter w) (v : Bool) : M w (BitIter w) := do
  match ← hwyFindAlign U v last.base ((last.base - it).toNat + 1) it with
  | .inl r => pure r
  | .inr it =>
    match ← hwyFindVec U v last.base ((last.base - it).toNat + 1) it with
    | .inl r => pure r
    | .inr it => findWords it last v

/-- find.hpp:33-123 with `BITLIB_HWY`. -/
def findHwy (S : ShiftSem w) (U : Simd) (first last : BitIter w) (v : Bool) : M w (BitIter w) := do
  if first.pos ≠ 0 then do
    let x ← load first.base
    let sh ← lift (S.shr x first.pos)
    let num := tzFor v sh
    if first.base + (if last.pos = 0 then 1 else 0) = last.base then do
      let d ← distance first last
      pure (first.add (min num d.toNat : Nat))
    else if num + first.pos < w then pure (first.add num)
    else hwyFindWords U (first.add ((w - first.pos : Nat) : Int)).base last v
  else hwyFindWords U first.base last v

/-! ### transform with `std::bit_not` -/

/-- transform.hpp:86-88: word by word until the source is 64-byte aligned. Returns `(firstIt, it)`. -/
def hwyNotAlign (U : Simd) (lastBase : Int) : Nat → Int → Int → M w (Int × Int)
  | 0, _, _ => ub .outOfFuel
  | fuel+1, s, d =>
    if s ≠ lastBase ∧ ¬ U.al64 s then do
      let x ← load s
      store d (~~~ x)
      hwyNotAlign U lastBase fuel (s + 1) (d + 1)
    else pure (s, d)

/-- transform.hpp:93-102: the vector loop. -/
def hwyNotVec (U : Simd) (outAligned : Bool) (lastBase : Int) : Nat → Int → Int → M w (Int × Int)
  | 0, _, _ => ub .outOfFuel
  | fuel+1, s, d =>
    if toSize (lastBase - s) ≥ U.lanes then do
      let l ← vload U s
      vstoreEither U outAligned (l.map (~~~ ·)) d
      hwyNotVec U outAligned lastBase fuel (s + U.lanes) (d + U.lanes)
    else pure (s, d)

/-- transform.hpp:83-106. Returns `it`, the end of the destination. -/
def hwyNotWords (U : Simd) (s lastBase d : Int) : M w Int := do
  let (s, d) ← hwyNotAlign U lastBase ((lastBase - s).toNat + 1) s d
  let (s, d) ← hwyNotVec U (U.al64 d) lastBase ((lastBase - s).toNat + 1) s d
  stdTransform s lastBase d (~~~ ·)

/-- transform.hpp:34-128 with `BITLIB_HWY` and `std::bit_not<word_type>`. `firstIt` ends at `last.base()`. -/
def transformNotHwy (S : ShiftSem w) (U : Simd) (first last dFirst : BitIter w) : M w (BitIter w) := do
  assertViable first last
  if first.beq last then pure dFirst
  else do
    let d ← distance first last
    let total := d.toNat
    let (remaining, first, it) ← transformHead S (~~~ ·) first dFirst total
    if remaining > 0 then
      if first.pos = 0 ∧ remaining > w then do
        let N ← wordDist first.base last.base
        let it ← hwyNotWords U first.base last.base it
        transformTail S (~~~ ·) (subSize remaining (w * N)) ⟨first.base + N, 0⟩ it
        pure (dFirst.add total)
      else do
        transformLoop S (~~~ ·) (remaining + 1) remaining first it
        pure (dFirst.add total)
    else pure (dFirst.add total)

/-! ### shift_left -/

/-- shift.hpp:188-192: scalar steps until the destination is 64-byte aligned. -/
def hwyShlAlign (S : ShiftSem w) (U : Simd) (offset : Nat) (lastBase : Int) : Nat → Int → Int → M w (Int × Int)
  | 0, _, _ => ub .outOfFuel
  | fuel+1, f, m =>
    if m + 1 < lastBase ∧ ¬ U.al64 f then do
      let x ← load m
      let y ← load (m + 1)
      let z ← lift (shrd S x y offset)
      store f z
      hwyShlAlign S U offset lastBase fuel (f + 1) (m + 1)
    else pure (f, m)

/-- shift.hpp:195-202: the vector loop. `extra` is `!is_last_aligned`. -/
def hwyShlVec (U : Simd) (offset : Nat) (lastBase : Int) (extra : Nat) : Nat → Int → Int → M w (Int × Int)
  | 0, _, _ => ub .outOfFuel
  | fuel+1, f, m =>
    if toSize (lastBase - m) ≥ U.lanes + 10 + extra then do
      let a ← vloadU U m
      let v ← lift (vshr a offset)
      let b ← vloadU U (m + 1)
      let v1 ← lift (vshl b (w - offset))
      vstore U (List.zipWith (· ||| ·) v v1) f
      hwyShlVec U offset lastBase extra fuel (f + U.lanes) (m + U.lanes)
    else pure (f, m)

/-- shift.hpp:186-211: all whole words. -/
def hwyShlWords (S : ShiftSem w) (U : Simd) (offset : Nat) (last : BitIter w) (f m : Int) : M w (Int × Int) := do
  let (f, m) ← hwyShlAlign S U offset last.base ((last.base - m).toNat + 1) f m
  let (f, m) ← hwyShlVec U offset last.base (if last.pos = 0 then 0 else 1) ((last.base - m).toNat + 1) f m
  shiftLeftLoop S offset last.base ((last.base - m).toNat + 1) f m

/-- shift.hpp:137-238 with `BITLIB_HWY`: `first` is aligned. -/
def shiftLeftMainHwy (S : ShiftSem w) (U : Simd) (first middle last : BitIter w) (n : Int) : M w (BitIter w) :=
  if middle.base = last.base then do
    let bitsLeft : Int := (last.pos : Int) - (middle.pos : Int)
    if bitsLeft > 0 then do
      let x ← load middle.base
      let t ← lift (S.shr x middle.pos)
      blendAt S first.base t 0 bitsLeft.toNat
      pure (first.add bitsLeft)
    else pure first
  else do
    let _ ← distance first last
    let wordShifts : Int := Int.tdiv n w
    let offset := middle.pos
    if offset = 0 then do
      let fb ← wordShiftLeft first.base last.base wordShifts
      let first : BitIter w := ⟨fb, 0⟩
      if last.pos ≠ 0 then do
        let x ← load last.base
        writeWord S x first last.pos
        pure (first.add last.pos)
      else pure first
    else do
      let (fb, mb) ← hwyShlWords S U offset last first.base middle.base
      let first : BitIter w := ⟨fb, 0⟩
      let middle : BitIter w := ⟨mb, middle.pos⟩
      let (first, middle) ←
        if middle.base + 1 = last.base then do
          let x ← load middle.base
          let t ← lift (S.shr x offset)
          blendAt S first.base t 0 (w - offset)
          pure (first.add ((w - offset : Nat) : Int), middle.add ((w - offset : Nat) : Int))
        else pure (first, middle)
      if last.pos ≠ 0 then do
        let bitsLeft : Int := (last.pos : Int) - (middle.pos : Int)
        let x ← getWord S middle (toSize bitsLeft)
        writeWord S x first (toSize bitsLeft)
        pure (first.add bitsLeft)
      else pure first

/-- shift.hpp:46-238 with `BITLIB_HWY`. -/
def shiftLeftHwy (S : ShiftSem w) (U : Simd) (first last : BitIter w) (n : Int) : M w (BitIter w) := do
  assertViable first last
  let d ← distance first last
  let middle := first.add n
  if n ≤ 0 then pure last
  else if n ≥ d then pure first
  else if first.base + (if last.pos = 0 then 1 else 0) = last.base then do
    let lp := if last.pos = 0 then w else last.pos
    let msk ← lift (S.shr (BitVec.allOnes w) (w - lp))
    let x ← load first.base
    let t ← lift (S.shr (x &&& msk) n.toNat)
    blendAt S first.base t first.pos (lp - first.pos)
    pure ((first.add d).sub n)
  else if d - n ≤ w then do
    let x ← getWord S middle (d - n).toNat
    writeWord S x first (d - n).toNat
    pure ((first.add d).sub n)
  else do
    let _ ← load first.base
    if last.pos ≠ 0 then do
      let _ ← load last.base
      pure ()
    else pure ()
    if first.pos ≠ 0 then do
      let (first, middle) ← shiftLeftAlign S first middle d n
      shiftLeftMainHwy S U first middle last n
    else shiftLeftMainHwy S U first middle last n

/-! ### shift_right -/

/-- shift.hpp:323-327: scalar steps until the next vector store is 64-byte aligned. `l`, `m` are `last.base()`, `middle.base()`. -/
def hwyShrAlign (S : ShiftSem w) (U : Simd) (offset : Nat) (firstBase : Int) : Nat → Int → Int → M w (Int × Int)
  | 0, _, _ => ub .outOfFuel
  | fuel+1, l, m =>
    if m - 1 > firstBase ∧ ¬ U.al64 (l - U.lanes) then do
      let x ← load (m - 1)
      let y ← load m
      let z ← lift (shrd S x y offset)
      store (l - 1) z
      hwyShrAlign S U offset firstBase fuel (l - 1) (m - 1)
    else pure (l, m)

/-- shift.hpp:329-341: the vector loop. -/
def hwyShrVec (U : Simd) (offset : Nat) (firstBase : Int) : Nat → Int → Int → M w (Int × Int)
  | 0, _, _ => ub .outOfFuel
  | fuel+1, l, m =>
    if toSize (m - firstBase) > U.lanes + 1 then do
      let a ← vloadU U (m - U.lanes)
      let v ← lift (vshr a offset)
      let b ← vloadU U (m - U.lanes + 1)
      let v1 ← lift (vshl b (w - offset))
      vstore U (List.zipWith (· ||| ·) v v1) (l - U.lanes)
      hwyShrVec U offset firstBase fuel (l - U.lanes) (m - U.lanes)
    else pure (l, m)

/-- shift.hpp:320-351: all whole words. Returns `(last_base_prev, middle_base_prev)`. -/
def hwyShrLoop (S : ShiftSem w) (U : Simd) (offset : Nat) (firstBase l m : Int) : M w (Int × Int) := do
  let (l, m) ← hwyShrAlign S U offset firstBase ((m - firstBase).toNat + 1) l m
  let (l, m) ← hwyShrVec U offset firstBase ((m - firstBase).toNat + 1) l m
  shiftRightLoop S offset firstBase ((m - firstBase).toNat + 1) (l - 1) (m - 1)

/-- shift.hpp:318-362 with `BITLIB_HWY`. -/
def shiftRightWordsHwy (S : ShiftSem w) (U : Simd) (first middle last : BitIter w) (offset : Nat) :
    M w (BitIter w × BitIter w) := do
  let (lbp, mbp) ← hwyShrLoop S U offset first.base last.base middle.base
  let (lbp, mbp) ←
    if first.pos ≤ middle.pos then do
      let x ← load mbp
      let y ← load (mbp + 1)
      let z ← lift (shrd S x y offset)
      store lbp z
      pure (lbp - 1, mbp - 1)
    else pure (lbp, mbp)
  pure (⟨lbp + 1, last.pos⟩, ⟨mbp + 1, middle.pos⟩)

/-- shift.hpp:297-376 with `BITLIB_HWY`: `last` is aligned. -/
def shiftRightMainHwy (S : ShiftSem w) (U : Simd) (first middle last : BitIter w) (n : Int) : M w (BitIter w) := do
  let wordShifts : Int := Int.tdiv n w
  let offset := middle.pos
  if offset = 0 then do
    let _ ← wordShiftRight first.base last.base wordShifts
    pure (first.add n)
  else do
    let dm ← distance first middle
    if dm ≥ w then do
      let (last, middle) ← shiftRightWordsHwy S U first middle last offset
      shiftRightTail S first middle last n
    else shiftRightTail S first middle last n

/-- shift.hpp:240-377 with `BITLIB_HWY`. -/
def shiftRightHwy (S : ShiftSem w) (U : Simd) (first last : BitIter w) (n : Int) : M w (BitIter w) := do
  let d ← distance first last
  let middle := last.sub n
  if n ≤ 0 then pure first
  else if n ≥ d then pure last
  else if first.base + (if last.pos = 0 then 1 else 0) = last.base then do
    let lp := if last.pos = 0 then w else last.pos
    let msk ← lift (S.shl (BitVec.allOnes w) first.pos)
    let x ← load first.base
    let t ← lift (S.shl (x &&& msk) n.toNat)
    blendAt S first.base t first.pos (lp - first.pos)
    pure (first.add n)
  else if last.pos ≠ 0 then do
    let dm ← distance first middle
    let b := min last.pos dm.toNat
    let x ← getWord S (middle.sub b) b
    writeWord S x (last.sub b) b
    let middle := middle.sub b
    let last := last.sub b
    if middle.beq first then pure (first.add n)
    else shiftRightMainHwy S U first middle last n
  else shiftRightMainHwy S U first middle last n

/-! ### reverse -/

/-- reverse.hpp:65-81 in a `BITLIB_HWY` build. -/
def reverseShiftHwy (S : ShiftSem w) (U : Simd) (fb lb wend : Int) (fp gap : Nat) : M w Unit :=
  if fp < gap then do
    let _ ← shiftLeftHwy S U (BitIter.aligned fb) (BitIter.aligned (lb + 1)) ((gap - fp : Nat) : Int)
    pure ()
  else if fp > gap then do
    let _ ← shiftRightHwy S U (BitIter.aligned fb) (BitIter.aligned wend) ((fp - gap : Nat) : Int)
    pure ()
  else pure ()

/-- reverse.hpp:27-111 in a `BITLIB_HWY` build: the two shifts are the vector versions. -/
def reverseHwy (S : ShiftSem w) (U : Simd) (first last : BitIter w) : M w Unit := do
  assertViable first last
  let gap := if last.pos = 0 then 0 else w - last.pos
  if first.pos = 0 ∧ last.pos = 0 then do
    stdReverse first.base last.base
    let _ ← stdTransform first.base last.base first.base bitswap
    pure ()
  else if first.base ≠ last.base then do
    let firstValue ← load first.base
    let lastValue ← load (last.base - (if last.pos = 0 then 1 else 0))
    let wend := last.base + (if last.pos = 0 then 0 else 1)
    stdReverse first.base wend
    let _ ← stdTransform first.base wend first.base bitswap
    reverseShiftHwy S U first.base last.base wend first.pos gap
    reverseFirst S first.base first.pos firstValue
    reverseLast S last.base last.pos lastValue
  else do
    let x ← load first.base
    let t ← lift (S.shr x first.pos)
    let t ← lift (S.shr (bitswap t) gap)
    blendAt S first.base t first.pos (subSize last.pos first.pos)

end BitLib
