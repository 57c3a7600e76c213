import Verif.Model.Iter
/-
Specification vocabulary: memory seen as a sequence of bits indexed by an absolute bit address.
Nothing here refers to the algorithms of the library.
-/
namespace BitLib

variable {w : Nat}

/-- Absolute address of the bit designated by an iterator. -/
def BitIter.addr (it : BitIter w) : Int := it.base * (w : Int) + (it.pos : Int)

/-- Class invariant of `bit_iterator`: the position lies inside the word. -/
def BitIter.Valid (it : BitIter w) : Prop := it.pos < w

instance (it : BitIter w) : Decidable it.Valid := inferInstanceAs (Decidable (it.pos < w))

/-- The bit at absolute bit address `i`: bit `i mod w` of the word at address `i div w`. -/
def bitAt (m : Mem w) (i : Int) : Option Bool :=
  (m (i / (w : Int))).map fun x => x.getLsbD (i % (w : Int)).toNat

/-- Every bit with address in `[a, b)` lies in a mapped word. -/
def Mapped (m : Mem w) (a b : Int) : Prop := ∀ i, a ≤ i → i < b → (bitAt m i).isSome

/-- `m'` is `m` with the bits of `[a, b)` replaced by `f`. -/
def Wrote (m m' : Mem w) (a b : Int) (f : Int → Option Bool) : Prop :=
  ∀ i, bitAt m' i = if a ≤ i ∧ i < b then f i else bitAt m i

/-- `m'` is `m` with the `n` bits at `dst` replaced by the `n` bits that `m` has at `src`. -/
def Copied (m m' : Mem w) (src dst n : Int) : Prop :=
  Wrote m m' dst (dst + n) fun i => bitAt m (src + (i - dst))

/-- The same words are mapped in both memories. -/
def SameMapped (m m' : Mem w) : Prop := ∀ i, (bitAt m' i).isSome = (bitAt m i).isSome

/-- The `n` bits at `dst` become `f` of the `n` bits at `src`. -/
def Mapd (f : Bool → Bool) (m m' : Mem w) (src dst n : Int) : Prop :=
  Wrote m m' dst (dst + n) fun i => (bitAt m (src + (i - dst))).map f

/-- Combine two optional bits. -/
def zipBit (f : Bool → Bool → Bool) : Option Bool → Option Bool → Option Bool
  | some a, some b => some (f a b)
  | _, _ => none

/-- The `n` bits at `dst` become `f` of the `n` bits at `s` and the `n` bits at `t`. -/
def Mapd2 (f : Bool → Bool → Bool) (m m' : Mem w) (s t dst n : Int) : Prop :=
  Wrote m m' dst (dst + n) fun i => zipBit f (bitAt m (s + (i - dst))) (bitAt m (t + (i - dst)))

/-- `r` is the first position of `[a, b)` with value `v`, or `b`. -/
def FirstAt (m : Mem w) (v : Bool) (a b r : Int) : Prop :=
  a ≤ r ∧ r ≤ b ∧ (∀ i, a ≤ i → i < r → bitAt m i = some (!v)) ∧ (r < b → bitAt m r = some v)

/-- The `n` bits at `s` and at `d` agree. -/
def EqBits (m : Mem w) (s d n : Int) : Prop := ∀ i, 0 ≤ i → i < n → bitAt m (s + i) = bitAt m (d + i)

/-- Number of bits equal to `v` among the `n` bits at `a`. -/
def countIn (m : Mem w) (v : Bool) (a : Int) (n : Nat) : Nat :=
  (List.range n).countP fun i : Nat => decide (bitAt m (a + (i : Int)) = some v)

/-- The bits of `[a, b)` in reverse order; everything else unchanged. -/
def Reversed (m m' : Mem w) (a b : Int) : Prop :=
  ∀ i, bitAt m' i = if a ≤ i ∧ i < b then bitAt m (a + b - 1 - i) else bitAt m i

/-- The bits of `[a, c)` have been rotated so that the bit at `b` comes first. -/
def Rotated (m m' : Mem w) (a b c : Int) : Prop :=
  ∀ i, bitAt m' i = if a ≤ i ∧ i < a + (c - b) then bitAt m (i + (b - a))
    else if a + (c - b) ≤ i ∧ i < c then bitAt m (i - (c - b)) else bitAt m i

/-- Lengths of the left and the right part of a range whose rotation by swapping blocks overflows a 32-bit block count: the left part is at
least `2^32` times the right part, or this happens to the parts that remain after the shorter part (if longer than a word) has been swapped
through the longer one, as in Euclid's algorithm. -/
inductive RotFails (w : Nat) : Int → Int → Prop
  | count {left right : Int} : (w : Int) < right → 2 ^ 32 * right ≤ left → RotFails w left right
  | left {left right : Int} : (w : Int) < left → left < right → RotFails w (left - right % left) (right % left) → RotFails w left right
  | right {left right : Int} : (w : Int) < right → right < left → RotFails w (left % right) (right - left % right) → RotFails w left right

/-- Lengths of the left and the right part of a range for which no block count of a rotation overflows. -/
def RotFits (w : Nat) (left right : Int) : Prop := ¬ RotFails w left right

/-- `m'` is `m` with the bits of `[a, c)` rotated so that the bit at `b` comes first; the bits of `[s, e)` (a buffer) are arbitrary. -/
def RotatedBut (m m' : Mem w) (a b c s e : Int) : Prop :=
  ∀ i, (i < s ∨ e ≤ i) → bitAt m' i = if a ≤ i ∧ i < a + (c - b) then bitAt m (i + (b - a))
    else if a + (c - b) ≤ i ∧ i < c then bitAt m (i - (c - b)) else bitAt m i

/-- Effect of `shift_left` by `n` on the bits of `[a, b)`: the vacated bits `[b - n, b)` are unspecified. -/
def ShiftedL (m m' : Mem w) (a b n : Int) : Prop :=
  (∀ i, a ≤ i → i < b - n → bitAt m' i = bitAt m (i + n)) ∧
  (∀ i, (i < a ∨ b ≤ i) → bitAt m' i = bitAt m i) ∧ SameMapped m m'

/-- Effect of `shift_right` by `n` on the bits of `[a, b)`: the vacated bits `[a, a + n)` are unspecified. -/
def ShiftedR (m m' : Mem w) (a b n : Int) : Prop :=
  (∀ i, a + n ≤ i → i < b → bitAt m' i = bitAt m (i - n)) ∧
  (∀ i, (i < a ∨ b ≤ i) → bitAt m' i = bitAt m i) ∧ SameMapped m m'

/-- Everything `shift_left` by `n` does to memory, vacated bits `[b - n, b)` included: they are cleared when the whole range lies in one
word, and keep their values otherwise. -/
def ShiftedLAll (m m' : Mem w) (a b n : Int) : Prop :=
  ∀ i, bitAt m' i = if a ≤ i ∧ i < b - n then bitAt m (i + n)
    else if b - n ≤ i ∧ i < b ∧ a / w = (b - 1) / w then some false else bitAt m i

/-- How many bits before `a` a `shift_right` of `[a, b)` by `n` moves along with the range: all the bits of the word of `a` that are
before `a`, when `n` is a multiple of the word width and the bits that stay in the range reach into a later word. -/
def leaked (w : Nat) (a b n : Int) : Int := if 0 < n ∧ n % w = 0 ∧ a / w < (b - n) / w then a % w else 0

/-- Everything `shift_right` by `n` does to memory, vacated bits `[a, a + n)` included: they are cleared when the whole range lies in one
word; otherwise the last `leaked` of them receive the bits that precede the range, and the rest keep their values. -/
def ShiftedRAll (m m' : Mem w) (a b n : Int) : Prop :=
  ∀ i, bitAt m' i = if a + n - leaked w a b n ≤ i ∧ i < b then bitAt m (i - n)
    else if a ≤ i ∧ i < a + n ∧ a / w = (b - 1) / w then some false else bitAt m i

/-- The `n` bits at `a` and the `n` bits at `b` have been exchanged. -/
def Swapped (m m' : Mem w) (a b n : Int) : Prop :=
  ∀ i, bitAt m' i = if a ≤ i ∧ i < a + n then bitAt m (b + (i - a))
    else if b ≤ i ∧ i < b + n then bitAt m (a + (i - b)) else bitAt m i

/-- `[first, last)` is a valid range of bits of `m`: both iterators are well formed, `last` is not before `first`,
and every bit in between lies in a mapped word. Nothing is assumed about any other word. -/
structure Range (m : Mem w) (first last : BitIter w) : Prop where
  validFirst : first.Valid
  validLast : last.Valid
  le : first.addr ≤ last.addr
  mapped : Mapped m first.addr last.addr

/-- Number of bits of a range. -/
def len (first last : BitIter w) : Int := last.addr - first.addr

/-- `n` bits starting at `d` are mapped. -/
structure Dest (m : Mem w) (d : BitIter w) (n : Int) : Prop where
  valid : d.Valid
  mapped : Mapped m d.addr (d.addr + n)

/-- Word `c` holds a bit of `[a, b)`. -/
def HoldsBit (w : Nat) (a b c : Int) : Prop := ∃ i, a ≤ i ∧ i < b ∧ i / (w : Int) = c

open Classical in
/-- The memory in which only the words satisfying `P` may be accessed. -/
noncomputable def Mem.only (m : Mem w) (P : Int → Prop) : Mem w := fun c => if P c then m c else none

/-- A memory holding exactly the given words, at addresses 0, 1, ... -/
def memOf (l : List (BitVec w)) : Mem w := fun a => if 0 ≤ a then l[a.toNat]? else none

end BitLib
