import Verif.SpecVec
/-
What the words of a `bit_vector` hold, as far as they are constructed: more than its elements.

The bits behind the last element are not visible until `resize` makes elements of them. `Store` is the state of a vector including these
bits, and the functions below say what each member does to it.
-/
namespace BitLib
variable {w : Nat}

/-- All bits of the constructed words of a vector, and how many of them are elements. -/
structure Store where
  bits : List Bool
  n : Nat
  deriving DecidableEq

namespace Store

/-- The elements. -/
def elems (s : Store) : List Bool := s.bits.take s.n

/-- No bit behind the elements is set. -/
def Clean (s : Store) : Prop := ∀ k, s.n ≤ k → k < s.bits.length → s.bits[k]? = some false

/-- The smallest multiple of `w` that is at least `n`. -/
def ceilW (w n : Nat) : Nat := (n + w - 1) / w * w

/-- Words of zeros are appended until there is room for `n` bits. -/
def widen (w : Nat) (f : List Bool) (n : Nat) : List Bool := f ++ List.replicate (ceilW w n - f.length) false

/-- Exactly the words for `n` bits: words are dropped, or words of zeros appended. -/
def trim (w : Nat) (f : List Bool) (n : Nat) : List Bool := (widen w f n).take (ceilW w n)

/-- Elements kept in as many words as there are elements. -/
def roomy (w : Nat) (l : List Bool) : Store := ⟨l ++ List.replicate (l.length * w - l.length) false, l.length⟩

/-- The elements `xs` inserted before position `d`. -/
def put (w : Nat) (s : Store) (d : Nat) (xs : List Bool) : Store :=
  ⟨splice (widen w s.bits (s.n + xs.length)) d (xs ++ slice s.bits d s.n), s.n + xs.length⟩

/-- The elements from `d + c` on moved down to `d`; what is left behind is that of `shift_left`. -/
def close (w : Nat) (s : Store) (d c : Nat) : List Bool :=
  if d + c < s.n then splice s.bits d (slice s.bits (d + c) s.n ++ vacatedL w s.bits d s.n c) else s.bits

/-- One element less at the end; a word is dropped if the new length is a multiple of `w`. -/
def less (w : Nat) (f : List Bool) (n : Nat) : Store := ⟨if (n - 1) % w = 0 then f.take (f.length - w) else f, n - 1⟩

def pop (w : Nat) (s : Store) : Store := less w s.bits s.n

def erase (w : Nat) (s : Store) (d : Nat) : Store := less w (s.close w d 1) s.n

def eraseRange (w : Nat) (s : Store) (a b : Nat) : Store :=
  if a = b then s else ⟨trim w (s.close w a (b - a)) (s.n - (b - a)), s.n - (b - a)⟩

/-- `resize`: the new elements are what the words hold. -/
def resize (w : Nat) (s : Store) (n : Nat) : Store := ⟨trim w s.bits n, n⟩

end Store

/-- In the heap `h`, the words of the vector `v` hold the bits of `s`, of which the first `s.n` are its elements. -/
structure HoldsAll (h : Heap w) (v : BV) (s : Store) : Prop where
  rep : Rep h ⟨v.vec, v.vec.size * w⟩ s.bits
  len : v.length = s.n
  fit : s.n ≤ s.bits.length

end BitLib
