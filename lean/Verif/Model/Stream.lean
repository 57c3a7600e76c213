import Verif.Model.Ref
/-
Stream insertion and extraction: bit_value.hpp:437-500 and bit_reference.hpp:443-506, over a model of the parts of
`std::basic_istream`/`std::basic_ostream` they use.

Simplifications: the exception masks are the default ones (a state change never throws); `tie()` is not modelled; the output
buffer accepts every character; the characters behind the read position form a finite list.
-/
namespace BitLib
variable {w : Nat} {C : Type}

/-- The locale dependent parts: `ctype::is(space, c)`, `widen('0')` and `widen('1')`. -/
structure Chars (C : Type) where
  isSpace : C → Bool
  zero : C
  one : C

/-- What reading past the last character of the buffer does: return `eof` or throw. -/
inductive AtEnd where
  | eof | throws
  deriving DecidableEq, Repr

/-- `std::basic_istream` with its buffer. -/
structure IStream (C : Type) where
  /-- characters that were not consumed yet -/
  rest : List C
  atEnd : AtEnd
  /-- whether `sputbackc` succeeds right after `sbumpc` (it does while the character is still in the buffer) -/
  canPutback : Bool
  skipws : Bool
  eofbit : Bool
  failbit : Bool
  badbit : Bool
  deriving DecidableEq, Repr

/-- `is.good()`. -/
def IStream.good (s : IStream C) : Bool := !s.eofbit && !s.failbit && !s.badbit

/-- `std::basic_istream::sentry(is)` with `noskipws = false`: a stream that is not good fails; otherwise, if the flag
`skipws` is set, white space is consumed, and reaching the end fails with `eofbit` (or `badbit` if the buffer throws).
Returns the value of the sentry. -/
def IStream.sentry (L : Chars C) (s : IStream C) : Bool × IStream C :=
  if s.good then
    if s.skipws then
      let r := s.rest.dropWhile L.isSpace
      if r.isEmpty then
        match s.atEnd with
        | .eof => (false, { s with rest := r, eofbit := true, failbit := true })
        | .throws => (false, { s with rest := r, badbit := true, failbit := true })
      else (true, { s with rest := r })
    else (true, s)
  else (false, { s with failbit := true })

/-- `operator>>(is, tmp)` up to the final `if (ok)`: the stream, `tmp`, `ok` and the local `state` (eofbit, failbit)
(bit_value.hpp:448-480, bit_reference.hpp:454-486). -/
def extractCore [DecidableEq C] (L : Chars C) (s : IStream C) (tmp : Bool) : IStream C × Bool × Bool × Bool × Bool :=
  let (entered, s) := s.sentry L
  if entered then
    match s.rest with
    | [] =>
      match s.atEnd with
      | .eof => (s, tmp, false, true, false)
      | .throws => ({ s with badbit := true }, tmp, false, false, false)
    | c :: r =>
      let s := { s with rest := r }
      if c = L.zero then (s, false, true, false, false)
      else if c = L.one then (s, true, true, false, false)
      else if s.canPutback then ({ s with rest := c :: r }, tmp, false, false, false)
      else (s, tmp, false, false, true)
  else (s, tmp, false, false, false)

/-- `state ? is.setstate(state) : void()`. -/
def IStream.setstate (s : IStream C) (eof fail : Bool) : IStream C :=
  { s with eofbit := s.eofbit || eof, failbit := s.failbit || fail }

/-- bit_value.hpp:438-488, `operator>>(is, bit_value& x)`: the stream and the value of `x` afterwards. -/
def extractVal [DecidableEq C] (L : Chars C) (s : IStream C) (x : BitVal) : IStream C × BitVal :=
  let (s, tmp, ok, eof, fail) := extractCore L s x.value
  if ok then (s.setstate eof fail, ⟨tmp⟩) else (s.setstate eof true, x)

/-- bit_reference.hpp:444-494, `operator>>(is, bit_reference<T>& x)`: reads the bit, and writes it if a digit was extracted. -/
def extractRef [DecidableEq C] (L : Chars C) (s : IStream C) (x : BitRef w) : M w (IStream C) := do
  let v ← x.toVal
  let (s, tmp, ok, eof, fail) := extractCore L s v.value
  if ok then do
    x.assignVal ⟨tmp⟩
    pure (s.setstate eof fail)
  else pure (s.setstate eof true)

/-- `std::basic_ostream` with its buffer. -/
structure OStream (C : Type) where
  /-- characters written so far -/
  out : List C
  width : Nat
  fill : C
  /-- `adjustfield == left` -/
  left : Bool
  good : Bool
  failbit : Bool

/-- `os << c` for a character: a formatted output function, pads to `width()` with `fill()` and then does `width(0)`. -/
def OStream.putChar (o : OStream C) (c : C) : OStream C :=
  if o.good then
    let pad := List.replicate (o.width - 1) o.fill
    { o with out := o.out ++ (if o.left then c :: pad else pad ++ [c]), width := 0 }
  else { o with failbit := true }

/-- bit_value.hpp:490-500, `operator<<(os, bit_value x)`: `os << os.widen(x ? one : zero)`. -/
def insertVal (L : Chars C) (o : OStream C) (x : BitVal) : OStream C := o.putChar (if x.toBool then L.one else L.zero)

/-- bit_reference.hpp:496-506, `operator<<(os, bit_reference x)`. -/
def insertRef (L : Chars C) (o : OStream C) (x : BitRef w) : M w (OStream C) := do
  let b ← x.toBool
  pure (o.putChar (if b then L.one else L.zero))

end BitLib
