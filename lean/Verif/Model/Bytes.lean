import Verif.Model.Ref
/- Words of different types in one storage: words of `8 * k` bits as `k` consecutive bytes, and the operations of `bit_reference`
between references to words of different types.

The existing model of one word type uses a memory of words; here the memory is made of bytes, so that references to words of
different types may designate bits of the same storage (C++ allows that if one of the word types is `unsigned char`).
Simplified: alignment and effective types are not modelled, so the theorems also speak about accesses that C++ forbids. -/
namespace BitLib

/-- Byte order of the machine. -/
inductive Endian where
  | little | big
  deriving DecidableEq

/-- The address of the byte of significance `i` of a `k`-byte word at byte address `a`. -/
def byteAddr (e : Endian) (k : Nat) (a : Int) (i : Nat) : Int :=
  match e with
  | .little => a + (i : Int)
  | .big => a + ((k : Int) - 1 - (i : Int))

/-- The value of the `n` least significant bytes of a word. -/
def loadBytesOf (e : Endian) (k : Nat) (a : Int) : Nat → M 8 Nat
  | 0 => pure 0
  | n + 1 => do
    let r ← loadBytesOf e k a n
    let b ← load (byteAddr e k a n)
    pure (r + b.toNat * 256 ^ n)

/-- `*p` as an rvalue, for a pointer to a `k`-byte word. -/
def loadWord (e : Endian) (k : Nat) (a : Int) : M 8 (BitVec (8 * k)) := do
  let r ← loadBytesOf e k a k
  pure (BitVec.ofNat (8 * k) r)

/-- Store the `n` least significant bytes of a word. -/
def storeBytesOf (e : Endian) (k : Nat) (a : Int) (x : Nat) : Nat → M 8 Unit
  | 0 => pure ()
  | n + 1 => do
    storeBytesOf e k a x n
    store (byteAddr e k a n) (BitVec.ofNat 8 (x / 256 ^ n))

/-- `*p = x`, for a pointer to a `k`-byte word. -/
def storeWord (e : Endian) (k : Nat) (a : Int) (x : BitVec (8 * k)) : M 8 Unit := storeBytesOf e k a x.toNat k

namespace BitRef
variable {k l : Nat}

/-- bit_reference.hpp:275-281, `operator bool`; the member `_ptr` is a byte address here. -/
def toBoolB (e : Endian) (r : BitRef (8 * k)) : M 8 Bool := do
  let x ← loadWord e k r.ptr
  pure (decide (x &&& r.mask ≠ 0#(8 * k)))

/-- bit_reference.hpp:338-345, `set()`. -/
def setB (e : Endian) (r : BitRef (8 * k)) : M 8 Unit := do
  let x ← loadWord e k r.ptr
  storeWord e k r.ptr (x ||| r.mask)

/-- bit_reference.hpp:347-354, `reset()`. -/
def resetB (e : Endian) (r : BitRef (8 * k)) : M 8 Unit := do
  let x ← loadWord e k r.ptr
  storeWord e k r.ptr (x &&& ~~~r.mask)

/-- bit_reference.hpp:356-363, `flip()`. -/
def flipB (e : Endian) (r : BitRef (8 * k)) : M 8 Unit := do
  let x ← loadWord e k r.ptr
  storeWord e k r.ptr (x ^^^ r.mask)

/-- bit_value.hpp:155-162, the conversion `bit_value(bit_reference)`. -/
def toValB (e : Endian) (r : BitRef (8 * k)) : M 8 BitVal := do
  let b ← r.toBoolB e
  pure ⟨b⟩

/-- bit_reference.hpp:194-203, `operator=(const bit_reference<T>& other)` for another word type. -/
def assignMixed (e : Endian) (r : BitRef (8 * k)) (o : BitRef (8 * l)) : M 8 Unit := do
  let b ← o.toBoolB e
  if b then r.setB e else r.resetB e

/-- bit_reference.hpp:299-310, `swap(bit_reference<T> other)` for another word type: `other != *this` is evaluated on
`bit_value`s. -/
def swapMember (e : Endian) (r : BitRef (8 * k)) (o : BitRef (8 * l)) : M 8 Unit := do
  let b ← o.toValB e
  let a ← r.toValB e
  if b.ne a then do
    r.flipB e
    o.flipB e
  else pure ()

/-- bit_reference.hpp:401-412, the free `swap(bit_reference<T>, bit_reference<U>)`. -/
def swapMixed (e : Endian) (r : BitRef (8 * k)) (o : BitRef (8 * l)) : M 8 Unit := do
  let a ← r.toValB e
  let b ← o.toValB e
  if a.ne b then do
    r.flipB e
    o.flipB e
  else pure ()

/-- bit_value.hpp:381-432 applied to two references, which are converted to `bit_value`s. -/
def cmpMixed (op : BitVal → BitVal → Bool) (e : Endian) (r : BitRef (8 * k)) (o : BitRef (8 * l)) : M 8 Bool := do
  let a ← r.toValB e
  let b ← o.toValB e
  pure (op a b)

/-- bit_value.hpp:347-374, `&`, `|` and `^` applied to two references. -/
def opMixed (op : BitVal → BitVal → BitVal) (e : Endian) (r : BitRef (8 * k)) (o : BitRef (8 * l)) : M 8 BitVal := do
  let a ← r.toValB e
  let b ← o.toValB e
  pure (op a b)

end BitRef

end BitLib
