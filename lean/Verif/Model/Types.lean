import Verif.Model.Instr
/-
Selection of a word type by its number of bits, and the selection of a branch in `_addcarry`, `_subborrow` and `_mulx`
(include/bitlib/bit-iterator/bit_details.hpp). A type is represented by its number of bits; `std::common_type` of two types with
equally many bits has that number of bits (true of the standard unsigned types). `narrowerFrom` and `widerType` are in `Model/Instr`.
-/
namespace BitLib
variable {w : Nat}

/-- bit_details.hpp:110-125, `_narrowest_type<T, U>`. -/
def narrowest2 (t u : Nat) : Nat := if t < u then t else if t > u then u else t

/-- bit_details.hpp:98-133, `_narrowest_type<T, U...>`: the recursion over the pack. The empty pack has no definition
(`struct _narrowest_type;` is incomplete), hence the option. -/
def narrowestType : List Nat → Option Nat
  | [] => none
  | [t] => some t
  | t :: u :: rest => (narrowestType (u :: rest)).map (narrowest2 t)

/-- bit_details.hpp:150-165, `_widest_type<T, U>`. -/
def widest2 (t u : Nat) : Nat := if t > u then t else if t < u then u else t

/-- bit_details.hpp:138-173, `_widest_type<T, X...>`. -/
def widestType : List Nat → Option Nat
  | [] => none
  | [t] => some t
  | t :: u :: rest => (widestType (u :: rest)).map (widest2 t)

/-- bit_details.hpp:183-215, `_narrower_type<T>`. -/
def narrowerType (w : Nat) : Nat := narrowerFrom w narrowerTuple

/-- The branches of `_addcarry`, `_subborrow` (builtin for 32 bits, builtin for 64 bits, wider type, portable) and of `_mulx`
(128-bit product, wider type, portable). -/
inductive Branch where
  | builtin | wide | portable
  deriving DecidableEq, Repr

/-- bit_details.hpp:901-914, 941-954, 969-982: the tests of `_addcarry` and `_subborrow`. -/
def carryBranch (w : Nat) : Branch :=
  if w = 32 then .builtin
  else if w = 64 then .builtin
  else if w < widerType w then .wide
  else .portable

/-- bit_details.hpp:1009-1019, the tests of `_mulx`. -/
def mulxBranch (w : Nat) : Branch :=
  if w = 64 then .builtin
  else if w + w = widerType w then .wide
  else .portable

/-- `__builtin_ia32_addcarryx_u32/u64(carry, src0, src1, &dst)`: the sum modulo `2^w` and the carry. -/
def builtinAddcarry (carry : Bool) (src0 src1 : BitVec w) : BitVec w × Bool :=
  let sum := src0.toNat + src1.toNat + carry.toNat
  (BitVec.ofNat w sum, decide (2 ^ w ≤ sum))

/-- `__builtin_ia32_sbb_u32/u64` and `__builtin_ia32_subborrow_u32/u64`: the difference modulo `2^w` and the borrow. -/
def builtinSubborrow (borrow : Bool) (src0 src1 : BitVec w) : BitVec w × Bool :=
  let sub := src1.toNat + borrow.toNat
  (BitVec.ofNat w (src0.toNat + 2 * 2 ^ w - sub), decide (src0.toNat < sub))

/-- bit_details.hpp:891-916, `_addcarry` with intrinsics. -/
def addcarrySel (carry : Bool) (src0 src1 : BitVec w) : BitVec w × Bool :=
  match carryBranch w with
  | .builtin => builtinAddcarry carry src0 src1
  | .wide => addcarryWide (widerType w) carry src0 src1
  | .portable => addcarry carry src0 src1

/-- bit_details.hpp:931-956 and 958-984, `_subborrow` with intrinsics. -/
def subborrowSel (borrow : Bool) (src0 src1 : BitVec w) : BitVec w × Bool :=
  match carryBranch w with
  | .builtin => builtinSubborrow borrow src0 src1
  | .wide => subborrowWide (widerType w) borrow src0 src1
  | .portable => subborrow borrow src0 src1

/-- `__builtin_bswap16/32/64`: byte `i` of the argument becomes byte `n - 1 - i` of the result, `n` bytes in all. -/
def builtinBswap (x : BitVec w) : BitVec w :=
  (List.range (w / 8)).foldl (fun acc i => acc ||| ((getByte x i).setWidth w <<< (8 * (w / 8 - 1 - i)))) 0#w

/-- bit_details.hpp:633-657, `_byteswap` with intrinsics; `std::is_same<T, T128>` is a test for 128 bits. (The overloads of `_bextr`, `_pdep` and
`_pext` with intrinsics, bit_details.hpp:518-532, 550-564, 592-606, are never selected: their `decltype` calls the intrinsic with a wrong number of
arguments.) -/
def byteswapSel (src : BitVec w) : BitVec w :=
  if h : w = 128 then (byteswap128 (src.cast h)).cast h.symm
  else if w = 16 then builtinBswap src
  else if w = 32 then builtinBswap src
  else if w = 64 then builtinBswap src
  else if w > 8 then byteswap src
  else src

/-- bit_details.hpp:1000-1021, `_mulx` with intrinsics. Returns `(lo, *hi)`. -/
def mulxSel (src0 src1 : BitVec w) : BitVec w × BitVec w :=
  match mulxBranch w with
  | .builtin => mulxWide 128 src0 src1
  | .wide => mulxWide (widerType w) src0 src1
  | .portable => mulx src0 src1

end BitLib
