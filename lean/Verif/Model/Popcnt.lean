import Verif.Model.Word
/-
include/bitlib/bit-algorithms/libpopcnt.h: population count of a byte buffer.

Memory is a memory of 8-bit words; the buffer is the `size` bytes at address `p`. Multi-byte loads are little-endian
(the count does not depend on it). Vector registers are families of 64-bit lanes: lane `j` of a `__m256i`
(`j < 4`) or `__m512i` (`j < 8`); every modelled vector instruction works inside 64-bit lanes.

Simplifications: the `popcnt` instruction and `__builtin_popcountll` are taken to count set bits; unaligned and type-punned
loads are taken to read the bytes; `size` and the index are natural numbers (buffers are smaller than `2^63` bytes, so the
`uint64_t` index arithmetic does not wrap); the counters are 64-bit and wrap.
-/
namespace BitLib

/-- Byte `i` of a 64-bit value. -/
def byteAt (x : BitVec 64) (i : Nat) : BitVec 8 := BitVec.ofNat 8 (x.toNat / 256 ^ i)

/-- The 64-bit value with the given bytes. -/
def ofBytes (f : Nat → BitVec 8) : BitVec 64 :=
  BitVec.ofNat 64 ((f 0).toNat + (f 1).toNat * 256 + (f 2).toNat * 256 ^ 2 + (f 3).toNat * 256 ^ 3 +
    (f 4).toNat * 256 ^ 4 + (f 5).toNat * 256 ^ 5 + (f 6).toNat * 256 ^ 6 + (f 7).toNat * 256 ^ 7)

/-- `memcpy` of `n` bytes at `a` into a zeroed object. -/
def loadBytes : Nat → Int → M 8 (Nat → BitVec 8)
  | 0, _ => pure fun _ => 0#8
  | n+1, a => do
    let f ← loadBytes n a
    let x ← load (a + (n : Int))
    pure fun j => if j = n then x else f j

/-- `*(const uint64_t*)a`. -/
def load64 (a : Int) : M 8 (BitVec 64) := do
  let f ← loadBytes 8 a
  pure (ofBytes f)

/-- libpopcnt.h:152-164, `popcount64`. -/
def popcount64 (x : BitVec 64) : BitVec 64 :=
  let m1 := 0x5555555555555555#64
  let m2 := 0x3333333333333333#64
  let m4 := 0x0F0F0F0F0F0F0F0F#64
  let h01 := 0x0101010101010101#64
  let x := x - ((x >>> 1) &&& m1)
  let x := (x &&& m2) + ((x >>> 2) &&& m2)
  let x := (x + (x >>> 4)) &&& m4
  (x * h01) >>> 56

/-- Which of the definitions of `popcnt64` the preprocessor selects. -/
inductive Popcnt64 where
  /-- libpopcnt.h:169-173, 195-198, 214-217: one 64-bit instruction or builtin -/
  | wide
  /-- libpopcnt.h:178-188, 205-209: two 32-bit instructions -/
  | halves
  /-- libpopcnt.h:223-226: `popcount64` -/
  | integer
  deriving DecidableEq, Repr

/-- libpopcnt.h:166-228, `popcnt64`. -/
def popcnt64 : Popcnt64 → BitVec 64 → BitVec 64
  | .wide, x => BitVec.ofNat 64 (popcntBits x 64)
  | .halves, x =>
    (BitVec.ofNat 32 (popcntBits (x.setWidth 32) 32) + BitVec.ofNat 32 (popcntBits ((x >>> 32).setWidth 32) 32)).setWidth 64
  | .integer, x => popcount64 x

/-! ### Vector instructions -/

/-- A vector register: a family of 64-bit lanes. -/
abbrev Lanes := Nat → BitVec 64

/-- `_mm256_loadu_si256`, `_mm512_loadu_si512`: `n` lanes at `a`. -/
def loadLanes : Nat → Int → M 8 Lanes
  | 0, _ => pure fun _ => 0#64
  | n+1, a => do
    let f ← loadLanes n a
    let x ← load64 (a + 8 * (n : Int))
    pure fun j => if j = n then x else f j

/-- Apply a byte operation to every byte of a lane. -/
def mapBytes (f : BitVec 8 → BitVec 8) (x : BitVec 64) : BitVec 64 := ofBytes fun i => f (byteAt x i)

/-- Apply a byte operation to corresponding bytes of two lanes (`_mm512_add_epi8`, `_mm512_sub_epi8`). -/
def zipBytes (f : BitVec 8 → BitVec 8 → BitVec 8) (x y : BitVec 64) : BitVec 64 := ofBytes fun i => f (byteAt x i) (byteAt y i)

/-- The 16-bit element `k` of a lane. -/
def halfAt (x : BitVec 64) (k : Nat) : BitVec 16 := BitVec.ofNat 16 (x.toNat / 65536 ^ k)

/-- `_mm256_srli_epi16`, `_mm512_srli_epi16`: every 16-bit element is shifted on its own. -/
def srli16 (x : BitVec 64) (n : Nat) : BitVec 64 :=
  BitVec.ofNat 64 ((halfAt x 0 >>> n).toNat + (halfAt x 1 >>> n).toNat * 65536 + (halfAt x 2 >>> n).toNat * 65536 ^ 2 +
    (halfAt x 3 >>> n).toNat * 65536 ^ 3)

/-- Sum of `f 0 .. f (n-1)`. -/
def sumTo (f : Nat → Nat) : Nat → Nat
  | 0 => 0
  | n+1 => sumTo f n + f n

/-- `_mm256_sad_epu8`, `_mm512_sad_epu8`: sum of the absolute differences of the eight bytes. -/
def sad8 (x y : BitVec 64) : BitVec 64 :=
  BitVec.ofNat 64 (sumTo (fun i => ((byteAt x i).toNat - (byteAt y i).toNat) + ((byteAt y i).toNat - (byteAt x i).toNat)) 8)

/-- `_mm256_shuffle_epi8` with a table that is the same in both 128-bit halves. -/
def shuffle8 (table : List Nat) (idx : BitVec 64) : BitVec 64 :=
  mapBytes (fun b => if b.getLsbD 7 then 0#8 else BitVec.ofNat 8 (table.getD (b.toNat % 16) 0)) idx

/-- libpopcnt.h:352-357, `CSA256`: (h, l). -/
def csa256 (a b c : BitVec 64) : BitVec 64 × BitVec 64 :=
  let u := a ^^^ b
  ((a &&& b) ||| (u &&& c), u ^^^ c)

/-- One minterm of `_mm512_ternarylogic_epi32`: the bits where (a, b, c) spell the number `k`. -/
def minterm (k : Nat) (a b c : BitVec 64) : BitVec 64 :=
  (if k.testBit 2 then a else ~~~a) &&& (if k.testBit 1 then b else ~~~b) &&& (if k.testBit 0 then c else ~~~c)

/-- `_mm512_ternarylogic_epi32(a, b, c, imm)`. -/
def ternlog (a b c : BitVec 64) (imm : Nat) : BitVec 64 :=
  let t := fun k => if imm.testBit k then minterm k a b c else 0#64
  t 0 ||| t 1 ||| t 2 ||| t 3 ||| t 4 ||| t 5 ||| t 6 ||| t 7

/-- libpopcnt.h:477-481, `CSA512`: (h, l). -/
def csa512 (a b c : BitVec 64) : BitVec 64 × BitVec 64 := (ternlog c b a 0xe8, ternlog c b a 0x96)

/-- libpopcnt.h:362-385, `popcnt256`, one lane. -/
def popcnt256 (v : BitVec 64) : BitVec 64 :=
  let lookup1 := [4, 5, 5, 6, 5, 6, 6, 7, 5, 6, 6, 7, 6, 7, 7, 8]
  let lookup2 := [4, 3, 3, 2, 3, 2, 2, 1, 3, 2, 2, 1, 2, 1, 1, 0]
  let lowMask := 0x0F0F0F0F0F0F0F0F#64
  let lo := v &&& lowMask
  let hi := srli16 v 4 &&& lowMask
  sad8 (shuffle8 lookup1 lo) (shuffle8 lookup2 hi)

/-- libpopcnt.h:458-472, `popcnt512`, one lane. -/
def popcnt512 (v : BitVec 64) : BitVec 64 :=
  let m1 := 0x5555555555555555#64
  let m2 := 0x3333333333333333#64
  let m4 := 0x0F0F0F0F0F0F0F0F#64
  let vm := srli16 v 1 &&& m1
  let t1 := zipBytes (· - ·) v vm
  let tm := t1 &&& m2
  let tm2 := srli16 t1 2 &&& m2
  let t2 := zipBytes (· + ·) tm tm2
  let tt := zipBytes (· + ·) t2 (srli16 t2 4)
  let t3 := tt &&& m4
  sad8 t3 0#64

/-- The parts in which `popcnt_avx2` and `popcnt_avx512` differ. -/
structure Isa where
  lanes : Nat
  csa : BitVec 64 → BitVec 64 → BitVec 64 → BitVec 64 × BitVec 64
  pop : BitVec 64 → BitVec 64

def avx2 : Isa := ⟨4, csa256, popcnt256⟩
def avx512 : Isa := ⟨8, csa512, popcnt512⟩

/-- The counters of the Harley-Seal loop. -/
structure HarleySeal where
  cnt : Lanes
  ones : Lanes
  twos : Lanes
  fours : Lanes
  eights : Lanes

/-- Carry-save adder on whole registers: (h, l). -/
def Isa.csaV (I : Isa) (a b c : Lanes) : Lanes × Lanes :=
  (fun j => (I.csa (a j) (b j) (c j)).1, fun j => (I.csa (a j) (b j) (c j)).2)

/-- One iteration of the loop of libpopcnt.h:411-430 and 507-526. `a` is the address of vector `i`. -/
def harleySealStep (I : Isa) (a : Int) (s : HarleySeal) : M 8 HarleySeal := do
  let ld := fun k : Nat => loadLanes I.lanes (a + 8 * (I.lanes : Int) * (k : Int))
  let (twosA, ones) := I.csaV s.ones (← ld 0) (← ld 1)
  let (twosB, ones) := I.csaV ones (← ld 2) (← ld 3)
  let (foursA, twos) := I.csaV s.twos twosA twosB
  let (twosA, ones) := I.csaV ones (← ld 4) (← ld 5)
  let (twosB, ones) := I.csaV ones (← ld 6) (← ld 7)
  let (foursB, twos) := I.csaV twos twosA twosB
  let (eightsA, fours) := I.csaV s.fours foursA foursB
  let (twosA, ones) := I.csaV ones (← ld 8) (← ld 9)
  let (twosB, ones) := I.csaV ones (← ld 10) (← ld 11)
  let (foursA, twos) := I.csaV twos twosA twosB
  let (twosA, ones) := I.csaV ones (← ld 12) (← ld 13)
  let (twosB, ones) := I.csaV ones (← ld 14) (← ld 15)
  let (foursB, twos) := I.csaV twos twosA twosB
  let (eightsB, fours) := I.csaV fours foursA foursB
  let (sixteens, eights) := I.csaV s.eights eightsA eightsB
  pure ⟨fun j => s.cnt j + I.pop (sixteens j), ones, twos, fours, eights⟩

/-- `for(; i < limit; i += 16)`. -/
def harleySealLoop (I : Isa) : Nat → Int → Nat → Nat → HarleySeal → M 8 (Nat × HarleySeal)
  | 0, _, _, _, _ => ub .outOfFuel
  | fuel+1, p, i, limit, s =>
    if i < limit then do
      let s ← harleySealStep I (p + 8 * (I.lanes : Int) * (i : Int)) s
      harleySealLoop I fuel p (i + 16) limit s
    else pure (i, s)

/-- `for(; i < size; i++) cnt = add(cnt, popcnt(load(ptr + i)))`. -/
def tailLoop (I : Isa) : Nat → Int → Nat → Nat → Lanes → M 8 Lanes
  | 0, _, _, _, _ => ub .outOfFuel
  | fuel+1, p, i, size, cnt =>
    if i < size then do
      let v ← loadLanes I.lanes (p + 8 * (I.lanes : Int) * (i : Int))
      tailLoop I fuel p (i + 1) size (fun j => cnt j + I.pop (v j))
    else pure cnt

/-- `cnt64[0] + cnt64[1] + ...`. -/
def sumLanes (f : Lanes) : Nat → BitVec 64
  | 0 => 0#64
  | n+1 => sumLanes f n + f n

/-- libpopcnt.h:397-447 `popcnt_avx2` and 493-547 `popcnt_avx512`; `size` counts vectors. -/
def popcntVec (I : Isa) (p : Int) (size : Nat) : M 8 (BitVec 64) := do
  let limit := size - size % 16
  let z : Lanes := fun _ => 0#64
  let (i, s) ← harleySealLoop I (size + 1) p 0 limit ⟨z, z, z, z, z⟩
  let cnt : Lanes := fun j => s.cnt j <<< 4
  let cnt : Lanes := fun j => cnt j + (I.pop (s.eights j) <<< 3)
  let cnt : Lanes := fun j => cnt j + (I.pop (s.fours j) <<< 2)
  let cnt : Lanes := fun j => cnt j + (I.pop (s.twos j) <<< 1)
  let cnt : Lanes := fun j => cnt j + I.pop (s.ones j)
  let cnt ← tailLoop I (size + 1) p i size cnt
  pure (sumLanes cnt I.lanes)

/-! ### The entry point -/

/-- `for (; i < limit; i += 8) cnt += pc(*(const uint64_t*)(ptr + i))`. -/
def wordLoop (pc : BitVec 64 → BitVec 64) : Nat → Int → Nat → Nat → BitVec 64 → M 8 (Nat × BitVec 64)
  | 0, _, _, _, _ => ub .outOfFuel
  | fuel+1, p, i, limit, cnt =>
    if i < limit then do
      let x ← load64 (p + (i : Int))
      wordLoop pc fuel p (i + 8) limit (cnt + pc x)
    else pure (i, cnt)

/-- `for (; i < size; i++) cnt += pc(ptr[i])`. -/
def byteLoop (pc : BitVec 64 → BitVec 64) : Nat → Int → Nat → Nat → BitVec 64 → M 8 (BitVec 64)
  | 0, _, _, _, _ => ub .outOfFuel
  | fuel+1, p, i, size, cnt =>
    if i < size then do
      let x ← load (p + (i : Int))
      byteLoop pc fuel p (i + 1) size (cnt + pc (x.setWidth 64))
    else pure cnt

/-- `if (i < size) { uint64_t val = 0; memcpy(&val, &ptr[i], size - i); cnt += popcount64(val); }`. -/
def tailBytes (p : Int) (i size : Nat) (cnt : BitVec 64) : M 8 (BitVec 64) :=
  if i < size then do
    let f ← loadBytes (size - i) (p + (i : Int))
    pure (cnt + popcount64 (ofBytes f))
  else pure cnt

/-- Which paths of the x86 version are taken (compile-time macros and CPUID flags together). -/
structure X86 where
  useAvx512 : Bool
  useAvx2 : Bool
  usePopcnt : Bool
  insn : Popcnt64

/-- libpopcnt.h:559-660, `popcnt` on x86. -/
def popcntX86 (c : X86) (p : Int) (size : Nat) : M 8 (BitVec 64) := do
  let (i, cnt) ← (if c.useAvx512 && decide (0 + 1024 ≤ size) then do
      let r ← popcntVec avx512 p (size / 64)
      pure (size - size % 64, 0#64 + r)
    else pure (0, 0#64) : M 8 (Nat × BitVec 64))
  let (i, cnt) ← (if c.useAvx2 && decide (i + 512 ≤ size) then do
      let r ← popcntVec avx2 (p + (i : Int)) ((size - i) / 32)
      pure (size - size % 32, cnt + r)
    else pure (i, cnt) : M 8 (Nat × BitVec 64))
  if c.usePopcnt then do
    let (i, cnt) ← wordLoop (popcnt64 c.insn) (size + 1) p i (size - size % 8) cnt
    byteLoop (popcnt64 c.insn) (size + 1) p i size cnt
  else do
    let (i, cnt) ← wordLoop popcount64 (size + 1) p i (size - size % 8) cnt
    tailBytes p i size cnt

/-- `for (; (uintptr_t)(ptr + i) % 8; i++) cnt += pc(ptr[i])`. -/
def alignLoop (pc : BitVec 64 → BitVec 64) : Nat → Int → Nat → BitVec 64 → M 8 (Nat × BitVec 64)
  | 0, _, _, _ => ub .outOfFuel
  | fuel+1, p, i, cnt =>
    if (p + (i : Int)) % 8 ≠ 0 then do
      let x ← load (p + (i : Int))
      alignLoop pc fuel p (i + 1) (cnt + pc (x.setWidth 64))
    else pure (i, cnt)

/-- libpopcnt.h:767-790, `popcnt` on CPUs that are neither x86 nor ARM. -/
def popcntOther (v : Popcnt64) (p : Int) (size : Nat) : M 8 (BitVec 64) := do
  let (i, cnt) ← (if 8 ≤ size then do
      let (i, cnt) ← alignLoop (popcnt64 v) 9 p 0 0#64
      wordLoop (popcnt64 v) (size + 1) p i (size - size % 8) cnt
    else pure (0, 0#64) : M 8 (Nat × BitVec 64))
  byteLoop (popcnt64 v) (size + 1) p i size cnt

/-! ### NEON -/

/-- A 128-bit register of 16 bytes. -/
abbrev Bytes := Nat → BitVec 8

/-- `vcntq_u8`: population count of every byte. -/
def vcnt (x : Bytes) : Bytes := fun j => BitVec.ofNat 8 (popcntBits (x j) 8)

/-- `vpaddlq_u8`: sums of adjacent bytes as 16-bit elements. -/
def vpaddl8 (t : Bytes) : Nat → BitVec 16 := fun k => (t (2 * k)).setWidth 16 + (t (2 * k + 1)).setWidth 16

/-- `vpaddlq_u16`: sums of adjacent 16-bit elements as 32-bit elements. -/
def vpaddl16 (t : Nat → BitVec 16) : Nat → BitVec 32 := fun k => (t (2 * k)).setWidth 32 + (t (2 * k + 1)).setWidth 32

/-- libpopcnt.h:667-670, `vpadalq`: adds the sum of the bytes of each half to the 64-bit lane. -/
def vpadalq (sum : Lanes) (t : Bytes) : Lanes := fun l =>
  sum l + ((vpaddl16 (vpaddl8 t) (2 * l)).setWidth 64 + (vpaddl16 (vpaddl8 t) (2 * l + 1)).setWidth 64)

/-- `for (; i < limit; i++)` of libpopcnt.h:706-715: `vld4q_u8` puts byte `4*j + k` into byte `j` of register `k`. `ptr` advances by 64. -/
def neonInner : Nat → Int → Nat → Nat → (Nat → Bytes) → M 8 (Int × Nat × (Nat → Bytes))
  | 0, _, _, _, _ => ub .outOfFuel
  | fuel+1, ptr, i, limit, t =>
    if i < limit then do
      let f ← loadBytes 64 ptr
      let input : Nat → Bytes := fun k j => f (4 * j + k)
      neonInner fuel (ptr + 64) (i + 1) limit (fun k j => t k j + vcnt (input k) j)
    else pure (ptr, i, t)

/-- The `do ... while (i < iters)` of libpopcnt.h:690-722. -/
def neonOuter : Nat → Int → Nat → Nat → Lanes → M 8 (Int × Lanes)
  | 0, _, _, _, _ => ub .outOfFuel
  | fuel+1, ptr, i, iters, sum => do
    let limit := if i + 31 < iters then i + 31 else iters
    let (ptr, i, t) ← neonInner 32 ptr i limit (fun _ _ => 0#8)
    let sum := vpadalq sum (t 0)
    let sum := vpadalq sum (t 1)
    let sum := vpadalq sum (t 2)
    let sum := vpadalq sum (t 3)
    if i < iters then neonOuter fuel ptr i iters sum else pure (ptr, sum)

/-- libpopcnt.h:677-757, `popcnt` with NEON. `unaligned`: `__ARM_FEATURE_UNALIGNED` is defined. -/
def popcntNeon (unaligned : Bool) (v : Popcnt64) (p : Int) (size : Nat) : M 8 (BitVec 64) := do
  let (ptr, size, cnt) ← (if 64 ≤ size then do
      let (ptr, sum) ← neonOuter (size + 1) p 0 (size / 64) (fun _ => 0#64)
      pure (ptr, size % 64, 0#64 + sum 0 + sum 1)
    else pure (p, size, 0#64) : M 8 (Int × Nat × BitVec 64))
  let (i, cnt) ← (if unaligned then wordLoop (popcnt64 v) (size + 1) ptr 0 (size - size % 8) cnt
    else if 0 + 8 ≤ size then do
      let (i, cnt) ← alignLoop (popcnt64 v) 9 ptr 0 cnt
      wordLoop (popcnt64 v) (size + 1) ptr i (size - size % 8) cnt
    else pure (0, cnt) : M 8 (Nat × BitVec 64))
  tailBytes ptr i size cnt

end BitLib
