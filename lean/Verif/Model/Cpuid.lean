import Verif.Model.Popcnt
/-
include/bitlib/bit-algorithms/libpopcnt.h: the preprocessor's choice of code and the run-time choice by CPUID.

Machine: the registers of the `cpuid` instruction are an arbitrary function of the leaf and subleaf, `xgetbv` faults where the operating system has not
set CR4.OSXSAVE (which bit 27 of ECX of leaf 1 mirrors). Executing an instruction of an instruction set that is not usable is a fault. Simplifications:
the `cpuid` instruction itself exists (x86 processors since 1993); MSVC's `__cpuidex` and `_xgetbv` are the two instructions; the function-local
static is initialised once, with the value computed here.
-/
namespace BitLib

/-- The predefined macros libpopcnt.h looks at. -/
structure Build where
  /-- `__i386__`, `__x86_64__`, `_M_IX86` or `_M_X64` -/
  x86 : Bool
  /-- `__GNUC__`, `__GNUC_MINOR__` -/
  gnuc : Option (Nat × Nat)
  /-- `__clang_major__`, `__clang_minor__` -/
  clang : Option (Nat × Nat)
  /-- `_MSC_VER` -/
  msc : Option Nat
  /-- `__has_attribute(target)` -/
  attrTarget : Bool
  /-- `__apple_build_version__` -/
  apple : Option Nat
  /-- `__AVX512__` -/
  avx512 : Bool
  /-- `__AVX512BW__` -/
  avx512bw : Bool
  /-- `__AVX2__` -/
  avx2 : Bool
  /-- `__POPCNT__` -/
  popcnt : Bool

namespace Build

/-- libpopcnt.h:46-51, 53-58: `GNUC_PREREQ(x, y)` and `CLANG_PREREQ(x, y)`. -/
def prereq (v : Option (Nat × Nat)) (x y : Nat) : Bool :=
  match v with
  | some (a, b) => decide (a > x ∨ a = x ∧ b ≥ y)
  | none => false

/-- libpopcnt.h:77-80. -/
def haveAsmPopcnt (b : Build) : Bool := prereq b.gnuc 4 2 || prereq b.clang 3 0

/-- libpopcnt.h:82-86. -/
def havePopcnt (b : Build) : Bool := b.x86 && (b.haveAsmPopcnt || b.msc.isSome)

/-- The first block with `_MSC_VER` and the block of Clang, libpopcnt.h:98-122, for `HAVE_AVX2` (`avx512only = false`) and `HAVE_AVX512`. -/
def haveByCompiler (b : Build) (avx512only : Bool) : Bool :=
  b.x86 &&
    (match b.msc with
     | some v => if b.clang.isSome then (if avx512only then b.avx512 else b.avx2 || b.avx512) else decide (v ≥ 1910)
     | none => prereq b.clang 3 8 && b.attrTarget && (match b.apple with | some v => decide (v ≥ 8000000) | none => true))

/-- libpopcnt.h:88-91, 98-122: `HAVE_AVX2`. -/
def haveAvx2 (b : Build) : Bool := (b.x86 && prereq b.gnuc 4 9) || b.haveByCompiler false

/-- libpopcnt.h:93-96, 98-122: `HAVE_AVX512`. -/
def haveAvx512 (b : Build) : Bool := (b.x86 && prereq b.gnuc 5 0) || b.haveByCompiler true

/-- libpopcnt.h:129-140, `HAVE_CPUID`, compiled as C++. -/
def haveCpuid (b : Build) : Bool :=
  b.x86 && ((b.haveAvx512 && !(b.avx512 || b.avx512bw)) || (b.haveAvx2 && !b.avx2) || (b.havePopcnt && !b.popcnt))

/-- The places of `popcnt` that name the variable `cpuid`: libpopcnt.h:595, 610, 628. -/
def namesCpuid (b : Build) : Bool :=
  (b.haveAvx512 && !(b.avx512 || b.avx512bw)) || (b.haveAvx2 && !b.avx2) || (b.havePopcnt && !b.popcnt)

end Build

/-- What can stop a call: an instruction the machine does not execute, or undefined behaviour. -/
inductive Fault where
  | illegalInstruction
  | ub (u : UB)
  deriving DecidableEq, Repr

/-- EAX, EBX, ECX, EDX after `cpuid`, by leaf and subleaf; the low half of XCR0. -/
structure CpuRegs where
  cpuid : Nat → Nat → Nat → BitVec 32
  xcr0 : BitVec 32

/-- libpopcnt.h:237-246. -/
def bitPOPCNT : BitVec 32 := 1#32 <<< 23
def bitAVX2 : BitVec 32 := 1#32 <<< 5
def bitAVX512 : BitVec 32 := 1#32 <<< 30
def xstateSSE : BitVec 32 := 1#32 <<< 1
def xstateYMM : BitVec 32 := 1#32 <<< 2
def xstateZMM : BitVec 32 := 7#32 <<< 5

/-- libpopcnt.h:249-280, `run_cpuid`. -/
def runCpuid (c : CpuRegs) (eax ecx : Nat) : Nat → BitVec 32 := c.cpuid eax ecx

/-- libpopcnt.h:285-296, `get_xcr0`; `xgetbv` is an illegal instruction without OSXSAVE. -/
def getXcr0 (c : CpuRegs) : Except Fault (BitVec 32) :=
  if (c.cpuid 1 0 2).getLsbD 27 then .ok c.xcr0 else .error .illegalInstruction

/-- libpopcnt.h:300-341, `get_cpuid`. -/
def getCpuid (b : Build) (c : CpuRegs) : Except Fault (BitVec 32) := do
  let flags := 0#32
  let abcd := runCpuid c 1 0
  let flags := if abcd 2 &&& bitPOPCNT = bitPOPCNT then flags ||| bitPOPCNT else flags
  if b.haveAvx2 || b.haveAvx512 then
    let osxsave := 1#32 <<< 27
    if abcd 2 &&& osxsave ≠ osxsave then return 0#32
    let ymm := xstateSSE ||| xstateYMM
    let zmm := xstateSSE ||| xstateYMM ||| xstateZMM
    let xcr0 ← getXcr0 c
    if xcr0 &&& ymm = ymm then
      let abcd := runCpuid c 7 0
      let flags := if abcd 1 &&& bitAVX2 = bitAVX2 then flags ||| bitAVX2 else flags
      if xcr0 &&& zmm = zmm then
        let flags := if abcd 1 &&& bitAVX512 = bitAVX512 then flags ||| bitAVX512 else flags
        return flags
      return flags
    return flags
  return flags

/-- libpopcnt.h:570-574: the variable `cpuid`; 0 stands for the variable that is not declared without `HAVE_CPUID` (and then not named, C84). -/
def cpuidVar (b : Build) (c : CpuRegs) : Except Fault (BitVec 32) := if b.haveCpuid then getCpuid b c else .ok 0#32

/-- libpopcnt.h:590-597, 606-612, 621-629: which paths `popcnt` may take. -/
def pathsOf (b : Build) (cpuid : BitVec 32) (insn : Popcnt64) : X86 where
  useAvx512 := b.haveAvx512 && ((b.avx512 || b.avx512bw) || decide (cpuid &&& bitAVX512 ≠ 0))
  useAvx2 := b.haveAvx2 && (b.avx2 || decide (cpuid &&& bitAVX2 ≠ 0))
  usePopcnt := b.havePopcnt && (b.popcnt || decide (cpuid &&& bitPOPCNT ≠ 0))
  insn := insn

/-- The instruction sets with their own code in libpopcnt.h. -/
inductive Feature where
  | popcnt | avx2 | avx512bw
  deriving DecidableEq, Repr

/-- The index after the AVX512 code and after the AVX2 code (libpopcnt.h:602, 617). -/
def after512 (x : X86) (size : Nat) : Nat := if x.useAvx512 && decide (1024 ≤ size) then size - size % 64 else 0
def after256 (x : X86) (size : Nat) : Nat := if x.useAvx2 && decide (after512 x size + 512 ≤ size) then size - size % 32 else after512 x size

/-- The instruction sets whose instructions a call of `popcnt` for `size` bytes executes. -/
def executes (x : X86) (size : Nat) : List Feature :=
  (if x.useAvx512 && decide (1024 ≤ size) then [.avx512bw] else []) ++
  (if x.useAvx2 && decide (after512 x size + 512 ≤ size) then [.avx2] else []) ++
  (if x.usePopcnt && decide (after256 x size < size) then [.popcnt] else [])

/-- A call of `popcnt` on a machine: `usable f` says that the processor has the instruction set and the operating system has enabled it. -/
def popcntCall (b : Build) (c : CpuRegs) (usable : Feature → Bool) (insn : Popcnt64) (p : Int) (size : Nat) (m : Mem 8) :
    Except Fault (BitVec 64 × Mem 8) := do
  let flags ← cpuidVar b c
  let x := pathsOf b flags insn
  if (executes x size).all usable then
    match popcntX86 x p size m with
    | .ok r => .ok r
    | .error u => .error (.ub u)
  else .error .illegalInstruction

end BitLib
