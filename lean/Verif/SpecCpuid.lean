import Verif.Model.Cpuid
/-
What a machine can execute and what it says about it (Intel SDM vol. 2A, CPUID; vol. 1, 14.3 and 15.2-15.4: detection of AVX2 and AVX-512).
-/
namespace BitLib

/-- A machine: what its instructions return, the largest basic leaf of CPUID, what the processor implements, and whether the operating system has
enabled XSAVE. -/
structure Machine where
  cpu : CpuRegs
  maxLeaf : Nat
  has : Feature → Bool
  osxsave : Bool

namespace Machine

/-- The operating system saves and restores state component `i`. -/
def saves (M : Machine) (i : Nat) : Bool := M.osxsave && M.cpu.xcr0.getLsbD i

/-- The instructions of the set run: the processor has them and, for the vector registers, the operating system saves those registers
(1: XMM, 2: upper halves of YMM, 5-7: opmask and ZMM registers). -/
def usable (M : Machine) : Feature → Bool
  | .popcnt => M.has .popcnt
  | .avx2 => M.has .avx2 && M.saves 1 && M.saves 2
  | .avx512bw => M.has .avx512bw && M.saves 1 && M.saves 2 && M.saves 5 && M.saves 6 && M.saves 7

/-- CPUID reports the machine: leaf 1 always, leaf 7 if there is a leaf 7. -/
structure Reports (M : Machine) : Prop where
  popcnt : (M.cpu.cpuid 1 0 2).getLsbD 23 = M.has .popcnt
  osxsave : (M.cpu.cpuid 1 0 2).getLsbD 27 = M.osxsave
  avx2 : 7 ≤ M.maxLeaf → (M.cpu.cpuid 7 0 1).getLsbD 5 = M.has .avx2
  avx512bw : 7 ≤ M.maxLeaf → (M.cpu.cpuid 7 0 1).getLsbD 30 = M.has .avx512bw

end Machine

/-- The compiler was told to generate code only for instruction sets the machine can use. -/
def Build.RunsOn (b : Build) (M : Machine) : Prop :=
  (b.popcnt = true → M.usable .popcnt = true) ∧ (b.avx2 = true → M.usable .avx2 = true) ∧
    (b.avx512 = true ∨ b.avx512bw = true → M.usable .avx512bw = true)

end BitLib
