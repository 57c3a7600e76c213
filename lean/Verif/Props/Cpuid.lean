import Verif.SpecCpuid
import Verif.Props.Popcnt
import Mathlib.Tactic.Tauto
/-
C84: libpopcnt executes only instructions the processor and the operating system support.
-/
namespace BitLib

theorem and_eq_mask (x m : BitVec 32) : x &&& m = m ↔ ∀ i, m.getLsbD i = true → x.getLsbD i = true := by
  constructor
  · intro h i hi
    have := congrArg (fun y => y.getLsbD i) h
    simp only [BitVec.getLsbD_and, hi, Bool.and_true] at this
    exact this
  · intro h
    apply BitVec.eq_of_getLsbD_eq
    intro i _
    rw [BitVec.getLsbD_and]
    cases e : m.getLsbD i with
    | false => simp
    | true => simp [h i e]

theorem getLsbD_one_shl (k i : Nat) (hk : k < 32) : (1#32 <<< k).getLsbD i = decide (i = k) := by
  simp only [BitVec.getLsbD_shiftLeft, BitVec.getLsbD_one]
  by_cases e : i = k
  · subst e; simp [hk]
  · simp [e]; omega

theorem and_eq_bit (x : BitVec 32) (k : Nat) (hk : k < 32) : x &&& (1#32 <<< k) = 1#32 <<< k ↔ x.getLsbD k = true := by
  rw [and_eq_mask]
  simp [getLsbD_one_shl _ _ hk]

theorem and_ne_zero (x : BitVec 32) (k : Nat) (hk : k < 32) : x &&& (1#32 <<< k) ≠ 0 ↔ x.getLsbD k = true := by
  constructor
  · intro h
    by_contra hc
    apply h
    apply BitVec.eq_of_getLsbD_eq
    intro i _
    rw [BitVec.getLsbD_and, getLsbD_one_shl _ _ hk]
    by_cases e : i = k
    · subst e; simp [hc]
    · simp [e]
  · intro h e
    have := congrArg (fun y => y.getLsbD k) e
    simp [BitVec.getLsbD_and, getLsbD_one_shl _ _ hk, h] at this

theorem mask_ymm (x : BitVec 32) : x &&& (xstateSSE ||| xstateYMM) = xstateSSE ||| xstateYMM ↔ x.getLsbD 1 = true ∧ x.getLsbD 2 = true := by
  rw [and_eq_mask]
  have : ∀ i, (xstateSSE ||| xstateYMM).getLsbD i = true ↔ i = 1 ∨ i = 2 := by
    intro i
    unfold xstateSSE xstateYMM
    rw [BitVec.getLsbD_or, getLsbD_one_shl _ _ (by decide), getLsbD_one_shl _ _ (by decide)]
    simp
  simp only [this]
  constructor
  · intro h; exact ⟨h 1 (.inl rfl), h 2 (.inr rfl)⟩
  · rintro ⟨h1, h2⟩ i (rfl | rfl) <;> assumption

theorem mask_zmm (x : BitVec 32) : x &&& (xstateSSE ||| xstateYMM ||| xstateZMM) = xstateSSE ||| xstateYMM ||| xstateZMM ↔
    x.getLsbD 1 = true ∧ x.getLsbD 2 = true ∧ x.getLsbD 5 = true ∧ x.getLsbD 6 = true ∧ x.getLsbD 7 = true := by
  rw [and_eq_mask]
  have : ∀ i, (xstateSSE ||| xstateYMM ||| xstateZMM).getLsbD i = true ↔ i = 1 ∨ i = 2 ∨ i = 5 ∨ i = 6 ∨ i = 7 := by
    intro i
    by_cases hi : i < 32
    · have key : ∀ j : Fin 32, (xstateSSE ||| xstateYMM ||| xstateZMM).getLsbD j = true ↔
        j.val = 1 ∨ j.val = 2 ∨ j.val = 5 ∨ j.val = 6 ∨ j.val = 7 := by decide
      exact key ⟨i, hi⟩
    · rw [BitVec.getLsbD_of_ge _ _ (by omega)]
      constructor
      · intro h; cases h
      · omega
  simp only [this]
  constructor
  · intro h
    exact ⟨h 1 (by simp), h 2 (by simp), h 5 (by simp), h 6 (by simp), h 7 (by simp)⟩
  · rintro ⟨h1, h2, h3, h4, h5⟩ i (rfl | rfl | rfl | rfl | rfl) <;> assumption

/-- The flags as a function of three answers. -/
def flagsOf (p a z : Bool) : BitVec 32 := (if p then 1#32 <<< 23 else 0) ||| (if a then 1#32 <<< 5 else 0) ||| (if z then 1#32 <<< 30 else 0)

theorem getLsbD_flagsOf (p a z : Bool) (i : Nat) :
    (flagsOf p a z).getLsbD i = ((p && decide (i = 23)) || (a && decide (i = 5)) || (z && decide (i = 30))) := by
  unfold flagsOf
  rw [BitVec.getLsbD_or, BitVec.getLsbD_or]
  congr 1
  · congr 1
    · cases p
      · simp
      · simp only [if_true, Bool.true_and]; exact getLsbD_one_shl _ _ (by decide)
    · cases a
      · simp
      · simp only [if_true, Bool.true_and]; exact getLsbD_one_shl _ _ (by decide)
  · cases z
    · simp
    · simp only [if_true, Bool.true_and]; exact getLsbD_one_shl _ _ (by decide)

/-- The operating system saves the XMM and YMM, or the XMM, YMM and ZMM registers. -/
def savesY (c : CpuRegs) : Bool := c.xcr0.getLsbD 1 && c.xcr0.getLsbD 2
def savesZ (c : CpuRegs) : Bool := c.xcr0.getLsbD 1 && c.xcr0.getLsbD 2 && c.xcr0.getLsbD 5 && c.xcr0.getLsbD 6 && c.xcr0.getLsbD 7

theorem getCpuid_eq (b : Build) (c : CpuRegs) : getCpuid b c = .ok (flagsOf
    ((c.cpuid 1 0 2).getLsbD 23 && (!(b.haveAvx2 || b.haveAvx512) || (c.cpuid 1 0 2).getLsbD 27))
    ((b.haveAvx2 || b.haveAvx512) && (c.cpuid 1 0 2).getLsbD 27 && savesY c && (c.cpuid 7 0 1).getLsbD 5)
    ((b.haveAvx2 || b.haveAvx512) && (c.cpuid 1 0 2).getLsbD 27 && savesZ c && (c.cpuid 7 0 1).getLsbD 30)) := by
  have hy : ∀ x : BitVec 32, (x &&& (xstateSSE ||| xstateYMM) = xstateSSE ||| xstateYMM) ↔ (x.getLsbD 1 && x.getLsbD 2) = true := by
    intro x; rw [mask_ymm, Bool.and_eq_true]
  have hz : ∀ x : BitVec 32, (x &&& (xstateSSE ||| xstateYMM ||| xstateZMM) = xstateSSE ||| xstateYMM ||| xstateZMM) ↔
      (x.getLsbD 1 && x.getLsbD 2 && x.getLsbD 5 && x.getLsbD 6 && x.getLsbD 7) = true := by
    intro x; rw [mask_zmm]; simp only [Bool.and_eq_true, and_assoc]
  have hyz : savesZ c = true → savesY c = true := by
    unfold savesZ savesY
    simp only [Bool.and_eq_true]
    exact fun h => h.1.1.1
  unfold getCpuid runCpuid getXcr0
  simp only [bitPOPCNT, bitAVX2, bitAVX512]
  simp only [and_eq_bit _ _ (show 23 < 32 by decide), and_eq_bit _ _ (show 5 < 32 by decide), and_eq_bit _ _ (show 30 < 32 by decide),
    and_eq_bit _ _ (show 27 < 32 by decide), hy, hz, ne_eq]
  generalize (b.haveAvx2 || b.haveAvx512) = v
  generalize (c.cpuid 1 0 2).getLsbD 23 = p
  generalize (c.cpuid 1 0 2).getLsbD 27 = o
  generalize (c.cpuid 7 0 1).getLsbD 5 = a
  generalize (c.cpuid 7 0 1).getLsbD 30 = z
  cases v
  · cases p <;> simp [flagsOf, pure, Except.pure]
  cases o
  · cases p <;> simp [flagsOf, pure, Except.pure]
  show (if savesY c = true then _ else _) = _
  cases hsy : savesY c
  · cases hsz : savesZ c
    · cases p <;> simp [flagsOf, pure, Except.pure]
    · rw [hyz hsz] at hsy; cases hsy
  show (if savesZ c = true then _ else _) = _
  cases hsz : savesZ c
  · cases p <;> cases a <;> simp [flagsOf, pure, Except.pure]
  · cases p <;> cases a <;> cases z <;> simp [flagsOf, pure, Except.pure]

/-- C84: the run-time check never faults, and its answer is exact. A vector flag is set exactly if the build has code for vector instructions, the
operating system saves the registers, and leaf 7 names the instruction set; the POPCNT flag exactly if leaf 1 names it and, in builds with vector
code, OSXSAVE is set; all other bits are clear. -/
theorem C84_flags (b : Build) (c : CpuRegs) : ∃ f, getCpuid b c = .ok f ∧
    (f.getLsbD 23 = true ↔ (c.cpuid 1 0 2).getLsbD 23 = true ∧ ((b.haveAvx2 || b.haveAvx512) = true → (c.cpuid 1 0 2).getLsbD 27 = true)) ∧
    (f.getLsbD 5 = true ↔ (b.haveAvx2 || b.haveAvx512) = true ∧ (c.cpuid 1 0 2).getLsbD 27 = true ∧
      c.xcr0.getLsbD 1 = true ∧ c.xcr0.getLsbD 2 = true ∧ (c.cpuid 7 0 1).getLsbD 5 = true) ∧
    (f.getLsbD 30 = true ↔ (b.haveAvx2 || b.haveAvx512) = true ∧ (c.cpuid 1 0 2).getLsbD 27 = true ∧
      (c.xcr0.getLsbD 1 = true ∧ c.xcr0.getLsbD 2 = true ∧ c.xcr0.getLsbD 5 = true ∧ c.xcr0.getLsbD 6 = true ∧ c.xcr0.getLsbD 7 = true) ∧
      (c.cpuid 7 0 1).getLsbD 30 = true) ∧
    ∀ i, i ≠ 23 → i ≠ 5 → i ≠ 30 → f.getLsbD i = false := by
  refine ⟨_, getCpuid_eq b c, ?_, ?_, ?_, ?_⟩
  · rw [getLsbD_flagsOf]
    generalize (b.haveAvx2 || b.haveAvx512) = v
    cases v <;> simp
  · rw [getLsbD_flagsOf]
    simp [savesY, and_assoc]
  · rw [getLsbD_flagsOf]
    simp [savesZ, and_assoc]
  · intro i h1 h2 h3
    rw [getLsbD_flagsOf]
    simp [h1, h2, h3]

/-- C84: the run-time check agrees with the machine. On a machine with a leaf 7 the vector flags of a build with vector code say exactly which sets can
be used; the POPCNT flag is never set without the instruction, and is withheld only where the build has vector code and the operating system has not
enabled XSAVE. -/
theorem C84_honest (b : Build) (M : Machine) (hr : M.Reports) (h7 : 7 ≤ M.maxLeaf) : ∃ f, getCpuid b M.cpu = .ok f ∧
    ((b.haveAvx2 || b.haveAvx512) = true → f.getLsbD 5 = M.usable .avx2 ∧ f.getLsbD 30 = M.usable .avx512bw) ∧
    ((b.haveAvx2 || b.haveAvx512) = false → f.getLsbD 5 = false ∧ f.getLsbD 30 = false) ∧
    f.getLsbD 23 = (M.usable .popcnt && (!(b.haveAvx2 || b.haveAvx512) || M.osxsave)) := by
  refine ⟨_, getCpuid_eq b M.cpu, fun hv => ?_, fun hv => ?_, ?_⟩
  · simp only [getLsbD_flagsOf, hv, hr.osxsave, hr.avx2 h7, hr.avx512bw h7, savesY, savesZ, Machine.usable, Machine.saves]
    generalize M.osxsave = o
    generalize M.has .avx2 = a
    generalize M.has .avx512bw = z
    cases o <;> cases a <;> cases z <;> simp
  · simp only [getLsbD_flagsOf, hv]
    simp
  · simp only [getLsbD_flagsOf, hr.popcnt, hr.osxsave, Machine.usable]
    simp

/-- C84: the variable `cpuid` is declared exactly in the builds that name it. -/
theorem C84_declared (b : Build) : b.haveCpuid = b.namesCpuid := by
  unfold Build.haveCpuid Build.namesCpuid
  cases hx : b.x86
  · simp [Build.haveAvx512, Build.haveAvx2, Build.havePopcnt, Build.haveByCompiler, hx]
  · simp

theorem mem_executes {x : X86} {size : Nat} {f : Feature} (h : f ∈ executes x size) :
    match f with
    | .popcnt => x.usePopcnt = true
    | .avx2 => x.useAvx2 = true
    | .avx512bw => x.useAvx512 = true := by
  unfold executes at h
  simp only [List.mem_append] at h
  rcases h with (h | h) | h <;> split_ifs at h with h1 <;> simp at h <;> subst h <;> exact (Bool.and_eq_true_iff.mp h1).1

/-- C84: for every build and every machine it may run on, `popcnt` of a readable buffer meets no illegal instruction and counts its set bits. -/
theorem C84_popcnt (b : Build) (M : Machine) (hr : M.Reports) (h7 : 7 ≤ M.maxLeaf) (hb : b.RunsOn M) (insn : Popcnt64) (m : Mem 8) (p : Int)
    (size : Nat) (h : Readable m p size) :
    popcntCall b M.cpu M.usable insn p size m = .ok (BitVec.ofNat 64 (countIn m true (p * 8) (size * 8)), m) := by
  obtain ⟨f, e, h1, h2, h3⟩ := C84_honest b M hr h7
  have key : ∃ g, cpuidVar b M.cpu = .ok g ∧ (g.getLsbD 23 = true → M.usable .popcnt = true) ∧ (g.getLsbD 5 = true → M.usable .avx2 = true) ∧
      (g.getLsbD 30 = true → M.usable .avx512bw = true) := by
    unfold cpuidVar
    split_ifs
    · refine ⟨f, e, ?_, ?_, ?_⟩
      · rw [h3]; simp; tauto
      · cases hv : (b.haveAvx2 || b.haveAvx512)
        · rw [(h2 hv).1]; simp
        · rw [(h1 hv).1]; exact id
      · cases hv : (b.haveAvx2 || b.haveAvx512)
        · rw [(h2 hv).2]; simp
        · rw [(h1 hv).2]; exact id
    · exact ⟨0, rfl, by simp, by simp, by simp⟩
  obtain ⟨g, eg, k1, k2, k3⟩ := key
  unfold popcntCall
  rw [eg]
  show (if (executes (pathsOf b g insn) size).all M.usable = true then _ else _) = _
  rw [if_pos]
  · rw [C48_x86 _ m p size h]
  · rw [List.all_eq_true]
    intro x hx
    have hx := mem_executes hx
    cases x
    · simp only [pathsOf, Bool.and_eq_true, Bool.or_eq_true, decide_eq_true_eq, bitPOPCNT, and_ne_zero _ _ (show 23 < 32 by decide)] at hx
      rcases hx.2 with h | h
      · exact hb.1 h
      · exact k1 h
    · simp only [pathsOf, Bool.and_eq_true, Bool.or_eq_true, decide_eq_true_eq, bitAVX2, and_ne_zero _ _ (show 5 < 32 by decide)] at hx
      rcases hx.2 with h | h
      · exact hb.2.1 h
      · exact k2 h
    · simp only [pathsOf, Bool.and_eq_true, Bool.or_eq_true, decide_eq_true_eq, bitAVX512, and_ne_zero _ _ (show 30 < 32 by decide)] at hx
      rcases hx.2 with h | h
      · exact hb.2.2 h
      · exact k3 h

/-- GCC 12 for x86-64 without `-m` options. -/
def gcc12 : Build := ⟨true, some (12, 2), none, none, true, none, false, false, false, false⟩

/-- A processor with POPCNT and AVX2 but no AVX512, XSAVE enabled for XMM and YMM registers. -/
def haswell : Machine where
  cpu := ⟨fun leaf _ r => if leaf = 1 ∧ r = 2 then 1#32 <<< 23 ||| 1#32 <<< 27 else if leaf = 7 ∧ r = 1 then 1#32 <<< 5 else 0#32, 7#32⟩
  maxLeaf := 13
  has f := f != .avx512bw
  osxsave := true

example : haswell.Reports ∧ 7 ≤ haswell.maxLeaf ∧ gcc12.RunsOn haswell ∧ gcc12.haveAvx512 = true ∧ gcc12.haveCpuid = true ∧
    haswell.usable .avx2 = true ∧ haswell.usable .avx512bw = false :=
  ⟨⟨by decide, by decide, by decide, by decide⟩, by decide, ⟨by decide, by decide, by decide⟩, by decide, by decide, by decide, by decide⟩

example : Readable (memOf (List.replicate 600 0xFF#8)) 0 600 ∧
    executes (pathsOf gcc12 (flagsOf true true false) .wide) 600 = [.avx2, .popcnt] := by
  refine ⟨readable_memOf _ 0 600 (by rw [List.length_replicate]), by decide⟩

/-- C84: the condition that leaf 7 exists is needed, `get_cpuid` does not check it. A processor asked for a leaf beyond its last answers with the last
one; on a machine without AVX2 whose leaf 2 has bit 5 of EBX set and is the last, `popcnt` of 512 bytes executes AVX2 instructions. -/
theorem C84_max_leaf (insn : Popcnt64) (m : Mem 8) (p : Int) (size : Nat) (hs : 512 ≤ size) :
    ∃ M : Machine, M.Reports ∧ gcc12.RunsOn M ∧ M.has .avx2 = false ∧
      (∀ l s r, M.maxLeaf < l → M.cpu.cpuid l s r = M.cpu.cpuid M.maxLeaf s r) ∧
      popcntCall gcc12 M.cpu M.usable insn p size m = .error .illegalInstruction := by
  let M : Machine :=
    { cpu := ⟨fun leaf _ r => if leaf = 1 ∧ r = 2 then 1#32 <<< 23 ||| 1#32 <<< 27 else if 2 ≤ leaf ∧ r = 1 then 1#32 <<< 5 else 0#32, 7#32⟩
      maxLeaf := 2
      has := fun f => f == .popcnt
      osxsave := true }
  refine ⟨M, ⟨by decide, by decide, fun h => absurd h (by decide), fun h => absurd h (by decide)⟩, ⟨by decide, by decide, by decide⟩, rfl,
    fun l s r hl => ?_, ?_⟩
  · have hl : 2 < l := hl
    show (if l = 1 ∧ r = 2 then 1#32 <<< 23 ||| 1#32 <<< 27 else if 2 ≤ l ∧ r = 1 then 1#32 <<< 5 else 0#32) =
      (if 2 = 1 ∧ r = 2 then 1#32 <<< 23 ||| 1#32 <<< 27 else if 2 ≤ 2 ∧ r = 1 then 1#32 <<< 5 else 0#32)
    have h1 : ¬ (l = 1 ∧ r = 2) := by omega
    have h2 : ¬ (2 = 1 ∧ r = 2) := by omega
    rw [if_neg h1, if_neg h2]
    by_cases hr : r = 1
    · rw [if_pos ⟨by omega, hr⟩, if_pos ⟨by omega, hr⟩]
    · rw [if_neg (fun h => hr h.2), if_neg (fun h => hr h.2)]
  · have e : cpuidVar gcc12 M.cpu = .ok (flagsOf true true false) := by
      unfold cpuidVar
      rw [if_pos (by decide), getCpuid_eq]
      decide
    unfold popcntCall
    rw [e]
    show (if (executes (pathsOf gcc12 (flagsOf true true false) insn) size).all M.usable = true then _ else _) = _
    rw [if_neg]
    intro h
    rw [List.all_eq_true] at h
    have := h .avx2 (by
      unfold executes
      simp only [List.mem_append]
      refine .inl (.inr ?_)
      have h1 : (pathsOf gcc12 (flagsOf true true false) insn).useAvx2 = true := by cases insn <;> decide
      have h2 : (pathsOf gcc12 (flagsOf true true false) insn).useAvx512 = false := by cases insn <;> decide
      simp [after512, h1, h2, hs])
    exact absurd this (by decide)

/-- C84: exactly which instruction sets a call uses, from which of them may be used and the number of bytes. AVX512 code runs from 1024 bytes on and
leaves less than 64 bytes, for which no AVX2 code runs; otherwise AVX2 code runs from 512 bytes on; the POPCNT instruction is for what is left. -/
theorem C84_executes (x : X86) (size : Nat) :
    (.avx512bw ∈ executes x size ↔ x.useAvx512 = true ∧ 1024 ≤ size) ∧
    (.avx2 ∈ executes x size ↔ x.useAvx2 = true ∧ 512 ≤ size ∧ ¬ (x.useAvx512 = true ∧ 1024 ≤ size)) ∧
    (.popcnt ∈ executes x size ↔ x.usePopcnt = true ∧
      if x.useAvx512 = true ∧ 1024 ≤ size then ¬ 64 ∣ size else if x.useAvx2 = true ∧ 512 ≤ size then ¬ 32 ∣ size else 0 < size) := by
  have e1 : (.avx512bw ∈ executes x size ↔ (x.useAvx512 && decide (1024 ≤ size)) = true) := by
    unfold executes; split_ifs <;> simp_all
  have e2 : (.avx2 ∈ executes x size ↔ (x.useAvx2 && decide (after512 x size + 512 ≤ size)) = true) := by
    unfold executes; split_ifs <;> simp_all
  have e3 : (.popcnt ∈ executes x size ↔ (x.usePopcnt && decide (after256 x size < size)) = true) := by
    unfold executes; split_ifs <;> simp_all
  rw [e1, e2, e3]
  unfold after256 after512
  simp only [Bool.and_eq_true, decide_eq_true_eq, Nat.dvd_iff_mod_eq_zero]
  refine ⟨trivial, ?_, ?_⟩
  · by_cases h : x.useAvx512 = true ∧ 1024 ≤ size
    · rw [if_pos h]
      have := Nat.mod_lt size (show 64 > 0 by decide)
      constructor
      · rintro ⟨_, h2⟩; omega
      · rintro ⟨_, _, h2⟩; exact absurd h h2
    · rw [if_neg h]
      simp only [h, not_false_eq_true, and_true, Nat.zero_add]
  · refine and_congr_right fun _ => ?_
    have h64 := Nat.mod_lt size (show 64 > 0 by decide)
    by_cases h : x.useAvx512 = true ∧ 1024 ≤ size
    · rw [if_pos h, if_pos h, if_neg (by omega)]
      omega
    · rw [if_neg h, if_neg h, Nat.zero_add]
      by_cases h2 : x.useAvx2 = true ∧ 512 ≤ size
      · rw [if_pos h2, if_pos h2]; omega
      · rw [if_neg h2, if_neg h2]

example : ¬ 64 ∣ 1030 ∧ (1024 ≤ 1030) ∧ executes ⟨true, true, true, .wide⟩ 1030 = [.avx512bw, .popcnt] := by decide

/-- A compiler version `(major, minor)` is at least `(x, y)`. -/
def AtLeast (v : Option (Nat × Nat)) (x y : Nat) : Prop := ∃ a b, v = some (a, b) ∧ (x < a ∨ a = x ∧ y ≤ b)

theorem prereq_iff (v : Option (Nat × Nat)) (x y : Nat) : Build.prereq v x y = true ↔ AtLeast v x y := by
  unfold Build.prereq AtLeast
  cases v with
  | none => simp
  | some p =>
    obtain ⟨a, b⟩ := p
    constructor
    · intro h
      exact ⟨a, b, rfl, by simpa using h⟩
    · rintro ⟨_, _, h, h2⟩
      cases h
      simpa using h2

/-- Clang that is not `clang-cl`, from version 3.8, with `__attribute__((target))`; for Apple's from Xcode 8. -/
def ClangVector (b : Build) : Prop :=
  b.msc = none ∧ AtLeast b.clang 3 8 ∧ b.attrTarget = true ∧ ∀ v, b.apple = some v → 8000000 ≤ v

/-- C84: exactly which builds contain which code: for x86, POPCNT from GCC 4.2 or Clang 3.0 or with MSVC; AVX2 from GCC 4.9, Clang 3.8 (above), Visual
Studio 2017, or clang-cl that was told to use AVX2 or AVX512; AVX512 from GCC 5.0, and else likewise, for clang-cl if told to use AVX512. -/
theorem C84_builds (b : Build) :
    (b.havePopcnt = true ↔ b.x86 = true ∧ (AtLeast b.gnuc 4 2 ∨ AtLeast b.clang 3 0 ∨ ∃ v, b.msc = some v)) ∧
    (b.haveAvx2 = true ↔ b.x86 = true ∧ (AtLeast b.gnuc 4 9 ∨ ClangVector b ∨ ∃ v, b.msc = some v ∧
      if b.clang = none then 1910 ≤ v else b.avx2 = true ∨ b.avx512 = true)) ∧
    (b.haveAvx512 = true ↔ b.x86 = true ∧ (AtLeast b.gnuc 5 0 ∨ ClangVector b ∨ ∃ v, b.msc = some v ∧
      if b.clang = none then 1910 ≤ v else b.avx512 = true)) := by
  obtain ⟨x86, gnuc, clang, msc, attrTarget, apple, avx512, avx512bw, avx2, popcnt⟩ := b
  unfold Build.havePopcnt Build.haveAsmPopcnt Build.haveAvx2 Build.haveAvx512 Build.haveByCompiler ClangVector
  simp only [Bool.and_eq_true, Bool.or_eq_true, prereq_iff]
  cases x86
  · simp
  · cases msc with
    | none =>
      cases apple <;> simp [prereq_iff, and_assoc]
    | some v =>
      cases clang <;> simp

example : ClangVector ⟨true, some (4, 2), some (14, 0), none, true, none, false, false, false, false⟩ :=
  ⟨rfl, ⟨14, 0, rfl, .inl (by decide)⟩, rfl, fun _ h => by cases h⟩

end BitLib
