import Verif.Lemmas.Popcnt2
import Verif.SpecPopcnt
import Verif.Props.Run
/-
C48: the bulk population count of libpopcnt.h.
The version for x86 is correct on every path. The versions for other CPUs read and count past the end of the buffer when it is
misaligned: `C48_refuted`, `C48_neon_refuted`.
-/
namespace BitLib

theorem Readable.buf {m : Mem 8} {p : Int} {n : Nat} (h : Readable m p n) : Buf m p n := fun j hj =>
  Option.isSome_iff_exists.mp (h (p + (j : Int)) (by omega) (by omega))

theorem Readable.only {m : Mem 8} {p : Int} {n : Nat} (h : Readable m p n) : Readable (m.only fun a => p ≤ a ∧ a < p + n) p n := by
  intro a h1 h2
  unfold Mem.only
  rw [if_pos ⟨h1, h2⟩]
  exact h a h1 h2

theorem cntBytes_only (m : Mem 8) (p : Int) (n : Nat) : cntBytes (m.only fun a => p ≤ a ∧ a < p + n) p n = cntBytes m p n := by
  unfold cntBytes
  rw [countIn_eq_cntF, countIn_eq_cntF]
  refine cntF_congr _ _ _ fun i h1 h2 => ?_
  unfold bitAt Mem.only
  rw [if_pos (by push_cast at *; omega)]

/-- The value returned: a `uint64_t`. It is the number of set bits itself for every buffer below `2^61` bytes. -/
theorem C48_count_fits (m : Mem 8) (p : Int) (size : Nat) (h : size < 2 ^ 61) :
    (BitVec.ofNat 64 (countIn m true (p * 8) (size * 8))).toNat = countIn m true (p * 8) (size * 8) := by
  have : cntBytes m p size ≤ 8 * size := cntBytes_le
  unfold cntBytes at this
  rw [BitVec.toNat_ofNat, Nat.mod_eq_of_lt (by omega)]

/-- C48 on x86: for every combination of compile-time macros and CPU flags (AVX512, AVX2, POPCNT instruction in each form, or the integer
fallback), every buffer and every size, `popcnt` returns the number of set bits of the buffer and leaves memory alone. -/
theorem C48_x86 (c : X86) (m : Mem 8) (p : Int) (size : Nat) (h : Readable m p size) :
    popcntX86 c p size m = .ok (BitVec.ofNat 64 (countIn m true (p * 8) (size * 8)), m) := by
  obtain ⟨r, m', e, h1, h2⟩ := wp_popcntX86 c h.buf (Q := fun r m' => r = BitVec.ofNat 64 (cntBytes m p size) ∧ m' = m) ⟨rfl, rfl⟩
  rw [e, h1, h2]
  rfl

/-- C48 on x86: only the bytes of the buffer are read. -/
theorem C48_x86_footprint (c : X86) (m : Mem 8) (p : Int) (size : Nat) (h : Readable m p size) :
    popcntX86 c p size (m.only fun a => p ≤ a ∧ a < p + size) =
      .ok (BitVec.ofNat 64 (countIn m true (p * 8) (size * 8)), m.only fun a => p ≤ a ∧ a < p + size) := by
  rw [C48_x86 c _ p size h.only]
  exact congrArg (fun n => Except.ok (BitVec.ofNat 64 n, _)) (cntBytes_only m p size)

/-- C48 on x86: all configurations agree. -/
theorem C48_x86_paths_agree (c c' : X86) (m : Mem 8) (p : Int) (size : Nat) (h : Readable m p size) :
    popcntX86 c p size m = popcntX86 c' p size m := by
  rw [C48_x86 c m p size h, C48_x86 c' m p size h]

/-- C48, `popcount64`: the integer fallback counts the set bits of a 64-bit value. -/
theorem C48_popcount64 (x : BitVec 64) : (popcount64 x).toNat = (List.range 64).countP fun i => x.getLsbD i := by
  have hpop : ∀ n, popcntBits x n = (List.range n).countP fun i => x.getLsbD i := by
    intro n
    induction n with
    | zero => rfl
    | succ n ih =>
      rw [popcntBits, List.range_succ, List.countP_append, ih]
      cases h : x.getLsbD n <;> simp [h]
  rw [popcount64_eq, BitVec.toNat_ofNat]
  have := popcntBits_le x 64
  unfold pop64
  rw [Nat.mod_eq_of_lt (by omega), hpop]

/-- C48, `popcnt64`: every definition of it is the same function. -/
theorem C48_popcnt64 (v v' : Popcnt64) (x : BitVec 64) : popcnt64 v x = popcnt64 v' x := by
  rw [popcnt64_eq, popcnt64_eq]

/-- C48 with NEON and unaligned access. -/
theorem C48_neon_unaligned (v : Popcnt64) (m : Mem 8) (p : Int) (size : Nat) (h : Readable m p size) :
    popcntNeon true v p size m = .ok (BitVec.ofNat 64 (countIn m true (p * 8) (size * 8)), m) := by
  obtain ⟨r, m', e, h1, h2⟩ := wp_popcntNeon true v h.buf (Q := fun r m' => r = BitVec.ofNat 64 (cntBytes m p size) ∧ m' = m) ⟨rfl, rfl⟩
  rw [e, h1, h2]
  rfl

/-- C48 for the other CPUs, partial: it holds for buffers below 8 bytes and when the bytes before the first aligned address are at most as many as
`size % 8`, in particular for aligned buffers. Missing: the remaining buffers, for which it is false (`C48_refuted`). -/
theorem C48_other_partial (v : Popcnt64) (m : Mem 8) (p : Int) (size : Nat) (h : Readable m p size) (hk : size < 8 ∨ toAligned p ≤ size % 8) :
    popcntOther v p size m = .ok (BitVec.ofNat 64 (countIn m true (p * 8) (size * 8)), m) := by
  have e0 : otherExtent p size = size := by
    unfold otherExtent
    change size < 8 ∨ skew p ≤ size % 8 at hk
    split_ifs <;> omega
  have hb := h.buf
  rw [← e0] at hb
  obtain ⟨r, m', e, h1, h2⟩ := wp_popcntOther v hb (Q := fun r m' => r = BitVec.ofNat 64 (cntBytes m p (otherExtent p size)) ∧ m' = m) ⟨rfl, rfl⟩
  rw [e, h1, h2, e0]
  rfl

/-- What the version for other CPUs returns on every remaining buffer, if it is allowed to read past its end: the count includes the
bytes up to the first aligned address after the last full word. -/
theorem C48_other_overcounts (v : Popcnt64) (m : Mem 8) (p : Int) (size : Nat) (h8 : 8 ≤ size) (hk : size % 8 < toAligned p)
    (h : Readable m p (size - size % 8 + toAligned p)) :
    popcntOther v p size m = .ok (BitVec.ofNat 64 (countIn m true (p * 8) ((size - size % 8 + toAligned p) * 8)), m) := by
  have e0 : otherExtent p size = size - size % 8 + toAligned p := by
    change size % 8 < skew p at hk
    change _ = _ + skew p
    unfold otherExtent
    rw [if_pos h8]
    omega
  have hb := h.buf
  rw [← e0] at hb
  obtain ⟨r, m', e, h1, h2⟩ := wp_popcntOther v hb (Q := fun r m' => r = BitVec.ofNat 64 (cntBytes m p (otherExtent p size)) ∧ m' = m) ⟨rfl, rfl⟩
  rw [e, h1, h2, e0]
  rfl

/-- C48 fails for the other CPUs: on every buffer of at least 8 bytes with more than `size % 8` bytes before the first aligned address, the byte
after the buffer is read. -/
theorem C48_refuted (v : Popcnt64) (m : Mem 8) (p : Int) (size : Nat) (h : Readable m p size) (hz : m (p + size) = none)
    (h8 : 8 ≤ size) (hk : size % 8 < toAligned p) : popcntOther v p size m = .error .outOfBounds :=
  fails_popcntOther v h.buf hz h8 hk

/-- C48 with NEON without unaligned access, partial: as `C48_other_partial`, for the bytes left over by the vector loop. -/
theorem C48_neon_partial (v : Popcnt64) (m : Mem 8) (p : Int) (size : Nat) (h : Readable m p size)
    (hk : size % 64 < 8 ∨ toAligned p ≤ size % 8) :
    popcntNeon false v p size m = .ok (BitVec.ofNat 64 (countIn m true (p * 8) (size * 8)), m) := by
  have e0 : neonExtent false p size = size := by
    show size - size % 64 + otherExtent p (size % 64) = size
    unfold otherExtent
    change size % 64 < 8 ∨ skew p ≤ size % 8 at hk
    split_ifs <;> omega
  have hb := h.buf
  rw [← e0] at hb
  obtain ⟨r, m', e, h1, h2⟩ := wp_popcntNeon false v hb (Q := fun r m' => r = BitVec.ofNat 64 (cntBytes m p (neonExtent false p size)) ∧ m' = m) ⟨rfl, rfl⟩
  rw [e, h1, h2, e0]
  rfl

/-- C48 fails with NEON without unaligned access, under the same condition. -/
theorem C48_neon_refuted (v : Popcnt64) (m : Mem 8) (p : Int) (size : Nat) (h : Readable m p size) (hz : m (p + size) = none)
    (h8 : 8 ≤ size % 64) (hk : size % 8 < toAligned p) : popcntNeon false v p size m = .error .outOfBounds :=
  fails_popcntNeon v h.buf hz h8 hk

/-! Concrete cases. -/

theorem readable_memOf (l : List (BitVec 8)) (p n : Nat) (h : p + n ≤ l.length) : Readable (memOf l) p n := by
  intro a h1 h2
  unfold memOf
  rw [if_pos (by omega)]
  simp
  omega

example : Readable (memOf (List.replicate 1100 (0x35#8))) (3 : Nat) 1090 := readable_memOf _ _ _ (by rw [List.length_replicate]; decide)

/-- 1090 bytes with four bits each: both vector loops, the word loop and the byte loop run. -/
example : popcntX86 ⟨true, true, true, .halves⟩ (3 : Nat) 1090 (memOf (List.replicate 1100 (0x35#8))) =
    .ok (BitVec.ofNat 64 (countIn (memOf (List.replicate 1100 (0x35#8))) true (((3 : Nat) : Int) * 8) (1090 * 8)), memOf (List.replicate 1100 (0x35#8))) :=
  C48_x86 _ _ _ _ (readable_memOf _ _ _ (by rw [List.length_replicate]; decide))

example : (match popcntX86 ⟨false, false, false, .wide⟩ 1 11 (memOf (List.replicate 12 (0x35#8))) with | .ok (r, _) => some r.toNat | _ => none) = some 44 := by
  decide +kernel

/-- Nine bytes at address 1: the byte at address 10 is not part of the buffer but is read. -/
example : (8 ≤ 9 ∧ 9 % 8 < toAligned 1) := by decide
example : outcome (popcntOther .integer 1 9) (memOf (List.replicate 10 (0x35#8))) = some .outOfBounds := by decide +kernel
example : (match popcntOther .integer 1 9 (memOf (List.replicate 16 (0xff#8))) with | .ok (r, _) => some r.toNat | _ => none) = some 120 := by
  decide +kernel
example : outcome (popcntNeon false .wide 1 73) (memOf (List.replicate 74 (0x35#8))) = some .outOfBounds := by decide +kernel
example : toAligned 3 ≤ 13 % 8 := by decide

end BitLib
