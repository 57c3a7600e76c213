import Verif.Lemmas.CountMem
import Verif.SpecRef
import Verif.SpecPopcnt
import Verif.Props.Popcnt
/-
C75: `count` on an array of words in a memory of bytes, with libpopcnt.h for the whole words.
C76: `count` on a sequence of words that is not an array.
-/
namespace BitLib
variable {k w : Nat}

theorem midFirst_eq (first : BitIter w) : midFirst first = wholeFrom first := by
  unfold midFirst wholeFrom
  split_ifs <;> first | rfl | omega

/-- What `popcnt` returns, for every version. -/
theorem Cpu.popcnt_ok (C : Cpu) {m : Mem 8} {p : Int} {size : Nat} (h : Readable m p (size + C.beyond p size)) :
    C.popcnt p size m = .ok (BitVec.ofNat 64 (cntBytes m p (size + C.beyond p size)), m) := by
  cases C with
  | x86 c => exact C48_x86 c m p size h
  | neon un v =>
    have e0 : neonExtent un p size = size + (Cpu.neon un v).beyond p size := by
      cases un with
      | true => rfl
      | false =>
        show size - size % 64 + otherExtent p (size % 64) = size + (if 8 ≤ size % 64 then skew p - size % 8 else 0)
        unfold otherExtent
        split_ifs <;> omega
    have hb := h.buf
    rw [← e0] at hb ⊢
    obtain ⟨r, m', e, h1, h2⟩ := wp_popcntNeon un v hb (Q := fun r m' => r = BitVec.ofNat 64 (cntBytes m p (neonExtent un p size)) ∧ m' = m) ⟨rfl, rfl⟩
    rw [Cpu.popcnt, e, h1, h2]
  | other v =>
    have e0 : otherExtent p size = size + (Cpu.other v).beyond p size := by
      show _ = size + (if 8 ≤ size then skew p - size % 8 else 0)
      unfold otherExtent
      split_ifs <;> omega
    have hb := h.buf
    rw [← e0] at hb ⊢
    obtain ⟨r, m', e, h1, h2⟩ := wp_popcntOther v hb (Q := fun r m' => r = BitVec.ofNat 64 (cntBytes m p (otherExtent p size)) ∧ m' = m) ⟨rfl, rfl⟩
    rw [Cpu.popcnt, e, h1, h2]

/-- The byte after the buffer is unmapped, and read. -/
theorem Cpu.popcnt_fails (C : Cpu) {m : Mem 8} {p : Int} {size : Nat} (h : Readable m p size) (hb : 0 < C.beyond p size)
    (hz : m (p + size) = none) : C.popcnt p size m = .error .outOfBounds := by
  cases C with
  | x86 c => exact absurd hb (Nat.lt_irrefl 0)
  | neon un v =>
    cases un with
    | true => exact absurd hb (Nat.lt_irrefl 0)
    | false =>
      change 0 < (if 8 ≤ size % 64 then toAligned p - size % 8 else 0) at hb
      split_ifs at hb with h8
      · exact C48_neon_refuted v m p size h hz h8 (by omega)
      · omega
  | other v =>
    change 0 < (if 8 ≤ size then toAligned p - size % 8 else 0) at hb
    split_ifs at hb with h8
    · exact C48_refuted v m p size h hz h8 (by omega)
    · omega

theorem Cpu.beyond_le (C : Cpu) (p : Int) (size : Nat) : C.beyond p size ≤ 7 := by
  have : toAligned p < 8 := by unfold toAligned; omega
  unfold Cpu.beyond
  split <;> (try split_ifs) <;> omega

/-- Words that are part of a range of bits are readable. -/
theorem wordMapped_of_range {e : Endian} {base : Int} {m : Mem 8} {first last : BitIter (8 * k)} (hf : first.Valid)
    (hm : Mapped (wordView e k base m) first.addr last.addr) {j : Int} (h1 : first.base ≤ j) (h2 : j < last.base) :
    WordMapped m k (base + (k : Int) * j) := by
  by_contra hc
  have hn := wordView_none (e := e) hc
  have hf' : first.pos < 8 * k := hf
  have hfa : first.addr = first.base * ((8 * k : Nat) : Int) + first.pos := rfl
  have hla : last.addr = last.base * ((8 * k : Nat) : Int) + last.pos := rfl
  have h3 := base_lt_mul (w := 8 * k) h2
  have h4 := base_le_mul (w := 8 * k) h1
  have h5 : (j + 1) * ((8 * k : Nat) : Int) = j * ((8 * k : Nat) : Int) + ((8 * k : Nat) : Int) := by ring
  have := hm (j * ((8 * k : Nat) : Int) + ((8 * k - 1 : Nat) : Int)) (by omega) (by omega)
  rw [bitAt_word _ _ _ (by omega), hn] at this
  exact absurd this (by simp)

/-- The bytes of the whole words are readable. -/
theorem readable_whole {e : Endian} {base : Int} {m : Mem 8} {first last : BitIter (8 * k)} (hf : first.Valid)
    (hm : Mapped (wordView e k base m) first.addr last.addr) : Readable m (wholeAddr base first) (wholeSize first last) := by
  intro a h1 h2
  have hk : 0 < k := by have : first.pos < 8 * k := hf; omega
  unfold wholeAddr wholeSize at *
  have hfirst : first.base ≤ wholeFrom first := by unfold wholeFrom; split_ifs <;> omega
  set d := a - (base + (k : Int) * wholeFrom first) with hd
  have hd0 : 0 ≤ d := by omega
  have hdiv := Int.emod_add_mul_ediv d k
  have hm0 := Int.emod_nonneg d (b := (k : Int)) (by omega)
  have hm1 := Int.emod_lt_of_pos d (b := (k : Int)) (by omega)
  have hq0 : 0 ≤ d / (k : Int) := Int.ediv_nonneg hd0 (by omega)
  have hq1 : d / (k : Int) < ((last.base - wholeFrom first).toNat : Int) := by
    refine Int.ediv_lt_of_lt_mul (by omega) ?_
    rw [Int.mul_comm]
    push_cast at h2 ⊢
    omega
  refine wordMapped_of_range (e := e) hf hm (j := wholeFrom first + d / (k : Int)) (by omega) (by omega) a ?_ ?_
  · rw [Int.mul_add]; omega
  · rw [Int.mul_add]; omega

/-- C75, the outcome for every range with at least one bit and every version of libpopcnt: `count` counts the bits of the range, and also the set
bits of the `extra` bytes after its whole words. -/
theorem C75_outcome (C : Cpu) (e : Endian) (base : Int) (S : ShiftSem (8 * k)) (m : Mem 8) (first last : BitIter (8 * k)) (v : Bool)
    (hr : Range (wordView e k base m) first last) (hlt : first.addr < last.addr) (hsmall : last.addr - first.addr < 2 ^ 62)
    (hx : Readable m (wholeAddr base first + wholeSize first last) (C.extra base first last)) :
    countMem C e k base S first last v m = .ok
      (if v then (countIn (wordView e k base m) true first.addr (last.addr - first.addr).toNat : Int) +
          countIn m true ((wholeAddr base first + wholeSize first last) * 8) (C.extra base first last * 8)
        else (countIn (wordView e k base m) false first.addr (last.addr - first.addr).toNat : Int) -
          countIn m true ((wholeAddr base first + wholeSize first last) * 8) (C.extra base first last * 8), m) := by
  have hbb := base_le_of_addr hr.validLast (Int.le_of_lt hlt)
  have hex : C.extra base first last ≤ 7 := by
    unfold Cpu.extra
    split_ifs
    · omega
    · exact C.beyond_le _ _
  have hcb : cntBytes m (wholeAddr base first + wholeSize first last) (C.extra base first last) ≤ 8 * C.extra base first last := cntBytes_le
  obtain ⟨r, m', he, h1, h2⟩ := wp_countBy S (ld := fun j => loadWord e k (base + (k : Int) * j))
    (pc := fun j n => C.popcnt (base + (k : Int) * j) (k * n)) (first := first) (last := last) (v := v) (m := m) (W := wordView e k base m)
    (extra := cntBytes m (wholeAddr base first + wholeSize first last) (C.extra base first last))
    (Q := fun r m' => r = (if v then
      (countIn (wordView e k base m) true first.addr (last.addr - first.addr).toNat : Int) +
          countIn m true ((wholeAddr base first + wholeSize first last) * 8) (C.extra base first last * 8)
        else (countIn (wordView e k base m) false first.addr (last.addr - first.addr).toNat : Int) -
          countIn m true ((wholeAddr base first + wholeSize first last) * 8) (C.extra base first last * 8)) ∧ m' = m)
    (by
      intro j x _ hx
      by_cases hw : WordMapped m k (base + (k : Int) * j)
      · obtain ⟨y, h1, h2, _⟩ := wordView_some (e := e) hw
        rw [h1] at hx
        rw [h2, Option.some.inj hx]
      · rw [wordView_none hw] at hx
        exact absurd hx (by simp))
    (by
      intro hne N hN
      rw [midFirst_eq] at hN ⊢
      have hNn : (last.base - wholeFrom first).toNat = N := by omega
      have hsz : wholeSize first last = k * N := by unfold wholeSize; rw [hNn]
      have hexb : C.extra base first last = C.beyond (wholeAddr base first) (k * N) := by
        unfold Cpu.extra
        rw [if_neg hne, hsz]
      have hwhole := readable_whole hr.validFirst hr.mapped
      rw [hsz] at hx hwhole ⊢
      rw [hexb] at hx ⊢
      show C.popcnt (wholeAddr base first) (k * N) m = _
      rw [C.popcnt_ok (fun a h1 h2 => ?_), cntBytes_add]
      · rw [cnt_words (j := wholeFrom first) N fun i hi => wordMapped_of_range (e := e) hr.validFirst hr.mapped (by
          unfold wholeFrom; split_ifs <;> omega) (by omega)]
        rfl
      · by_cases ha : a < wholeAddr base first + ((k * N : Nat) : Int)
        · exact hwhole a h1 ha
        · exact hx a (by omega) (by push_cast at *; omega))
    (by
      intro h
      unfold Cpu.extra
      rw [if_pos h]
      rfl)
    hr.validFirst hr.validLast hlt hr.mapped (by omega) (by
      cases v <;> exact ⟨rfl, rfl⟩)
  unfold countMem
  rw [he, h1, h2]

/-- C75, partial: `count` returns the number of bits with the value, whenever libpopcnt stays within the whole words. Missing: the ranges with
`extra` bytes, for which it is false (`C75_refuted`, `C75_wrong_iff`). -/
theorem C75_count_partial (C : Cpu) (e : Endian) (base : Int) (S : ShiftSem (8 * k)) (m : Mem 8) (first last : BitIter (8 * k)) (v : Bool)
    (hr : Range (wordView e k base m) first last) (hlt : first.addr < last.addr) (hsmall : last.addr - first.addr < 2 ^ 62)
    (h0 : C.extra base first last = 0) :
    countMem C e k base S first last v m = .ok
      ((countIn (wordView e k base m) v first.addr (last.addr - first.addr).toNat : Int), m) := by
  rw [C75_outcome C e base S m first last v hr hlt hsmall (by rw [h0]; intro a h1 h2; omega), h0]
  cases v <;> simp [countIn_zero]

/-- C75 on x86: right for every word type, byte order, address and CPU feature. -/
theorem C75_x86 (c : X86) (e : Endian) (base : Int) (S : ShiftSem (8 * k)) (m : Mem 8) (first last : BitIter (8 * k)) (v : Bool)
    (hr : Range (wordView e k base m) first last) (hlt : first.addr < last.addr) (hsmall : last.addr - first.addr < 2 ^ 62) :
    countMem (.x86 c) e k base S first last v m = .ok
      ((countIn (wordView e k base m) v first.addr (last.addr - first.addr).toNat : Int), m) :=
  C75_count_partial _ e base S m first last v hr hlt hsmall (by unfold Cpu.extra; split_ifs <;> rfl)

/-- C75 with NEON and unaligned access: right for every word type, byte order and address. -/
theorem C75_neon_unaligned (p : Popcnt64) (e : Endian) (base : Int) (S : ShiftSem (8 * k)) (m : Mem 8) (first last : BitIter (8 * k)) (v : Bool)
    (hr : Range (wordView e k base m) first last) (hlt : first.addr < last.addr) (hsmall : last.addr - first.addr < 2 ^ 62) :
    countMem (.neon true p) e k base S first last v m = .ok
      ((countIn (wordView e k base m) v first.addr (last.addr - first.addr).toNat : Int), m) :=
  C75_count_partial _ e base S m first last v hr hlt hsmall (by unfold Cpu.extra; split_ifs <;> rfl)

/-- C75 for 8-byte words at an aligned address: right on every CPU. -/
theorem C75_words64 (C : Cpu) (e : Endian) (base : Int) (S : ShiftSem (8 * 8)) (m : Mem 8) (first last : BitIter (8 * 8)) (v : Bool)
    (hal : base % 8 = 0) (hr : Range (wordView e 8 base m) first last) (hlt : first.addr < last.addr) (hsmall : last.addr - first.addr < 2 ^ 62) :
    countMem C e 8 base S first last v m = .ok
      ((countIn (wordView e 8 base m) v first.addr (last.addr - first.addr).toNat : Int), m) := by
  refine C75_count_partial _ e base S m first last v hr hlt hsmall ?_
  have ht : toAligned (wholeAddr base first) = 0 := by
    unfold toAligned wholeAddr
    push_cast
    omega
  unfold Cpu.extra Cpu.beyond
  rw [ht]
  by_cases hb : first.base = last.base
  · rw [if_pos hb]
  · rw [if_neg hb]
    split <;> simp

/-- C75: when the extra bytes may be read, the result is wrong exactly if one of them has a set bit. -/
theorem C75_wrong_iff (C : Cpu) (e : Endian) (base : Int) (S : ShiftSem (8 * k)) (m : Mem 8) (first last : BitIter (8 * k)) (v : Bool)
    (hr : Range (wordView e k base m) first last) (hlt : first.addr < last.addr) (hsmall : last.addr - first.addr < 2 ^ 62)
    (hx : Readable m (wholeAddr base first + wholeSize first last) (C.extra base first last)) :
    countMem C e k base S first last v m ≠ .ok ((countIn (wordView e k base m) v first.addr (last.addr - first.addr).toNat : Int), m) ↔
      0 < countIn m true ((wholeAddr base first + wholeSize first last) * 8) (C.extra base first last * 8) := by
  rw [C75_outcome C e base S m first last v hr hlt hsmall hx]
  generalize countIn m true _ _ = n
  constructor
  · intro h
    by_contra hn
    refine h ?_
    rw [show n = 0 by omega]
    cases v <;> simp
  · intro hn h
    have := congrArg Prod.fst (Except.ok.inj h)
    cases v
    · simp at this; omega
    · simp at this; omega

/-- C75 fails: with extra bytes, `count` reads past the whole words, out of bounds if the range ends there and nothing follows the array. -/
theorem C75_refuted (C : Cpu) (e : Endian) (base : Int) (S : ShiftSem (8 * k)) (m : Mem 8) (first last : BitIter (8 * k)) (v : Bool)
    (hr : Range (wordView e k base m) first last) (h0 : 0 < C.extra base first last)
    (hz : m (wholeAddr base first + wholeSize first last) = none) : countMem C e k base S first last v m = .error .outOfBounds := by
  have hbb := base_le_of_addr hr.validLast hr.le
  have hne : first.base ≠ last.base := by
    intro h
    unfold Cpu.extra at h0
    rw [if_pos h] at h0
    omega
  unfold Cpu.extra at h0
  rw [if_neg hne] at h0
  refine countBy_fails S (W := wordView e k base m) ?_ hr.validFirst (by omega) hr.mapped ?_
  · intro j x hx
    by_cases hw : WordMapped m k (base + (k : Int) * j)
    · obtain ⟨y, h1, h2, _⟩ := wordView_some (e := e) hw
      rw [h1] at hx
      rw [h2, Option.some.inj hx]
    · rw [wordView_none hw] at hx
      exact absurd hx (by simp)
  · intro N hN
    rw [midFirst_eq] at hN ⊢
    have hsz : wholeSize first last = k * N := by
      unfold wholeSize
      rw [show (last.base - wholeFrom first).toNat = N by omega]
    have hwhole := readable_whole hr.validFirst hr.mapped
    rw [hsz] at h0 hz hwhole
    exact C.popcnt_fails hwhole h0 hz

/-- C75: which ranges of an aligned array of 4-byte words are affected on the other CPUs: those with an even number, not 0, of whole words that
start with the second half of 8 aligned bytes. -/
theorem C75_words32 (p : Popcnt64) (base : Int) (first last : BitIter (8 * 4)) (hal : base % 8 = 0) (hle : wholeFrom first ≤ last.base) :
    (Cpu.other p).extra base first last =
      if wholeFrom first % 2 = 1 ∧ (last.base - wholeFrom first) % 2 = 0 ∧ wholeFrom first < last.base then 4 else 0 := by
  have hge : first.base ≤ wholeFrom first := by unfold wholeFrom; split_ifs <;> omega
  unfold Cpu.extra Cpu.beyond wholeSize wholeAddr toAligned
  dsimp only
  push_cast
  split_ifs <;> omega

/-- C75, empty ranges: 0, but the word of `first` is read; beyond the array that is out of bounds. -/
theorem C75_empty (C : Cpu) (e : Endian) (base : Int) (S : ShiftSem (8 * k)) (m : Mem 8) (first : BitIter (8 * k)) (v : Bool)
    (hf : first.Valid) [Decidable (WordMapped m k (base + (k : Int) * first.base))] :
    countMem C e k base S first first v m =
      if WordMapped m k (base + (k : Int) * first.base) then .ok (0, m) else .error .outOfBounds := by
  split_ifs with h
  · obtain ⟨x, h1, _⟩ := loadWord_ok (e := e) h
    exact countBy_empty S hf h1
  · exact countBy_empty_fails S (loadWord_fail h)

/-! Concrete cases: four words of 4 bytes at address 0; the middle two are whole words of the range. -/

/-- 20 bytes. -/
def bytes20 : Mem 8 := memOf ((List.range 20).map fun i => BitVec.ofNat 8 (i * 37))

theorem bytes20_range : Range (wordView .little 4 0 bytes20) (⟨0, 5⟩ : BitIter (8 * 4)) ⟨3, 0⟩ where
  validFirst := by decide
  validLast := by decide
  le := by decide
  mapped := by
    intro i h1 h2
    change 5 ≤ i at h1
    change i < 96 at h2
    obtain ⟨n, rfl⟩ : ∃ n : Nat, i = n := ⟨i.toNat, by omega⟩
    have : ∀ n : Nat, n < 96 → (bitAt (wordView .little 4 0 bytes20) (n : Int)).isSome := by decide +kernel
    exact this n (by omega)

/-- The whole words are words 1 and 2: 8 bytes at address 4. -/
example : wholeAddr 0 (⟨0, 5⟩ : BitIter (8 * 4)) = 4 ∧ wholeSize (⟨0, 5⟩ : BitIter (8 * 4)) ⟨3, 0⟩ = 8 ∧
    (Cpu.other .integer).extra 0 (⟨0, 5⟩ : BitIter (8 * 4)) ⟨3, 0⟩ = 4 := by decide

/-- On x86 the result is right; on the other CPUs the bits of word 3 are counted as well. -/
example : (match countMem (.x86 ⟨true, true, true, .wide⟩) .little 4 0 S32 ⟨0, 5⟩ ⟨3, 0⟩ true bytes20 with | .ok (r, _) => some r | _ => none) =
      some (countIn (wordView .little 4 0 bytes20) true 5 91 : Int) ∧
    (match countMem (.other .integer) .little 4 0 S32 ⟨0, 5⟩ ⟨3, 0⟩ true bytes20 with | .ok (r, _) => some r | _ => none) =
      some ((countIn (wordView .little 4 0 bytes20) true 5 91 + countIn (wordView .little 4 0 bytes20) true 96 32 : Nat) : Int) ∧
    0 < countIn (wordView .little 4 0 bytes20) true 96 32 := by decide +kernel

/-- Without word 3 it is out of bounds. -/
example : outcome (countMem (.other .integer) .little 4 0 S32 ⟨0, 5⟩ ⟨3, 0⟩ true)
    (memOf ((List.range 12).map fun i => BitVec.ofNat 8 (i * 37))) = some .outOfBounds := by decide +kernel

/-! ### C76 -/

/-- The sequence of words whose word `j` is at address `addr j`. -/
def seqView (addr : Int → Int) (m : Mem w) : Mem w := fun j => m (addr j)

/-- What `count` sees of it: the whole words of the range are taken to follow each other in memory. -/
def flatView (addr : Int → Int) (first last : BitIter w) (m : Mem w) : Mem w := fun j =>
  if wholeFrom first ≤ j ∧ j < last.base then m (addr (wholeFrom first) + (j - wholeFrom first)) else m (addr j)

/-- C76, the outcome for every arrangement of the words: `count` counts the bits of the flat view. -/
theorem C76_outcome (addr : Int → Int) (S : ShiftSem w) (m : Mem w) (first last : BitIter w) (v : Bool)
    (hr : Range (flatView addr first last m) first last) (hlt : first.addr < last.addr) (hsmall : last.addr - first.addr < 2 ^ 63) :
    countPieces addr S first last v m = .ok
      ((countIn (flatView addr first last m) v first.addr (last.addr - first.addr).toNat : Int), m) := by
  have hw : 0 < w := Nat.lt_of_le_of_lt (Nat.zero_le _) hr.validFirst
  have hf' : first.pos < w := hr.validFirst
  have hfa : first.addr = first.base * w + first.pos := rfl
  have hla : last.addr = last.base * w + last.pos := rfl
  obtain ⟨r, m', he, h1, h2⟩ := wp_countBy S (ld := fun j => load (addr j))
    (pc := fun j n => do let r ← popcntWords n (addr j); pure (BitVec.ofNat 64 r)) (first := first) (last := last) (v := v) (m := m)
    (W := flatView addr first last m) (extra := 0)
    (Q := fun r m' => r = (countIn (flatView addr first last m) v first.addr (last.addr - first.addr).toNat : Int) ∧ m' = m)
    (by
      intro j x hj hx
      rw [midFirst_eq] at hj
      unfold flatView at hx
      rw [if_neg hj] at hx
      show load (addr j) m = _
      unfold load
      rw [hx])
    (by
      intro _ N hN
      rw [midFirst_eq] at hN ⊢
      have hge : first.base ≤ wholeFrom first := by unfold wholeFrom; split_ifs <;> omega
      have hge' : first.addr ≤ wholeFrom first * (w : Int) := by
        unfold wholeFrom
        split_ifs with hp
        · omega
        · rw [Int.add_mul]; omega
      have hNw : last.base * (w : Int) = wholeFrom first * w + N * w := by rw [hN]; ring
      have hbit : ∀ i : Int, 0 ≤ i → i < (N : Int) * w →
          bitAt m (addr (wholeFrom first) * w + i) = bitAt (flatView addr first last m) (wholeFrom first * w + i) := by
        intro i h0 h1
        obtain ⟨b, p, hp, hi⟩ := word_decomp hw i
        have hb0 : 0 ≤ b := by
          by_contra hc
          have := base_lt_mul (w := w) (a := b) (b := 0) (by omega)
          have e1 : (b + 1) * (w : Int) = b * w + w := by ring
          omega
        have hbN : b < N := by
          by_contra hc
          have := base_le_mul (w := w) (a := (N : Int)) (b := b) (by omega)
          omega
        rw [hi, show addr (wholeFrom first) * (w : Int) + (b * w + p) = (addr (wholeFrom first) + b) * w + p by ring,
          show wholeFrom first * (w : Int) + (b * w + p) = (wholeFrom first + b) * w + p by ring, bitAt_word _ _ _ hp, bitAt_word _ _ _ hp]
        unfold flatView
        rw [if_pos (by omega), show wholeFrom first + b - wholeFrom first = b by omega]
      have hmap : Mapped m (addr (wholeFrom first) * w) (addr (wholeFrom first) * w + N * w) := by
        intro i h1 h2
        have := hbit (i - addr (wholeFrom first) * w) (by omega) (by omega)
        rw [show addr (wholeFrom first) * (w : Int) + (i - addr (wholeFrom first) * w) = i by ring] at this
        rw [this]
        exact hr.mapped _ (by omega) (by omega)
      have hcount : countIn m true (addr (wholeFrom first) * w) (N * w) =
          countIn (flatView addr first last m) true (wholeFrom first * w) (N * w) := by
        unfold countIn
        refine List.countP_congr fun i hi => ?_
        have hi' : (i : Int) < ((N * w : Nat) : Int) := by exact_mod_cast List.mem_range.1 hi
        rw [hbit i (by omega) (by push_cast at hi'; exact hi')]
      obtain ⟨r, m', he, h1, h2⟩ := wp_popcntWords hw N (a := addr (wholeFrom first)) (m := m)
        (Q := fun r m' => r = countIn m true (addr (wholeFrom first) * w) (N * w) ∧ m' = m) hmap ⟨rfl, rfl⟩
      show (popcntWords N (addr (wholeFrom first)) m >>= fun q => (pure (BitVec.ofNat 64 q.1) : M w (BitVec 64)) q.2) = _
      rw [he, h1, h2, hcount]
      rfl)
    (fun _ => rfl) hr.validFirst hr.validLast hlt hr.mapped (by omega) (by cases v <;> simp)
  unfold countPieces
  rw [he, h1, h2]

/-- C76, partial: right if the whole words of the range follow each other in memory. Missing: other arrangements, for which it is false
(`C76_refuted`). -/
theorem C76_contiguous_partial (addr : Int → Int) (S : ShiftSem w) (m : Mem w) (first last : BitIter w) (v : Bool)
    (hr : Range (seqView addr m) first last) (hlt : first.addr < last.addr) (hsmall : last.addr - first.addr < 2 ^ 63)
    (hc : ∀ j, wholeFrom first ≤ j → j < last.base → addr j = addr (wholeFrom first) + (j - wholeFrom first)) :
    countPieces addr S first last v m = .ok ((countIn (seqView addr m) v first.addr (last.addr - first.addr).toNat : Int), m) := by
  have e : flatView addr first last m = seqView addr m := by
    funext j
    unfold flatView seqView
    split_ifs with h
    · rw [hc j h.1 h.2]
    · rfl
  rw [← e] at hr ⊢
  exact C76_outcome addr S m first last v hr hlt hsmall

/-- C76 fails: whenever a whole word of the range lies outside of the block of memory that starts with the first one, there are contents for which
the number of set bits is wrong, although every address is readable. -/
theorem C76_refuted (addr : Int → Int) (S : ShiftSem w) (first last : BitIter w) (hf : first.Valid) (hl : last.Valid)
    (hsmall : last.addr - first.addr < 2 ^ 63) (hinj : ∀ i j, addr i = addr j → i = j) (j : Int) (h1 : wholeFrom first ≤ j) (h2 : j < last.base)
    (hout : addr j < addr (wholeFrom first) ∨ addr (wholeFrom first) + (last.base - wholeFrom first) ≤ addr j) :
    ∃ m : Mem w, (∀ a, (m a).isSome) ∧ Range (seqView addr m) first last ∧
      0 < countIn (seqView addr m) true first.addr (last.addr - first.addr).toNat ∧ countPieces addr S first last true m = .ok (0, m) := by
  have hw : 0 < w := Nat.lt_of_le_of_lt (Nat.zero_le _) hf
  have hf' : first.pos < w := hf
  have hfa : first.addr = first.base * w + first.pos := rfl
  have hla : last.addr = last.base * w + last.pos := rfl
  have hge' : first.addr ≤ wholeFrom first * (w : Int) := by
    unfold wholeFrom
    split_ifs with hp
    · omega
    · rw [Int.add_mul]; omega
  have hj1 := base_le_mul (w := w) h1
  have hj2 := base_lt_mul (w := w) h2
  have e1 : (j + 1) * (w : Int) = j * w + w := by ring
  have hlt : first.addr < last.addr := by omega
  let m : Mem w := fun a => if a = addr j then some (BitVec.allOnes w) else some 0#w
  have hm : ∀ a, (m a).isSome := by intro a; show (if _ then _ else _ : Option (BitVec w)).isSome; split_ifs <;> rfl
  have hbits : ∀ (W : Mem w), (∀ b, (W b).isSome) → ∀ i, (bitAt W i).isSome := by
    intro W hW i
    obtain ⟨b, p, hp, rfl⟩ := word_decomp hw i
    rw [bitAt_word _ _ _ hp]
    obtain ⟨x, hx⟩ := Option.isSome_iff_exists.1 (hW b)
    rw [hx]
    rfl
  refine ⟨m, hm, ⟨hf, hl, Int.le_of_lt hlt, fun i _ _ => hbits _ (fun b => hm (addr b)) i⟩, ?_, ?_⟩
  · unfold countIn
    rw [List.countP_pos_iff]
    refine ⟨(j * w - first.addr).toNat, List.mem_range.2 (by omega), ?_⟩
    rw [show first.addr + ((j * (w : Int) - first.addr).toNat : Int) = j * w + ((0 : Nat) : Int) by omega, bitAt_word _ _ _ hw]
    have : seqView addr m j = some (BitVec.allOnes w) := if_pos rfl
    rw [this]
    simp [hw]
  · have hv : ∀ b, flatView addr first last m b = if b = j then flatView addr first last m j else some 0#w := by
      intro b
      by_cases hb : b = j
      · rw [if_pos hb, hb]
      · rw [if_neg hb]
        unfold flatView
        split_ifs with hc
        · exact if_neg (by omega)
        · exact if_neg fun h => hb (hinj _ _ h)
    have hvj : flatView addr first last m j = some 0#w := by
      unfold flatView
      rw [if_pos ⟨h1, h2⟩]
      exact if_neg (by omega)
    have hv0 : ∀ b, flatView addr first last m b = some 0#w := by
      intro b
      rw [hv b, hvj, ite_self]
    rw [C76_outcome addr S m first last true ⟨hf, hl, Int.le_of_lt hlt, fun i _ _ => hbits _ (fun b => by rw [hv0 b]; rfl) i⟩ hlt hsmall]
    have : countIn (flatView addr first last m) true first.addr (last.addr - first.addr).toNat = 0 := by
      unfold countIn
      rw [List.countP_eq_zero]
      intro i _
      obtain ⟨b, p, hp, hi⟩ := word_decomp hw (first.addr + (i : Int))
      rw [hi, bitAt_word _ _ _ hp, hv0 b]
      simp
    rw [this]
    rfl

/-! Concrete cases: a sequence in two pieces of two words, at addresses 0 and 10. -/

/-- Words 0 and 1 are at 0 and 1, words 2 and 3 at 10 and 11. -/
def twoPieces (j : Int) : Int := if j < 2 then j else j + 8

/-- The hypotheses of `C76_refuted` for the range of words 0 to 3. -/
example : (∀ i j, twoPieces i = twoPieces j → i = j) ∧ wholeFrom (⟨0, 0⟩ : BitIter 8) ≤ 2 ∧
    twoPieces (wholeFrom (⟨0, 0⟩ : BitIter 8)) + (3 - wholeFrom (⟨0, 0⟩ : BitIter 8)) ≤ twoPieces 2 := by
  refine ⟨?_, by decide, by decide⟩
  intro i j h
  unfold twoPieces at h
  split_ifs at h <;> omega

/-- Word 2 is missed and the unrelated word at address 2 is counted instead. -/
example : (match countPieces twoPieces S8 ⟨0, 3⟩ ⟨3, 1⟩ true (memOf [0xff#8, 0x0f#8, 0x00#8, 0#8, 0#8, 0#8, 0#8, 0#8, 0#8, 0#8, 0xff#8, 0x01#8]) with
      | .ok (r, _) => some r | _ => none) = some 10 ∧
    countIn (seqView twoPieces (memOf [0xff#8, 0x0f#8, 0x00#8, 0#8, 0#8, 0#8, 0#8, 0#8, 0#8, 0#8, 0xff#8, 0x01#8])) true 3 22 = 18 := by decide +kernel

/-- A range within one piece meets the hypothesis of `C76_contiguous_partial`. -/
example : ∀ j, wholeFrom (⟨2, 5⟩ : BitIter 8) ≤ j → j < 4 →
    twoPieces j = twoPieces (wholeFrom (⟨2, 5⟩ : BitIter 8)) + (j - wholeFrom (⟨2, 5⟩ : BitIter 8)) := by
  intro j h1 h2
  change 3 ≤ j at h1
  rw [show j = 3 by omega]
  decide

end BitLib
