import Verif.Props.Vector
/- C31-C34, C37, C38: resizing, construction, capacity and `debug_string` of `bit_vector`. -/
namespace BitLib
variable {w : Nat}

/-! ### C31: `resize(count)` -/

/-- C31, what `resize(n)` does: the new contents are the first `n` bits stored in the words (`storedBit`: 0 past the last word). -/
theorem C31_resize_exact (hw : 0 < w) (P : Policy) (h : Heap w) (v : BV) (l : List Bool) (n : Nat) (hwf : h.WF) (hr : Rep h v l)
    (hn : n < 2 ^ 32) :
    ∃ v' h', v.resize P n h = .ok (v', h') ∧ VStep h v.vec h' v'.vec ∧ Rep h' v' ((List.range n).map (storedBit h v.vec)) :=
  wpV_resizeBV hw hwf hr hn fun _ _ s r => ⟨s, r⟩

/-- The list with its first `n` elements kept, or extended by `b`s. -/
def resized (l : List Bool) (n : Nat) (b : Bool) : List Bool := l.take n ++ List.replicate (n - l.length) b

/-- C31: `resize(n)` keeps the first `min(n, size())` elements and gives the rest the value 0.
`_partial`: fewer than `2^32` bits, and the unused bits of the last word (and of spare words) must be 0; see `C31_refuted`. -/
theorem C31_resize_partial (hw : 0 < w) (P : Policy) (h : Heap w) (v : BV) (l : List Bool) (n : Nat) (hwf : h.WF) (hr : Rep h v l)
    (hn : n < 2 ^ 32)
    (hz : ∀ i : Nat, l.length ≤ i → i < n → i < v.vec.size * w → bitAt h.mem (v.vec.ptr * (w : Int) + (i : Int)) = some false) :
    ∃ v' h', v.resize P n h = .ok (v', h') ∧ VStep h v.vec h' v'.vec ∧ Rep h' v' (resized l n false) := by
  have e : (List.range n).map (storedBit h v.vec) = resized l n false := by
    unfold resized
    refine List.ext_getElem (by simp; omega) ?_
    intro i h1 h2
    simp at h1
    rw [List.getElem_map, List.getElem_range]
    by_cases hi : i < l.length
    · rw [storedBit_old hr hi, List.getElem_append_left (by simp; omega), List.getElem_take]
    · rw [List.getElem_append_right (by simp; omega), List.getElem_replicate]
      unfold storedBit
      split_ifs with hc
      · rw [hz i (by omega) h1 hc]; rfl
      · rfl
  rw [← e]
  exact C31_resize_exact hw P h v l n hwf hr hn

/-- C31: shrinking, and the kept elements when growing, are right in every state. -/
theorem C31_resize_keeps (hw : 0 < w) (P : Policy) (h : Heap w) (v : BV) (l : List Bool) (n : Nat) (hwf : h.WF) (hr : Rep h v l)
    (hn : n < 2 ^ 32) :
    ∃ v' h' l', v.resize P n h = .ok (v', h') ∧ VStep h v.vec h' v'.vec ∧ Rep h' v' l' ∧ l'.length = n ∧
      l'.take l.length = l.take n := by
  obtain ⟨v', h', e, s, r⟩ := C31_resize_exact hw P h v l n hwf hr hn
  refine ⟨v', h', _, e, s, r, by simp, ?_⟩
  refine List.ext_getElem (by simp; omega) ?_
  intro i h1 h2
  simp at h1 h2
  rw [List.getElem_take, List.getElem_map, List.getElem_range, storedBit_old hr (by omega), List.getElem_take]

theorem place_zero (m : Mem w) (a : Int) (f : Nat → Option (BitVec w)) : m.place a 0 f = m := by
  funext b
  unfold Mem.place
  rw [if_neg (by omega)]

/-- A `resize` that needs the same number of words only changes the length. -/
theorem resize_same (P : Policy) (h : Heap w) (v : BV) (n : Nat) (hn : wordCount w n = v.vec.size) :
    v.resize P n h = .ok (⟨v.vec, n⟩, h) := by
  unfold BV.resize Vec.resize
  rw [if_pos (by omega), hn]
  show Except.ok ((⟨⟨v.vec.ptr, v.vec.size, v.vec.cap⟩, n⟩ : BV), (⟨h.mem.place (v.vec.ptr + (v.vec.size : Int)) (v.vec.size - v.vec.size) fun _ => none, h.next⟩ : Heap w)) = _
  rw [Nat.sub_self, place_zero]

/-- C31 fails for every width, shift semantics and allocator: a vector made from the word 2, shrunk to one bit and grown again to two
bits, has a new element with value 1. -/
theorem C31_refuted (hw : 1 < w) (S : ShiftSem w) (P : Policy) (h : Heap w) (hwf : h.WF) :
    ∃ h', (do let v ← BV.ofWords P [2#w]; let v ← v.resize P 1; let v ← v.resize P 2; v.get S 1) h = .ok (true, h') := by
  have hw0 : 0 < w := by omega
  have hwc1 : wordCount w 1 = 1 := by
    unfold wordCount
    rw [show 1 % 2 ^ 32 + w - 1 = w by omega, Nat.div_self hw0]
  have hwc2 : wordCount w 2 = 1 := by
    unfold wordCount
    rw [show 2 % 2 ^ 32 + w - 1 = 1 + w by omega, Nat.add_div_right _ hw0, Nat.div_eq_of_lt hw]
  have : wpV (do let v ← BV.ofWords P [2#w]; let v ← v.resize P 1; let v ← v.resize P 2; v.get S 1) h fun b _ => b = true := by
    rw [wpV_bind]
    obtain ⟨v, h', e, ⟨s, r⟩, hs⟩ : ∃ v h', BV.ofWords P [2#w] h = .ok (v, h') ∧
        (VStep h Vec.empty h' v.vec ∧ Rep h' v (bitsOfWords [2#w])) ∧ v.vec.size = 1 := by
      obtain ⟨v, h', e, q⟩ := wpV_ofWords hw0 hwf (P := P) (l := [2#w]) (fun v h' s r => (⟨s, r⟩ : VStep h Vec.empty h' v.vec ∧ Rep h' v (bitsOfWords [2#w])))
      refine ⟨v, h', e, q, ?_⟩
      have e' : BV.ofWords P [2#w] h = .ok ((⟨⟨h.next, 1, P.alloc 1⟩, 1 * w⟩ : BV), _) := rfl
      rw [e'] at e
      simp only [Except.ok.injEq, Prod.mk.injEq] at e
      rw [← e.1]
    refine ⟨v, h', e, ?_⟩
    beta_reduce
    rw [wpV_bind]
    refine ⟨_, _, resize_same P h' v 1 (by omega), ?_⟩
    beta_reduce
    rw [wpV_bind]
    refine ⟨_, _, resize_same P h' _ 2 (by dsimp only; omega), ?_⟩
    have hlen := bitsOfWords_length [2#w]
    rw [List.length_singleton] at hlen
    have r2 : Rep h' ⟨v.vec, 2⟩ ((bitsOfWords [2#w]).take 2) := by
      refine ⟨r.ok, by rw [List.length_take]; dsimp only; omega, by dsimp only; rw [hs]; omega, ?_⟩
      intro i hi
      rw [List.length_take] at hi
      rw [List.getElem_take]
      exact r.bits i (by omega)
    refine wpV_get S hw0 r2 (by rw [List.length_take]; omega) ?_
    rw [List.getElem_take]
    have : (bitsOfWords [2#w])[1]'(by omega) = (2#w).getLsbD 1 := by
      unfold bitsOfWords
      simp
    rw [this, BitVec.getLsbD_ofNat]
    simp [hw]
    decide
  obtain ⟨b, h', e, rfl⟩ := this
  exact ⟨h', e⟩

example : (11 : Nat) < 2 ^ 32 := by decide
example : ∀ i : Nat, exL.length ≤ i → i < 20 → i < exV.vec.size * 8 → bitAt exH.mem (exV.vec.ptr * (8 : Nat) + (i : Int)) = some false := by
  intro i h1 h2 h3
  have h1' : 11 ≤ i := h1
  have h3' : i < 16 := h3
  have : i = 11 ∨ i = 12 ∨ i = 13 ∨ i = 14 ∨ i = 15 := by omega
  rcases this with rfl | rfl | rfl | rfl | rfl <;> decide

/-! ### C32: `resize(count, value)` -/

/-- C32: `resize(n, b)` ignores `b`: it always does the same as `resize(n)`. The fill runs over `[end(), end())`. -/
theorem C32_value_ignored (S : ShiftSem w) (P : Policy) (v : BV) (n : Nat) (b : Bool) :
    (v.resizeVal S P n b : V w BV) = v.resize P n := by
  funext h
  unfold BV.resizeVal BV.resize
  show (Except.bind (v.vec.resize P (wordCount w n) h) fun p => _) = Except.bind (v.vec.resize P (wordCount w n) h) fun p => _
  rcases v.vec.resize P (wordCount w n) h with e | ⟨vec, h1⟩
  · rfl
  · show (if n > v.length then _ else _ : V w BV) h1 = .ok (⟨vec, n⟩, h1)
    by_cases hc : n > v.length
    · rw [if_pos hc]
      have hf : wp (fill S ((BV.begin ⟨vec, n⟩ : BitIter w).add (n : Int)) (BV.end ⟨vec, n⟩) b) h1.mem fun _ m => m = h1.mem := by
        unfold fill BV.end
        dsimp only
        rw [wp_bind, wp_assertViable]
        refine ⟨by omega, ?_⟩
        rw [wp_bind, wp_distance]
        refine ⟨by omega, ?_⟩
        rw [if_pos (by omega)]
        exact wp_pure.2 rfl
      obtain ⟨_, m', e, rfl⟩ := hf
      show (Except.bind (onMem _ h1) fun p => _) = _
      unfold onMem
      dsimp only
      rw [e]
      rfl
    · rw [if_neg hc]; rfl

/-- C32, `_partial`: the kept elements are right (and the vector is valid); the new elements need not have the value asked for. -/
theorem C32_resize_value_partial (hw : 0 < w) (S : ShiftSem w) (P : Policy) (h : Heap w) (v : BV) (l : List Bool) (n : Nat) (b : Bool)
    (hwf : h.WF) (hr : Rep h v l) (hn : n < 2 ^ 32) :
    ∃ v' h' l', v.resizeVal S P n b h = .ok (v', h') ∧ VStep h v.vec h' v'.vec ∧ Rep h' v' l' ∧ l'.length = n ∧
      l'.take l.length = l.take n := by
  rw [C32_value_ignored]
  exact C31_resize_keeps hw P h v l n hwf hr hn

/-- C32 holds when nothing is added. -/
theorem C32_shrink (hw : 0 < w) (S : ShiftSem w) (P : Policy) (h : Heap w) (v : BV) (l : List Bool) (n : Nat) (b : Bool)
    (hwf : h.WF) (hr : Rep h v l) (hn : n < 2 ^ 32) (hle : n ≤ l.length) :
    ∃ v' h', v.resizeVal S P n b h = .ok (v', h') ∧ VStep h v.vec h' v'.vec ∧ Rep h' v' (l.take n) := by
  obtain ⟨v', h', l', e, s, r, hl, ht⟩ := C32_resize_value_partial hw S P h v l n b hwf hr hn
  refine ⟨v', h', e, s, ?_⟩
  rw [← ht, List.take_of_length_le (by omega)]
  exact r

/-- C32 fails for every width: growing an empty vector to one element with value 1 gives the element 0. -/
theorem C32_refuted (hw : 0 < w) (S : ShiftSem w) (P : Policy) (h : Heap w) (hwf : h.WF) :
    ∃ h', (do let v ← BV.default.resizeVal S P 1 true; v.get S 0) h = .ok (false, h') := by
  rw [C32_value_ignored]
  have : wpV (do let v ← BV.default.resize P 1; v.get S 0) h fun b _ => b = false := by
    rw [wpV_bind]
    refine wpV_resizeBV hw hwf (wpV_default hwf).2 (by decide) fun v h' s r => ?_
    refine wpV_get S hw r (by simp) ?_
    simp [storedBit, BV.default, Vec.empty]
  obtain ⟨b, h', e, rfl⟩ := this
  exact ⟨h', e⟩

/-! ### C33: constructors -/

/-- C33: the default constructor. -/
theorem C33_default (h : Heap w) (hwf : h.WF) : VStep h Vec.empty h BV.default.vec ∧ Rep h BV.default [] := wpV_default hwf

/-- C33: `bit_vector(n, b)`. -/
theorem C33_count_value (hw : 0 < w) (P : Policy) (h : Heap w) (hwf : h.WF) (n : Nat) (hn : n < 2 ^ 32) (b : Bool) :
    ∃ v h', BV.ofCountVal P n b h = .ok (v, h') ∧ VStep h Vec.empty h' v.vec ∧ Rep h' v (List.replicate n b) :=
  wpV_ofCountVal hw hwf hn fun _ _ s r => ⟨s, r⟩

/-- C33: `bit_vector(n)`. -/
theorem C33_count (hw : 0 < w) (P : Policy) (h : Heap w) (hwf : h.WF) (n : Nat) (hn : n < 2 ^ 32) :
    ∃ v h', BV.ofCount P n h = .ok (v, h') ∧ VStep h Vec.empty h' v.vec ∧ Rep h' v (List.replicate n false) :=
  wpV_ofCount hw hwf hn fun _ _ s r => ⟨s, r⟩

/-- C33: from a string: its digits in order, other characters skipped. -/
theorem C33_string (hw : 0 < w) (S : ShiftSem w) (P : Policy) (h : Heap w) (hwf : h.WF) (s : List Char) :
    ∃ v h', BV.ofString S P s h = .ok (v, h') ∧ VStep h Vec.empty h' v.vec ∧ Rep h' v (digitsOf s) :=
  wpV_ofString S hw hwf fun _ _ s r => ⟨s, r⟩

/-- C33: from a range of `bool`. -/
theorem C33_bool_range (hw : 0 < w) (S : ShiftSem w) (P : Policy) (h : Heap w) (hwf : h.WF) (l : List Bool) :
    ∃ v h', BV.ofBoolRange S P l h = .ok (v, h') ∧ VStep h Vec.empty h' v.vec ∧ Rep h' v l :=
  wpV_ofBoolRange S hw hwf fun _ _ s r => ⟨s, r⟩

/-- C33: from a list of `bool`. -/
theorem C33_bool_list (hw : 0 < w) (S : ShiftSem w) (P : Policy) (h : Heap w) (hwf : h.WF) (l : List Bool) :
    ∃ v h', BV.ofBoolList S P l h = .ok (v, h') ∧ VStep h Vec.empty h' v.vec ∧ Rep h' v l :=
  wpV_ofBoolList S hw hwf fun _ _ s r => ⟨s, r⟩

/-- C33: from a range or list of words: `w` bits of each, least significant first. -/
theorem C33_words (hw : 0 < w) (P : Policy) (h : Heap w) (hwf : h.WF) (l : List (BitVec w)) :
    ∃ v h', BV.ofWords P l h = .ok (v, h') ∧ VStep h Vec.empty h' v.vec ∧ Rep h' v (bitsOfWords l) :=
  wpV_ofWords hw hwf fun _ _ s r => ⟨s, r⟩

/-- C33: bit `i` of a vector made from words is bit `i % w` of word `i / w`. -/
theorem C33_words_bits (hw : 0 < w) (l : List (BitVec w)) :
    (bitsOfWords l).length = l.length * w ∧ ∀ i, (bitsOfWords l)[i]? = l[i / w]?.map fun x => x.getLsbD (i % w) :=
  ⟨bitsOfWords_length l, bitsOfWords_get hw l⟩

/-- C33: from a range of bit iterators, anywhere in memory. -/
theorem C33_bits (hw : 0 < w) (S : ShiftSem w) (P : Policy) (h : Heap w) (hwf : h.WF) (first last : BitIter w) (s : List Bool)
    (hs : HoldsSeq h first last s) :
    ∃ v h', BV.ofBits S P first last h = .ok (v, h') ∧ VStep h Vec.empty h' v.vec ∧ Rep h' v s :=
  wpV_ofBits S hw hwf hs fun _ _ s r => ⟨s, r⟩

example : digitsOf "10x1 0".toList = [true, false, true, false] := by decide
example : bitsOfWords [0x3#4, 0x8#4] = [true, true, false, false, false, false, false, true] := by decide
example : HoldsSeq exH ⟨0, 3⟩ ⟨1, 2⟩ [false, false, true, false, true, true, true] := ⟨by decide, by decide, by decide, by decide⟩

/-! ### C34: sizes from `2^32` on -/

/-- C34 for `n < 2^32`: `bit_vector(n)`, `resize(n)` and `reserve(n)` provide storage for `n` bits. `_partial`: the bound on `n`. -/
theorem C34_storage_partial (hw : 0 < w) (P : Policy) (h : Heap w) (v : BV) (l : List Bool) (n : Nat) (hwf : h.WF) (hr : Rep h v l)
    (hn : n < 2 ^ 32) :
    (∃ v' h', BV.ofCount P n h = .ok (v', h') ∧ v'.size = n ∧ VecOk h' v'.vec ∧ n ≤ v'.vec.size * w) ∧
    (∃ v' h', v.resize P n h = .ok (v', h') ∧ v'.size = n ∧ VecOk h' v'.vec ∧ n ≤ v'.vec.size * w) ∧
    (∃ v' h', v.reserve P n h = .ok (v', h') ∧ n ≤ BV.capacity w v') := by
  refine ⟨?_, ?_, ?_⟩
  · obtain ⟨v', h', e, s, r⟩ := C33_count hw P h hwf n hn
    have h1 := r.len
    have h2 := r.fit
    simp at h1
    exact ⟨v', h', e, h1, r.ok, by omega⟩
  · obtain ⟨v', h', e, s, r⟩ := C31_resize_exact hw P h v l n hwf hr hn
    have h1 := r.len
    have h2 := r.fit
    simp at h1
    exact ⟨v', h', e, h1, r.ok, by omega⟩
  · refine wpV_reserve hw hwf hr fun v' h' s r h1 h2 => ?_
    have h3 := wordCount_ge hw hn
    have h4 := Nat.mul_le_mul_right w h1
    unfold BV.capacity
    omega

/-- C34, exactly: `word_count(n)` words hold `n` bits if and only if `n < 2^32`. -/
theorem C34_exact (hw : 0 < w) (hw' : w ≤ 2 ^ 32) (n : Nat) : n ≤ wordCount w n * w ↔ n < 2 ^ 32 := by
  constructor
  · intro hle
    by_contra hc
    unfold wordCount at hle
    have h1 := Nat.div_mul_le_self (n % 2 ^ 32 + w - 1) w
    have h2 : n % 2 ^ 32 + 2 ^ 32 ≤ n := by omega
    omega
  · exact wordCount_ge hw

/-- C34: with `std::vector<WordType>::max_size()` as in libstdc++ (`PTRDIFF_MAX` bytes), `max_size()` admits `2^32` bits. -/
theorem C34_max_size_admits : (∀ k, k = 1 ∨ k = 2 ∨ k = 4 ∨ k = 8 → 2 ^ 32 ≤ BV.maxSize (8 * k) ((2 ^ 63 - 1) / k)) := by
  rintro k (rfl | rfl | rfl | rfl) <;> decide

/-- What happens when `word_count` gives 0. -/
theorem no_words (hw : 0 < w) (S : ShiftSem w) (P : Policy) (h : Heap w) (hwf : h.WF) (n : Nat)
    (hwc : wordCount w n = 0) :
    (BV.ofCount P (n) >>= fun v => v.get S 0) h = .error (.ub .outOfBounds) ∧
    (∃ v h', BV.ofCount P (n) h = .ok (v, h') ∧ v.size = n ∧ v.vec.size = 0) ∧
    (∃ v h', (BV.default.resize P (n) : V w BV) h = .ok (v, h') ∧ v.size = n ∧ v.vec.size = 0) ∧
    (BV.default.reserve P (n) : V w BV) h = .ok (BV.default, h) := by
  have hz : h.mem h.next = none := by
    have := hwf.unused (h.next * (w : Int)) (Int.le_refl _)
    unfold bitAt at this
    rw [Int.mul_ediv_cancel _ (by omega)] at this
    exact Option.map_eq_none_iff.1 this
  have e1 : (BV.ofCount P (n) : V w BV) h =
      .ok (⟨⟨h.next, 0, P.alloc 0⟩, n⟩, ⟨h.mem, h.next + (P.alloc 0 : Int) + 1⟩) := by
    unfold BV.ofCount
    rw [hwc]
    show Except.ok ((⟨⟨h.next, 0, P.alloc 0⟩, n⟩ : BV),
      (⟨h.mem.place h.next 0 fun _ => some 0#w, h.next + (P.alloc 0 : Int) + 1⟩ : Heap w)) = _
    rw [place_zero]
  refine ⟨?_, ⟨_, _, e1, rfl, rfl⟩, ?_, ?_⟩
  · refine failsV_bind ⟨_, _, e1, ?_⟩
    unfold BV.get BV.index
    refine failsV_bind ?_
    refine wpV_onMem (wp_index S (BV.begin_valid hw ⟨⟨h.next, 0, P.alloc 0⟩, n⟩) ?_)
    intro r hr
    rw [BV.begin_addr] at hr
    refine failsV_onMem ?_
    obtain ⟨p, hp, h1, h2⟩ := hr
    have hptr : r.ptr = h.next := by
      have h3 : r.ptr * (w : Int) + (p : Int) = h.next * (w : Int) := by rw [← h2]; dsimp only; omega
      have h4 := congrArg (· / (w : Int)) h3
      rw [Int.add_comm, Int.add_mul_ediv_right _ _ (by omega), Int.mul_ediv_cancel _ (by omega),
        Int.ediv_eq_zero_of_lt (by omega) (by omega)] at h4
      omega
    unfold BitRef.toBool
    exact fails_bind_left (fails_load (by rw [hptr]; exact hz))
  · refine ⟨_, _, resize_same P h BV.default (n) (by rw [hwc]; rfl), rfl, rfl⟩
  · unfold BV.reserve Vec.reserve
    rw [hwc]
    rfl

/-- C34 fails for every width: `bit_vector(2^32)` reports `2^32` elements but has no words, so reading an element is undefined.
The same holds for `resize(2^32)`, and `reserve(2^32)` provides nothing. -/
theorem C34_refuted (hw : 0 < w) (S : ShiftSem w) (P : Policy) (h : Heap w) (hwf : h.WF) :
    (BV.ofCount P (2 ^ 32) >>= fun v => v.get S 0) h = .error (.ub .outOfBounds) ∧
    (∃ v h', BV.ofCount P (2 ^ 32) h = .ok (v, h') ∧ v.size = 2 ^ 32 ∧ v.vec.size = 0) ∧
    (∃ v h', (BV.default.resize P (2 ^ 32) : V w BV) h = .ok (v, h') ∧ v.size = 2 ^ 32 ∧ v.vec.size = 0) ∧
    (BV.default.reserve P (2 ^ 32) : V w BV) h = .ok (BV.default, h) := by
  refine no_words hw S P h hwf (2 ^ 32) ?_
  unfold wordCount
  rw [Nat.mod_self, Nat.zero_add]
  exact Nat.div_eq_of_lt (by omega)

/-! ### C37: `debug_string` -/

/-- C37: `debug_string()` lists the digits in order, grouped by bytes and words. `_partial`: fewer than `2^31` elements. -/
theorem C37_debug_string_partial (hw : 0 < w) (S : ShiftSem w) (h : Heap w) (v : BV) (l : List Bool) (hr : Rep h v l)
    (hlen : l.length < 2 ^ 31) : v.debugString S h = .ok (grouped w 0 l, h) := by
  obtain ⟨s, h', e, rfl, rfl⟩ := wpV_debugString S hw hr hlen (Q := fun s h' => s = grouped w 0 l ∧ h' = h) ⟨rfl, rfl⟩
  exact e

/-- C37: the digits of the debug string are the elements. -/
theorem C37_digits (l : List Bool) : digitsOf (grouped w 0 l) = l := digitsOf_grouped w 0 l

/-- C37: constructing a vector from its own debug string gives a vector with the same elements. `_partial`: fewer than `2^31` elements. -/
theorem C37_round_trip_partial (hw : 0 < w) (S : ShiftSem w) (P : Policy) (h : Heap w) (v : BV) (l : List Bool) (hwf : h.WF) (hr : Rep h v l)
    (hlen : l.length < 2 ^ 31) :
    ∃ v' h', (v.debugString S >>= fun s => BV.ofString S P s) h = .ok (v', h') ∧ VStep h Vec.empty h' v'.vec ∧ Rep h' v' l := by
  show wpV _ h _
  rw [wpV_bind]
  refine wpV_debugString S hw hr hlen ?_
  refine wpV_ofString S hw hwf fun v' h' s r => ⟨s, ?_⟩
  rw [digitsOf_grouped] at r
  exact r

/-- The separator characters of a debug string stand after a positive multiple of 8 digits, and before a digit. -/
theorem grouped_sep (hw : 8 ∣ w) (l : List Bool) (n : Nat) (a b : List Char) (c : Char) (hc : c ≠ '0' ∧ c ≠ '1')
    (e : grouped w n l = a ++ c :: b) :
    (n + (digitsOf a).length) % 8 = 0 ∧ 0 < n + (digitsOf a).length ∧
      (c = ' ' ∧ (n + (digitsOf a).length) % w = 0 ∨ c = '.' ∧ (n + (digitsOf a).length) % w ≠ 0) ∧
      ∃ x b', b = x :: b' ∧ (x = '0' ∨ x = '1') := by
  induction l generalizing n a with
  | nil => simp [grouped] at e
  | cons d l ih =>
    obtain ⟨sep, hsep⟩ : ∃ sep, sep = (if n = 0 then [] else if n % w = 0 then [' '] else if n % 8 = 0 then ['.'] else [] : List Char) := ⟨_, rfl⟩
    have e' : sep ++ (if d then '1' else '0') :: grouped w (n + 1) l = a ++ c :: b := by rw [hsep]; exact e
    have hd : (if d then '1' else '0' : Char) = '0' ∨ (if d then '1' else '0' : Char) = '1' := by cases d <;> simp
    -- the part after the digit
    have rest : ∀ a', (if d then '1' else '0' : Char) :: grouped w (n + 1) l = a' ++ c :: b → sep ++ a' = a → digitsOf sep = [] →
        (n + (digitsOf a).length) % 8 = 0 ∧ 0 < n + (digitsOf a).length ∧
        (c = ' ' ∧ (n + (digitsOf a).length) % w = 0 ∨ c = '.' ∧ (n + (digitsOf a).length) % w ≠ 0) ∧
        ∃ x b', b = x :: b' ∧ (x = '0' ∨ x = '1') := by
      intro a' ea hs hz
      rcases a' with _ | ⟨y, a''⟩
      · simp only [List.nil_append, List.cons.injEq] at ea
        rcases hd with h | h <;> rw [h] at ea
        · exact absurd ea.1.symm hc.1
        · exact absurd ea.1.symm hc.2
      · simp only [List.cons_append, List.cons.injEq] at ea
        have := ih (n + 1) a'' ea.2
        have hda : (digitsOf a).length = (digitsOf a'').length + 1 := by
          rw [← hs, digitsOf_append, hz, List.nil_append, ← ea.1]
          cases d <;> rfl
        rw [hda, show n + ((digitsOf a'').length + 1) = n + 1 + (digitsOf a'').length by omega]
        exact this
    split_ifs at hsep with h0 h1 h2
    · subst hsep
      exact rest a e' rfl rfl
    · subst hsep
      rcases a with _ | ⟨y, a'⟩
      · simp only [List.nil_append, List.cons_append, List.cons.injEq] at e'
        have hdn : digitsOf ([] : List Char) = [] := rfl
        rw [hdn, List.length_nil, Nat.add_zero]
        exact ⟨Nat.mod_eq_zero_of_dvd (Nat.dvd_trans hw (Nat.dvd_of_mod_eq_zero h1)), by omega, .inl ⟨e'.1.symm, h1⟩, _, _, e'.2.symm, hd⟩
      · simp only [List.nil_append, List.cons_append, List.cons.injEq] at e'
        exact rest a' e'.2 (by rw [e'.1]; rfl) rfl
    · subst hsep
      rcases a with _ | ⟨y, a'⟩
      · simp only [List.nil_append, List.cons_append, List.cons.injEq] at e'
        have hdn : digitsOf ([] : List Char) = [] := rfl
        rw [hdn, List.length_nil, Nat.add_zero]
        exact ⟨h2, by omega, .inr ⟨e'.1.symm, h1⟩, _, _, e'.2.symm, hd⟩
      · simp only [List.nil_append, List.cons_append, List.cons.injEq] at e'
        exact rest a' e'.2 (by rw [e'.1]; rfl) rfl
    · subst hsep
      exact rest a e' rfl rfl

/-- C37: separators only every 8 bits. Any character of the debug string that is not a digit comes after a positive multiple of 8
digits and right before a digit; it is a blank at word boundaries and a dot elsewhere. -/
theorem C37_separators (hw : 8 ∣ w) (l : List Bool) (a b : List Char) (c : Char) (hc : c ≠ '0' ∧ c ≠ '1')
    (e : grouped w 0 l = a ++ c :: b) :
    (digitsOf a).length % 8 = 0 ∧ 0 < (digitsOf a).length ∧
      (c = ' ' ∧ (digitsOf a).length % w = 0 ∨ c = '.' ∧ (digitsOf a).length % w ≠ 0) ∧ ∃ x b', b = x :: b' ∧ (x = '0' ∨ x = '1') := by
  have := grouped_sep hw l 0 a b c hc e
  rw [Nat.zero_add] at this
  exact this

/-- C37, exactly: `debug_string` is undefined (its position counter is an `int`) from `2^31` elements on. -/
theorem C37_exact (hw : 0 < w) (S : ShiftSem w) (h : Heap w) (v : BV) (l : List Bool) (hr : Rep h v l) :
    v.debugString S h = .error (.ub .signedOverflow) ↔ 2 ^ 31 ≤ l.length := by
  constructor
  · intro he
    by_contra hc
    rw [C37_debug_string_partial hw S h v l hr (by omega)] at he
    simp at he
  · exact failsV_debugString S hw hr

/-- C37 fails for vectors of `2^31` bits. -/
theorem C37_refuted (hw : 0 < w) (S : ShiftSem w) (P : Policy) (h : Heap w) (hwf : h.WF) :
    (BV.ofCount P (2 ^ 31) >>= fun v => v.debugString S) h = .error (.ub .signedOverflow) := by
  refine failsV_bind (wpV_ofCount hw hwf (by decide) fun v h' s r => ?_)
  exact failsV_debugString S hw r (by rw [List.length_replicate])

example : exV.debugString S8 exH = .ok ("10100101 110".toList, exH) := C37_debug_string_partial (by decide) S8 _ _ _ exRep (by decide)
example : grouped 16 0 exL = "10100101.110".toList := by decide

/-! ### C38: `reserve`, `shrink_to_fit`, `clear` -/

/-- C38: after `reserve(n)` with `n < 2^32`, `capacity() >= n`; size and contents are unchanged; the capacity never decreases. -/
theorem C38_reserve (hw : 0 < w) (P : Policy) (h : Heap w) (v : BV) (l : List Bool) (n : Nat) (hwf : h.WF) (hr : Rep h v l) (hn : n < 2 ^ 32) :
    ∃ v' h', v.reserve P n h = .ok (v', h') ∧ VStep h v.vec h' v'.vec ∧ Rep h' v' l ∧ n ≤ BV.capacity w v' ∧
      BV.capacity w v ≤ BV.capacity w v' := by
  refine wpV_reserve hw hwf hr fun v' h' s r h1 h2 => ⟨s, r, ?_, Nat.mul_le_mul_right w h2⟩
  have h3 := wordCount_ge hw hn
  have h4 := Nat.mul_le_mul_right w h1
  unfold BV.capacity
  omega

/-- C38: `shrink_to_fit` keeps the contents and does not increase the capacity. -/
theorem C38_shrink_to_fit (hw : 0 < w) (P : Policy) (h : Heap w) (v : BV) (l : List Bool) (hwf : h.WF) (hr : Rep h v l) :
    ∃ v' h', v.shrinkToFit P h = .ok (v', h') ∧ VStep h v.vec h' v'.vec ∧ Rep h' v' l ∧ BV.capacity w v' ≤ BV.capacity w v :=
  wpV_shrinkToFit hw hwf hr fun _ _ s r hc => ⟨s, r, Nat.mul_le_mul_right w hc⟩

/-- C38: `clear` empties the vector and keeps the capacity. -/
theorem C38_clear (hw : 0 < w) (h : Heap w) (v : BV) (l : List Bool) (hwf : h.WF) (hr : Rep h v l) :
    ∃ v' h', v.clear h = .ok (v', h') ∧ VStep h v.vec h' v'.vec ∧ Rep h' v' [] ∧ BV.capacity w v' = BV.capacity w v :=
  wpV_clear hw hwf hr fun _ _ s r hc => ⟨s, r, congrArg (· * w) hc⟩

/-- C38: the elements always fit the capacity. -/
theorem C38_size_le_capacity (h : Heap w) (v : BV) (l : List Bool) (hr : Rep h v l) : v.size ≤ BV.capacity w v :=
  Nat.le_trans hr.fit (Nat.mul_le_mul_right w hr.ok.cap)

example : ∃ v' h', exV.reserve doubling 100 exH = .ok (v', h') ∧ VStep exH exV.vec h' v'.vec ∧ Rep h' v' exL ∧ 100 ≤ BV.capacity 8 v' ∧
    BV.capacity 8 exV ≤ BV.capacity 8 v' := C38_reserve (by decide) doubling exH exV exL 100 exH_wf exRep (by decide)

end BitLib
