import Verif.Lemmas.Cost3
import Verif.Lemmas.Cost5
import Verif.Props.StdAlg
/-
C93: how often the algorithms access the memory. A call makes a bounded number of accesses per word of the range, a program that goes through
iterators and references, such as the algorithms of the standard library, at least one access per bit.
-/
namespace BitLib
variable {w : Nat}

/-- C93: the program texts that are counted are those of the model: read as programs on a memory, they are the functions that the other theorems
are about. -/
theorem C93_text : @Gen.copy w (M w) _ _ = @copy w ∧ @Gen.move w (M w) _ _ = @move w ∧ @Gen.copyBackward w (M w) _ _ = @copyBackward w ∧
    @Gen.fill w (M w) _ _ = @fill w ∧ @Gen.find w (M w) _ _ = @find w ∧ @Gen.equal w (M w) _ _ = @equal w ∧ @Gen.count w (M w) _ _ = @count w ∧
    @Gen.transform w (M w) _ _ = @transform w ∧ @Gen.transform2 w (M w) _ _ = @transform2 w ∧ @Gen.shiftLeft w (M w) _ _ = @shiftLeft w ∧
    @Gen.shiftRight w (M w) _ _ = @shiftRight w ∧ @Gen.reverse w (M w) _ _ = @reverse w ∧ @Gen.swapRanges w (M w) _ _ = @swapRanges w ∧
    @Gen.rotate w (M w) _ _ = @rotate w ∧
    ∀ {α : Type} (S : ShiftSem w) (bi : Bool) (c : Client α) (s : Slots (BitIter w) (BitRef w) (BitPtr w)), (Gen.client S bi c s : M w _) = c.code S bi s :=
  ⟨Gen.m_copy, Gen.m_move, Gen.m_copyBackward, Gen.m_fill, Gen.m_find, Gen.m_equal, Gen.m_count, Gen.m_transform, Gen.m_transform2, Gen.m_shiftLeft,
    Gen.m_shiftRight, Gen.m_reverse, Gen.m_swapRanges, Gen.m_rotate, Gen.m_client⟩

/-- C93: the accesses that are counted have the effect of the call: executed one after the other, they give the result, the memory and the
undefined behaviour of the function. -/
theorem C93_code (S : ShiftSem w) (first last d e : BitIter w) (v : Bool) (n : Int) (f : BitVec w → BitVec w) (g : BitVec w → BitVec w → BitVec w) :
    (Gen.copy S first last d : Code w _).run = copy S first last d ∧ (Gen.move S first last d : Code w _).run = move S first last d ∧
    (Gen.copyBackward S first last d : Code w _).run = copyBackward S first last d ∧ (Gen.fill S first last v : Code w _).run = fill S first last v ∧
    (Gen.find S first last v : Code w _).run = find S first last v ∧ (Gen.equal S first last d : Code w _).run = equal S first last d ∧
    (Gen.count S first last v : Code w _).run = count S first last v ∧ (Gen.transform S f first last d : Code w _).run = transform S f first last d ∧
    (Gen.transform2 S g first last d e : Code w _).run = transform2 S g first last d e ∧
    (Gen.shiftLeft S first last n : Code w _).run = shiftLeft S first last n ∧ (Gen.shiftRight S first last n : Code w _).run = shiftRight S first last n ∧
    (Gen.reverse S first last : Code w _).run = reverse S first last ∧ (Gen.swapRanges S first last d : Code w _).run = swapRanges S first last d ∧
    (Gen.rotate S first d last : Code w _).run = rotate S first d last ∧
    ∀ {α : Type} (bi : Bool) (c : Client α) (s : Slots (BitIter w) (BitRef w) (BitPtr w)), (Gen.client S bi c s : Code w _).run = c.code S bi s :=
  ⟨Gen.r_copy, Gen.r_move, Gen.r_copyBackward, Gen.r_fill, Gen.r_find, Gen.r_equal, Gen.r_count, Gen.r_transform, Gen.r_transform2, Gen.r_shiftLeft,
    Gen.r_shiftRight, Gen.r_reverse, Gen.r_swapRanges, Gen.r_rotate, fun bi c s => Gen.r_client S bi c s⟩

section
variable (S : ShiftSem w) (m : Mem w) (first last d : BitIter w) (hf : first.Valid) (hl : last.Valid)
include hf hl

/-- C93: `copy` makes at most three accesses per word and eight more, whatever the memory holds and wherever the ranges lie. -/
theorem C93_copy : (Gen.copy S first last d : Code w _).accesses m ≤ 3 * ((len first last).toNat / w) + 8 := by
  rw [len, ← BitIter.diff_eq]; exact (Gen.b_copy hf hl).accesses m

theorem C93_move : (Gen.move S first last d : Code w _).accesses m ≤ 3 * ((len first last).toNat / w) + 8 := by
  rw [len, ← BitIter.diff_eq]; exact (Gen.b_move hf hl).accesses m

theorem C93_copy_backward : (Gen.copyBackward S first last d : Code w _).accesses m ≤ 3 * ((len first last).toNat / w) + 8 := by
  rw [len, ← BitIter.diff_eq]; exact (Gen.b_copyBackward hf hl).accesses m

/-- C93: `fill` makes at most one access per word and four more. -/
theorem C93_fill (v : Bool) : (Gen.fill S first last v : Code w _).accesses m ≤ (len first last).toNat / w + 4 := by
  rw [len, ← BitIter.diff_eq]; exact (Gen.b_fill hf hl).accesses m

/-- C93: `find` makes at most one access per word and two more. -/
theorem C93_find (v : Bool) : (Gen.find S first last v : Code w _).accesses m ≤ (len first last).toNat / w + 2 := by
  rw [len, ← BitIter.diff_eq]; exact (Gen.b_find hf hl).accesses m

/-- C93: `equal` makes at most three accesses per word and six more. -/
theorem C93_equal : (Gen.equal S first last d : Code w _).accesses m ≤ 3 * ((len first last).toNat / w) + 6 := by
  rw [len, ← BitIter.diff_eq]; exact (Gen.b_equal hf hl).accesses m

/-- C93: `count` makes at most one access per word and two more. -/
theorem C93_count (v : Bool) : (Gen.count S first last v : Code w _).accesses m ≤ (len first last).toNat / w + 2 := by
  rw [len, ← BitIter.diff_eq]; exact (Gen.b_count hf hl).accesses m

theorem C93_transform (f : BitVec w → BitVec w) : (Gen.transform S f first last d : Code w _).accesses m ≤ 3 * ((len first last).toNat / w) + 8 := by
  rw [len, ← BitIter.diff_eq]; exact (Gen.b_transform hf hl).accesses m

/-- C93: the binary `transform` makes at most five accesses per word and twelve more. -/
theorem C93_transform2 (f : BitVec w → BitVec w → BitVec w) (second : BitIter w) :
    (Gen.transform2 S f first last second d : Code w _).accesses m ≤ 5 * ((len first last).toNat / w) + 12 := by
  rw [len, ← BitIter.diff_eq]; exact (Gen.b_transform2 hf hl).accesses m

/-- C93: shifts access only the words that hold the bits that stay. -/
theorem C93_shift_left (n : Int) : (Gen.shiftLeft S first last n : Code w _).accesses m ≤ 3 * ((len first last - n).toNat / w) + 17 := by
  rw [len, ← BitIter.diff_eq]; exact (Gen.b_shiftLeft hf hl).accesses m

omit hl in
theorem C93_shift_right (n : Int) : (Gen.shiftRight S first last n : Code w _).accesses m ≤ 3 * ((len first last - n).toNat / w) + 15 := by
  rw [len, ← BitIter.diff_eq]; exact (Gen.b_shiftRight hf).accesses m

theorem C93_reverse : (Gen.reverse S first last : Code w _).accesses m ≤ 7 * ((len first last).toNat / w) + 37 := by
  rw [len, ← BitIter.diff_eq]; exact (Gen.b_reverse hf hl).accesses m

theorem C93_swap_ranges : (Gen.swapRanges S first last d : Code w _).accesses m ≤ 18 * ((len first last).toNat / w) + 36 := by
  rw [len, ← BitIter.diff_eq]; exact (Gen.b_swapRanges hf hl).accesses m

/-- C93: `rotate` works block by block, over and over; all rounds together make at most ninety accesses per word and thirty-six more. -/
theorem C93_rotate (hd : d.Valid) : (Gen.rotate S first d last : Code w _).accesses m ≤ 90 * ((len first last).toNat / w) + 36 := by
  rw [len, ← BitIter.diff_eq]; exact (Gen.b_rotate hf hd hl).accesses m

end

/-- C93: any program that uses iterators, references and pointers only makes at least one access for each bit it reads or changes, each time,
and at most three (six more for an operation that fails). -/
theorem C93_client {α : Type} (S : ShiftSem w) (bi : Bool) (c : Client α) (o : Int) (m : Mem w) (s : Slots (BitIter w) (BitRef w) (BitPtr w))
    (t : Slots Int Int Int) (hs : SlotsAt o s t) :
    c.bits t (fun p => bitAt m (o + p)) ≤ (Gen.client S bi c s : Code w _).accesses m ∧
    (Gen.client S bi c s : Code w _).accesses m ≤ 3 * c.bits t (fun p => bitAt m (o + p)) + 6 :=
  Gen.client_accesses S bi o c s t m _ hs ⟨fun _ _ h => h, fun _ _ => rfl⟩

/-! ### The algorithms of the standard library -/

theorem Std.accesses_of_bits {α : Type} (S : ShiftSem w) (bi : Bool) (c : Client α) (m : Mem w) {first last second third : BitIter w} (h1 : first.Valid)
    (h2 : last.Valid) (h3 : second.Valid) (h4 : third.Valid) {n : Nat}
    (h : n ≤ c.bits (Std.start first.addr last.addr second.addr third.addr) (bitAt m)) :
    n ≤ (Gen.client S bi c (Std.start first last second third) : Code w _).accesses m := by
  have := (C93_client S bi c 0 m _ _ (Std.start_at h1 h2 h3 h4)).1
  rw [show (fun p => bitAt m (0 + p)) = bitAt m from funext fun p => by rw [Int.zero_add]] at this
  exact h.trans this

/-- Accesses per word against accesses per bit. -/
theorem Std.faster {a b c L A B : Nat} (h1 : A ≤ a * (L / w) + b) (h2 : c * L ≤ B) : c * (w * A) ≤ a * B + b * c * w := by
  have h3 : w * (L / w) ≤ L := Nat.mul_div_le L w
  calc c * (w * A) ≤ c * (w * (a * (L / w) + b)) := Nat.mul_le_mul_left _ (Nat.mul_le_mul_left _ h1)
    _ = a * (c * (w * (L / w))) + b * c * w := by ring
    _ ≤ a * (c * L) + b * c * w := Nat.add_le_add_right (Nat.mul_le_mul_left _ (Nat.mul_le_mul_left _ h3)) _
    _ ≤ a * B + b * c * w := Nat.add_le_add_right (Nat.mul_le_mul_left _ h2) _

theorem Std.faster' {a b L A B : Nat} (h1 : A ≤ a * (L / w) + b) (h2 : L ≤ B) : w * A ≤ a * B + b * w := by
  have := Std.faster (w := w) (c := 1) h1 (le_of_eq_of_le (Nat.one_mul _) h2)
  rwa [Nat.one_mul, Nat.mul_one] at this

theorem Std.faster'' {b L A B : Nat} (h1 : A ≤ L / w + b) (h2 : L ≤ B) : w * A ≤ B + b * w := by
  have := Std.faster' (w := w) (a := 1) (le_of_le_of_eq h1 (by rw [Nat.one_mul])) h2
  rwa [Nat.one_mul] at this

section
variable (S : ShiftSem w) (bi : Bool) (m : Mem w) (first last d : BitIter w) (k : Nat) (hr : Range m first last)
include hr

/-- C93: `std::fill` makes an access per bit, at least, so the library's `fill` with words of `w` bits makes a `w`-th of the accesses, and four. -/
theorem C93_std_fill (v : Bool) (hk : len first last < k) :
    (len first last).toNat ≤ (Gen.client S bi (Std.fill v k) (Std.start first last first first) : Code w _).accesses m ∧
    w * (Gen.fill S first last v : Code w _).accesses m ≤
      (Gen.client S bi (Std.fill v k) (Std.start first last first first) : Code w _).accesses m + 4 * w := by
  have hl := Std.of_range hr
  have h := Std.accesses_of_bits S bi (Std.fill v k) m hr.1 hr.2 hr.1 hr.1
    (Std.fill_bits v (len first last).toNat k (Std.start first.addr last.addr first.addr first.addr) (bitAt m) first.addr (by have := hr.le; unfold len at *; omega) rfl
      (by rw [← hl]; rfl) fun i a b => hr.mapped i a (by omega)).ge
  exact ⟨h, Std.faster'' (C93_fill S m first last hr.1 hr.2 v) h⟩

/-- C93: `std::count`. -/
theorem C93_std_count (v : Bool) (hk : len first last < k) :
    (len first last).toNat ≤ (Gen.client S bi (Std.count v k 0) (Std.start first last first first) : Code w _).accesses m ∧
    w * (Gen.count S first last v : Code w _).accesses m ≤
      (Gen.client S bi (Std.count v k 0) (Std.start first last first first) : Code w _).accesses m + 2 * w := by
  have hl := Std.of_range hr
  have h := Std.accesses_of_bits S bi (Std.count v k 0) m hr.1 hr.2 hr.1 hr.1
    (Std.count_bits (tp := bitAt m) v (len first last).toNat k (Std.start first.addr last.addr first.addr first.addr) first.addr 0 (by have := hr.le; unfold len at *; omega) rfl
      (by rw [← hl]; rfl) fun i a b => hr.mapped i a (by omega)).ge
  exact ⟨h, Std.faster'' (C93_count S m first last hr.1 hr.2 v) h⟩

/-- C93: `std::find` makes an access for each bit before the one it finds. -/
theorem C93_std_find (v : Bool) (n : Nat) (hn : n ≤ len first last) (hk : n < k) (hv : ∀ i, first.addr ≤ i → i < first.addr + n → bitAt m i = some !v) :
    n ≤ (Gen.client S bi (Std.find v k) (Std.start first last first first) : Code w _).accesses m := by
  exact Std.accesses_of_bits S bi (Std.find v k) m hr.1 hr.2 hr.1 hr.1
    (Std.find_bits (tp := bitAt m) v n k (Std.start first.addr last.addr first.addr first.addr) first.addr last.addr hk rfl rfl
      (by unfold len at hn; omega) hv)

/-- C93: `std::find` of a value that does not occur. -/
theorem C93_std_find_none (v : Bool) (hk : len first last < k) (hv : ∀ i, first.addr ≤ i → i < last.addr → bitAt m i = some !v) :
    w * (Gen.find S first last v : Code w _).accesses m ≤
      (Gen.client S bi (Std.find v k) (Std.start first last first first) : Code w _).accesses m + 2 * w := by
  have hl := Std.of_range hr
  have hle := hr.le
  have h := C93_std_find S bi m first last k hr v (len first last).toNat (by unfold len; omega) (by unfold len at *; omega)
    fun i a b => hv i a (by omega)
  exact Std.faster'' (C93_find S m first last hr.1 hr.2 v) h

/-- C93: `std::reverse`. -/
theorem C93_std_reverse (hk : len first last < k) :
    (len first last).toNat ≤ (Gen.client S bi (Std.reverse k) (Std.start first last first first) : Code w _).accesses m + 1 ∧
    w * (Gen.reverse S first last : Code w _).accesses m ≤
      7 * (Gen.client S bi (Std.reverse k) (Std.start first last first first) : Code w _).accesses m + 37 * w + 7 := by
  have hl := Std.of_range hr
  have hb := Std.reverse_bits (len first last).toNat k (Std.start first.addr last.addr first.addr first.addr) (bitAt m) first.addr
      (by have := hr.le; unfold len at *; omega) rfl (by rw [← hl]; rfl) fun i a b => hr.mapped i a (by omega)
  have h := Std.accesses_of_bits S bi (Std.reverse k) m hr.1 hr.2 hr.1 hr.1 (le_refl _)
  refine ⟨by omega, ?_⟩
  have := Std.faster' (C93_reverse S m first last hr.1 hr.2)
    (B := (Gen.client S bi (Std.reverse k) (Std.start first last first first) : Code w _).accesses m + 1) (by omega)
  omega

/-- C93: `std::rotate` makes an access per bit, at least, unless there is nothing to do. -/
theorem C93_std_rotate (hd : d.Valid) (h1 : first.addr < d.addr) (h2 : d.addr < last.addr) (hk : len first last ≤ k) :
    (len first last).toNat ≤ (Gen.client S bi (Std.rotate k) (Std.start first last d first) : Code w _).accesses m ∧
    w * (Gen.rotate S first d last : Code w _).accesses m ≤
      90 * (Gen.client S bi (Std.rotate k) (Std.start first last d first) : Code w _).accesses m + 36 * w := by
  have hl := Std.of_range hr
  have h := Std.accesses_of_bits S bi (Std.rotate k) m hr.1 hr.2 hd hr.1
    (Std.rotate_bits k (len first last).toNat (len first d).toNat (Std.start first.addr last.addr d.addr first.addr) (bitAt m) first.addr
      (by omega) (by unfold len; omega) (by unfold len; omega) rfl (by rw [← hl]; rfl) (by show some d.addr = _; congr 1; unfold len; omega)
      fun i a b => hr.mapped i a (by omega))
  exact ⟨h, Std.faster' (C93_rotate S m first last d hr.1 hr.2 hd) h⟩

variable (hd : Dest m d (len first last))
include hd

/-- C93: `std::copy`. -/
theorem C93_std_copy :
    2 * (len first last).toNat ≤ (Gen.client S bi Std.copy (Std.start first last d d) : Code w _).accesses m ∧
    2 * (w * (Gen.copy S first last d : Code w _).accesses m) ≤ 3 * (Gen.client S bi Std.copy (Std.start first last d d) : Code w _).accesses m + 16 * w := by
  have hl := Std.of_range hr
  have hb : Std.copy.bits (Std.start first.addr last.addr d.addr d.addr) (bitAt m) = 2 * (len first last).toNat := by
    unfold Std.copy
    rw [Std.bits_diff (p := last.addr) (q := first.addr) rfl rfl]
    exact Std.copyLoop_bits (len first last).toNat _ (bitAt m) first.addr d.addr rfl rfl (fun i a b => hr.mapped i a (by omega))
      fun i a b => hd.mapped i a (by have := hr.le; unfold len at *; omega)
  have h := Std.accesses_of_bits S bi Std.copy m hr.1 hr.2 hd.1 hd.1 hb.ge
  exact ⟨h, Std.faster (w := w) (a := 3) (b := 8) (c := 2) (C93_copy S m first last d hr.1 hr.2) h⟩

/-- C93: `std::equal` of equal ranges. -/
theorem C93_std_equal (hk : len first last < k) (he : ∀ i, 0 ≤ i → i < len first last → bitAt m (d.addr + i) = bitAt m (first.addr + i)) :
    2 * (len first last).toNat ≤ (Gen.client S bi (Std.equal k) (Std.start first last d d) : Code w _).accesses m ∧
    2 * (w * (Gen.equal S first last d : Code w _).accesses m) ≤
      3 * (Gen.client S bi (Std.equal k) (Std.start first last d d) : Code w _).accesses m + 12 * w := by
  have hl := Std.of_range hr
  have hle := hr.le
  have h := Std.accesses_of_bits S bi (Std.equal k) m hr.1 hr.2 hd.1 hd.1
    (Std.equal_bits (tp := bitAt m) (len first last).toNat k (Std.start first.addr last.addr d.addr d.addr) first.addr d.addr last.addr
      (by unfold len at *; omega) rfl rfl rfl (by omega) fun i a b => ⟨hr.mapped _ (by omega) (by omega), he i a (by unfold len at *; omega)⟩)
  exact ⟨h, Std.faster (w := w) (a := 3) (b := 6) (c := 2) (C93_equal S m first last d hr.1 hr.2) h⟩

/-- C93: `std::swap_ranges`. -/
theorem C93_std_swap_ranges (hk : len first last < k) :
    2 * (len first last).toNat ≤ (Gen.client S bi (Std.swapRanges k) (Std.start first last d d) : Code w _).accesses m ∧
    2 * (w * (Gen.swapRanges S first last d : Code w _).accesses m) ≤
      18 * (Gen.client S bi (Std.swapRanges k) (Std.start first last d d) : Code w _).accesses m + 72 * w := by
  have hl := Std.of_range hr
  have hle := hr.le
  have h := Std.accesses_of_bits S bi (Std.swapRanges k) m hr.1 hr.2 hd.1 hd.1
    (Std.swapRanges_bits (len first last).toNat k (Std.start first.addr last.addr d.addr d.addr) (bitAt m) first.addr d.addr
      (by unfold len at *; omega) rfl (by rw [← hl]; rfl) rfl (fun i a b => hr.mapped i a (by omega))
      fun i a b => hd.mapped i a (by unfold len at *; omega)).ge
  exact ⟨h, Std.faster (w := w) (a := 18) (b := 36) (c := 2) (C93_swap_ranges S m first last d hr.1 hr.2) h⟩

/-- C93: `std::transform`; `f` works on bits, `g` on words. -/
theorem C93_std_transform (f : Bool → Bool) (g : BitVec w → BitVec w) (hk : len first last < k) :
    2 * (len first last).toNat ≤ (Gen.client S bi (Std.transform f k) (Std.start first last d d) : Code w _).accesses m ∧
    2 * (w * (Gen.transform S g first last d : Code w _).accesses m) ≤
      3 * (Gen.client S bi (Std.transform f k) (Std.start first last d d) : Code w _).accesses m + 16 * w := by
  have hl := Std.of_range hr
  have hle := hr.le
  have h := Std.accesses_of_bits S bi (Std.transform f k) m hr.1 hr.2 hd.1 hd.1
    (Std.transform_bits f (len first last).toNat k (Std.start first.addr last.addr d.addr d.addr) (bitAt m) first.addr d.addr
      (by unfold len at *; omega) rfl (by rw [← hl]; rfl) rfl (fun i a b => hr.mapped i a (by omega))
      fun i a b => hd.mapped i a (by unfold len at *; omega)).ge
  exact ⟨h, Std.faster (w := w) (a := 3) (b := 8) (c := 2) (C93_transform S m first last d hr.1 hr.2 g) h⟩

/-- C93: the binary `std::transform`. -/
theorem C93_std_transform2 (f : Bool → Bool → Bool) (g : BitVec w → BitVec w → BitVec w) (second : BitIter w) (h2 : Dest m second (len first last))
    (hk : len first last < k) :
    3 * (len first last).toNat ≤ (Gen.client S bi (Std.transform2 f k) (Std.start first last second d) : Code w _).accesses m ∧
    3 * (w * (Gen.transform2 S g first last second d : Code w _).accesses m) ≤
      5 * (Gen.client S bi (Std.transform2 f k) (Std.start first last second d) : Code w _).accesses m + 36 * w := by
  have hl := Std.of_range hr
  have hle := hr.le
  have h := Std.accesses_of_bits S bi (Std.transform2 f k) m hr.1 hr.2 h2.1 hd.1
    (Std.transform2_bits f (len first last).toNat k (Std.start first.addr last.addr second.addr d.addr) (bitAt m) first.addr second.addr d.addr
      (by unfold len at *; omega) rfl (by rw [← hl]; rfl) rfl rfl (fun i a b => hr.mapped i a (by omega))
      (fun i a b => h2.mapped i a (by unfold len at *; omega)) fun i a b => hd.mapped i a (by unfold len at *; omega)).ge
  exact ⟨h, Std.faster (w := w) (a := 5) (b := 12) (c := 3) (C93_transform2 S m first last d hr.1 hr.2 g second) h⟩

end

/-- C93: `std::copy_backward`; `d` is the end of the destination. -/
theorem C93_std_copy_backward (S : ShiftSem w) (bi : Bool) (m : Mem w) (first last d : BitIter w) (hr : Range m first last) (hd : d.Valid)
    (hm : Mapped m (d.addr - len first last) d.addr) :
    2 * (len first last).toNat ≤ (Gen.client S bi Std.copyBackward (Std.start first last d d) : Code w _).accesses m ∧
    2 * (w * (Gen.copyBackward S first last d : Code w _).accesses m) ≤
      3 * (Gen.client S bi Std.copyBackward (Std.start first last d d) : Code w _).accesses m + 16 * w := by
  have hl := Std.of_range hr
  have hle := hr.le
  have hb : Std.copyBackward.bits (Std.start first.addr last.addr d.addr d.addr) (bitAt m) = 2 * (len first last).toNat := by
    unfold Std.copyBackward
    rw [Std.bits_diff (p := last.addr) (q := first.addr) rfl rfl]
    exact Std.copyBackwardLoop_bits (len first last).toNat _ (bitAt m) last.addr d.addr rfl rfl (fun i a b => hr.mapped i (by omega) b)
      fun i a b => hm i (by unfold len at *; omega) b
  have h := Std.accesses_of_bits S bi Std.copyBackward m hr.1 hr.2 hd hd hb.ge
  exact ⟨h, Std.faster (w := w) (a := 3) (b := 8) (c := 2) (C93_copy_backward S m first last d hr.1 hr.2) h⟩

/-! ### Examples -/

/-- The ranges of the examples: 39 bits that begin at bit 3 of word 0, and a place for them at bit 5 of word 6. -/
example : Range (memOf (List.replicate 12 0xa5#8)) ⟨0, 3⟩ ⟨5, 2⟩ ∧ Dest (memOf (List.replicate 12 0xa5#8)) ⟨6, 5⟩ (len (⟨0, 3⟩ : BitIter 8) ⟨5, 2⟩) ∧
    len (⟨0, 3⟩ : BitIter 8) ⟨5, 2⟩ = 39 :=
  ⟨range_memOf (by decide) (by decide) (by decide) (by decide) (by decide), dest_memOf (by decide) (by decide) (by decide), by decide⟩

/-- `copy` makes 19 accesses where `std::copy` makes 117. -/
example : (Gen.copy S8 ⟨0, 3⟩ ⟨5, 2⟩ ⟨6, 5⟩ : Code 8 _).accesses (memOf (List.replicate 12 0xa5#8)) = 19 ∧
    (Gen.client S8 true Std.copy (Std.start ⟨0, 3⟩ ⟨5, 2⟩ ⟨6, 5⟩ ⟨6, 5⟩) : Code 8 _).accesses (memOf (List.replicate 12 0xa5#8)) = 117 := by
  decide +kernel

/-- `fill` makes 8 accesses where `std::fill` makes 78. -/
example : (Gen.fill S8 ⟨0, 3⟩ ⟨5, 2⟩ true : Code 8 _).accesses (memOf (List.replicate 12 0xa5#8)) = 8 ∧
    (Gen.client S8 true (Std.fill true 40) (Std.start ⟨0, 3⟩ ⟨5, 2⟩ ⟨0, 3⟩ ⟨0, 3⟩) : Code 8 _).accesses (memOf (List.replicate 12 0xa5#8)) = 78 := by
  decide +kernel

/-- `count` makes 6 accesses where `std::count` makes 39. -/
example : (Gen.count S8 ⟨0, 3⟩ ⟨5, 2⟩ true : Code 8 _).accesses (memOf (List.replicate 12 0xa5#8)) = 6 ∧
    (Gen.client S8 true (Std.count true 40 0) (Std.start ⟨0, 3⟩ ⟨5, 2⟩ ⟨0, 3⟩ ⟨0, 3⟩) : Code 8 _).accesses (memOf (List.replicate 12 0xa5#8)) = 39 := by
  decide +kernel

/-- The bounds of `fill`, `find` and `count` are attained: three bits in two words. -/
example : (Gen.fill S8 ⟨0, 7⟩ ⟨1, 2⟩ true : Code 8 _).accesses (memOf [0#8, 0#8]) = (len (⟨0, 7⟩ : BitIter 8) ⟨1, 2⟩).toNat / 8 + 4 ∧
    (Gen.find S8 ⟨0, 7⟩ ⟨1, 2⟩ true : Code 8 _).accesses (memOf [0#8, 0#8]) = (len (⟨0, 7⟩ : BitIter 8) ⟨1, 2⟩).toNat / 8 + 2 ∧
    (Gen.count S8 ⟨0, 7⟩ ⟨1, 2⟩ true : Code 8 _).accesses (memOf [0#8, 0#8]) = (len (⟨0, 7⟩ : BitIter 8) ⟨1, 2⟩).toNat / 8 + 2 := by
  decide +kernel

/-- The slots of a program on the tape, and the variables of the same program on the library. -/
example : SlotsAt 0 (Std.start ⟨0, 3⟩ ⟨5, 2⟩ ⟨6, 5⟩ ⟨6, 5⟩ : Slots (BitIter 8) (BitRef 8) (BitPtr 8)) (Std.start 3 42 53 53) :=
  Std.start_at (first := (⟨0, 3⟩ : BitIter 8)) (last := ⟨5, 2⟩) (second := ⟨6, 5⟩) (third := ⟨6, 5⟩) (by decide) (by decide) (by decide) (by decide)

example : Std.copy.bits (Std.start 3 42 53 53) (bitAt (memOf (List.replicate 12 0xa5#8))) = 78 := by decide +kernel

/-- A place to rotate about. -/
example : (⟨2, 4⟩ : BitIter 8).Valid ∧ (⟨0, 3⟩ : BitIter 8).addr < (⟨2, 4⟩ : BitIter 8).addr ∧ (⟨2, 4⟩ : BitIter 8).addr < (⟨5, 2⟩ : BitIter 8).addr := by
  decide

end BitLib
