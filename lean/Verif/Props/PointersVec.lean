import Verif.Lemmas.PointersMember
import Verif.Props.Vector
/-
C99: which word iterators the members of `bit_vector` form. `Ptr.vF` is the text of the member `F` with a check wherever the code moves a word
iterator of the vector's words or of the range it is given (`Model/PointersVec`).
-/
namespace BitLib
variable {w : Nat}

/-! ### The checks change nothing else -/

/-- C99: from every heap, for all arguments, the checked member stops at a forbidden word iterator or does what the model does. -/
theorem C99_text (S : ShiftSem w) (Q : Policy) (A : Arr) (v : BV) (pos first last : BitIter w) (i n : Nat) (b : Bool) (l : List Bool) (s : List Char)
    (h : Heap w) :
    (BadV (Ptr.vIndex S v i h) ∨ SameV (Ptr.vIndex S v i h) (v.index S i h)) ∧
    (BadV (Ptr.vAt S v i h) ∨ SameV (Ptr.vAt S v i h) (v.at_ S i h)) ∧
    (BadV (Ptr.vFront S v h) ∨ SameV (Ptr.vFront S v h) (v.front S h)) ∧
    (BadV (Ptr.vBack S v h) ∨ SameV (Ptr.vBack S v h) (v.back S h)) ∧
    (BadV (Ptr.vOfBits A S Q first last h) ∨ SameV (Ptr.vOfBits A S Q first last h) (BV.ofBits S Q first last h)) ∧
    (BadV (Ptr.vOfBoolList S Q l h) ∨ SameV (Ptr.vOfBoolList S Q l h) (BV.ofBoolList S Q l h)) ∧
    (BadV (Ptr.vOfBoolRange S Q l h) ∨ SameV (Ptr.vOfBoolRange S Q l h) (BV.ofBoolRange S Q l h)) ∧
    (BadV (Ptr.vOfString S Q s h) ∨ SameV (Ptr.vOfString S Q s h) (BV.ofString S Q s h)) ∧
    (BadV (Ptr.vPushBack S Q v b h) ∨ SameV (Ptr.vPushBack S Q v b h) (v.pushBack S Q b h)) ∧
    (BadV (Ptr.vInsert S Q v pos b h) ∨ SameV (Ptr.vInsert S Q v pos b h) (v.insert S Q pos b h)) ∧
    (BadV (Ptr.vInsertN S Q v pos n b h) ∨ SameV (Ptr.vInsertN S Q v pos n b h) (v.insertN S Q pos n b h)) ∧
    (BadV (Ptr.vInsertRange A S Q v pos first last h) ∨ SameV (Ptr.vInsertRange A S Q v pos first last h) (v.insertRange S Q pos first last h)) ∧
    (BadV (Ptr.vErase S v pos h) ∨ SameV (Ptr.vErase S v pos h) (v.erase S pos h)) ∧
    (BadV (Ptr.vEraseRange S Q v first last h) ∨ SameV (Ptr.vEraseRange S Q v first last h) (v.eraseRange S Q first last h)) ∧
    (BadV (Ptr.vResizeVal S Q v n b h) ∨ SameV (Ptr.vResizeVal S Q v n b h) (v.resizeVal S Q n b h)) ∧
    (BadV (Ptr.vDebugString S v h) ∨ SameV (Ptr.vDebugString S v h) (v.debugString S h)) :=
  ⟨Ptr.uv_index h, Ptr.uv_at h, Ptr.uv_index h, Ptr.uv_index h, Ptr.uv_ofBits h, Ptr.uv_ofBoolList h, Ptr.uv_ofBoolRange h, Ptr.uv_ofString h,
    Ptr.uv_pushBack h, Ptr.uv_insert h, Ptr.uv_insertN h, Ptr.uv_insertRange h, Ptr.uv_erase h, Ptr.uv_eraseRange h, Ptr.uv_resizeVal h,
    Ptr.uv_debugString h⟩

/- Both happen: a position after the last word of the vector, and one inside. -/
example : BadV (Ptr.vInsert S8 doubling exV ⟨3, 0⟩ true exH) := ⟨_, _, rfl⟩
example : ∃ r, Ptr.vErase S8 exV ⟨0, 3⟩ exH = .ok r ∧ r.1.1.length = 10 := ⟨_, rfl, rfl⟩

/-! ### Access to elements -/

/-- C99: `v[i]` takes a word of the vector exactly if `i` is less than the number of bits of its words; `front()` exactly if it has a word;
`back()` exactly if it is not empty; `at` always. -/
theorem C99_access (hw : 0 < w) (S : ShiftSem w) (v : BV) (i : Nat) (hf : v.length ≤ v.vec.size * w) (h : Heap w) :
    (i < v.vec.size * w → SameV (Ptr.vIndex S v i h) (v.index S i h)) ∧
    (v.vec.size * w ≤ i → ∀ r, v.index S i h = .ok r → BadV (Ptr.vIndex S v i h)) ∧
    (0 < v.vec.size → SameV (Ptr.vFront S v h) (v.front S h)) ∧
    (v.vec.size = 0 → ∀ r, v.front S h = .ok r → BadV (Ptr.vFront S v h)) ∧
    (0 < v.length → SameV (Ptr.vBack S v h) (v.back S h)) ∧
    (v.length = 0 → ∀ r, v.back S h = .ok r → BadV (Ptr.vBack S v h)) ∧
    SameV (Ptr.vAt S v i h) (v.at_ S i h) := by
  refine ⟨fun hi => (Ptr.fv_index hw (by omega) (by omega)).same h, fun hi _ e => (Ptr.sv_index hw (.inr (by omega))).bad Ptr.uv_index h e,
    fun hs => (Ptr.fv_index hw (Int.le_refl 0) ?_).same h, fun hs _ e => (Ptr.sv_index hw (.inr ?_)).bad Ptr.uv_index h e,
    fun hl => (Ptr.fv_index hw (by omega) (by omega)).same h, fun hl _ e => (Ptr.sv_index hw (.inl (by omega))).bad Ptr.uv_index h e,
    (Ptr.fv_at hw hf).same h⟩
  · have := Nat.mul_pos hs hw
    omega
  · rw [hs]
    omega

/- Eleven elements in two words: the sixteenth bit is a bit of the vector's words, the one after it is not; the empty vector has no first and no last. -/
example : exV.length ≤ exV.vec.size * 8 ∧ (15 < exV.vec.size * 8) ∧ (exV.vec.size * 8 ≤ 16) := by decide
example : (∃ r, exV.index S8 16 exH = .ok r) ∧ (∃ r, (BV.default).front S8 exH = .ok r) ∧ ∃ r, (BV.default).back S8 exH = .ok r :=
  ⟨⟨_, rfl⟩, ⟨_, rfl⟩, ⟨_, rfl⟩⟩
example : BadV (Ptr.vFront S8 BV.default exH) ∧ BadV (Ptr.vBack S8 BV.default exH) ∧ BadV (Ptr.vIndex S8 exV 16 exH) :=
  ⟨⟨_, _, rfl⟩, ⟨_, _, rfl⟩, ⟨_, _, rfl⟩⟩

/-! ### Members that stay in the vector -/

/-- C99: the constructors never leave the words of the vector, nor the array of a range of bits that is copied. -/
theorem C99_constructors (hw : 0 < w) (S : ShiftSem w) (Q : Policy) (A : Arr) (first last : BitIter w) (l : List Bool) (s : List Char)
    (ha : A.Has first) (hl : A.Has last) (h : Heap w) :
    SameV (Ptr.vOfBits A S Q first last h) (BV.ofBits S Q first last h) ∧
    SameV (Ptr.vOfBoolList S Q l h) (BV.ofBoolList S Q l h) ∧
    SameV (Ptr.vOfBoolRange S Q l h) (BV.ofBoolRange S Q l h) ∧
    SameV (Ptr.vOfString S Q s h) (BV.ofString S Q s h) :=
  ⟨(Ptr.fv_ofBits ha hl).same h, (Ptr.fv_ofBoolList hw).same h, (Ptr.fv_ofBoolRange hw).same h, (Ptr.fv_ofString hw).same h⟩

example : (⟨0, 2⟩ : Arr).Has (⟨0, 3⟩ : BitIter 8) ∧ (⟨0, 2⟩ : Arr).Has (⟨2, 0⟩ : BitIter 8) ∧ ∃ r, BV.ofBits S8 doubling ⟨0, 3⟩ ⟨2, 0⟩ exH = .ok r ∧ r.1.length = 13 :=
  ⟨by decide, by decide, _, rfl, rfl⟩

/-- C99: `push_back` and `debug_string` of a vector whose elements are in its words. -/
theorem C99_push_back (hw : 0 < w) (S : ShiftSem w) (Q : Policy) (v : BV) (b : Bool) (hf : v.length ≤ v.vec.size * w) (h : Heap w) :
    SameV (Ptr.vPushBack S Q v b h) (v.pushBack S Q b h) ∧ SameV (Ptr.vDebugString S v h) (v.debugString S h) :=
  ⟨(Ptr.fv_pushBack hw hf).same h, (Ptr.fv_debugString hw hf).same h⟩

example : ∃ r, exV.pushBack S8 doubling true exH = .ok r ∧ r.1.length = 12 := ⟨_, rfl, rfl⟩

/-- C99: `erase` of an element. -/
theorem C99_erase (hw : 0 < w) (S : ShiftSem w) (v : BV) (pos : BitIter w) (d : Nat) (hf : v.length ≤ v.vec.size * w) (hp : IsPos v pos d)
    (hd : d < v.length) (h : Heap w) : SameV (Ptr.vErase S v pos h) (v.erase S pos h) := (Ptr.fv_erase hw hf hp hd).same h

/-- C99: `erase` of a range of a vector with fewer than 2^32 elements. -/
theorem C99_erase_range (hw : 0 < w) (S : ShiftSem w) (Q : Policy) (v : BV) (first last : BitIter w) (d e : Nat) (hf : v.length ≤ v.vec.size * w)
    (hp : IsPos v first d) (hq : IsPos v last e) (he : e ≤ v.length) (hlen : v.length < 2 ^ 32) (h : Heap w) :
    SameV (Ptr.vEraseRange S Q v first last h) (v.eraseRange S Q first last h) := (Ptr.fv_eraseRange hw hf hp hq he hlen).same h

example : IsPos exV ((exV.begin : BitIter 8).add (2 : Nat)) 2 ∧ IsPos exV ((exV.begin : BitIter 8).add (9 : Nat)) 9 ∧ 9 ≤ exV.length ∧ exV.length < 2 ^ 32 ∧
    ∃ r, exV.eraseRange S8 doubling ⟨0, 2⟩ ⟨1, 1⟩ exH = .ok r ∧ r.1.1.length = 4 := ⟨exPos 2, exPos 9, by decide, by decide, _, rfl, rfl⟩

/-- C99: `resize(count, value)` to fewer than 2^32 elements. -/
theorem C99_resize (hw : 0 < w) (S : ShiftSem w) (Q : Policy) (v : BV) (n : Nat) (b : Bool) (hn : n < 2 ^ 32) (h : Heap w) :
    SameV (Ptr.vResizeVal S Q v n b h) (v.resizeVal S Q n b h) := (Ptr.fv_resizeVal hw hn).same h

example : ∃ r, exV.resizeVal S8 doubling 30 true exH = .ok r ∧ r.1.length = 30 := ⟨_, rfl, rfl⟩

/-! ### `insert` -/

/-- C99: `insert(pos, value)` decrements a word iterator at the first word of the vector exactly in the case `InsertAtStart`. -/
theorem C99_insert (hw : 0 < w) (S : ShiftSem w) (Q : Policy) (v : BV) (pos : BitIter w) (d : Nat) (b : Bool) (hf : v.length ≤ v.vec.size * w)
    (hp : IsPos v pos d) (hd : d ≤ v.length) (h : Heap w) :
    (¬ InsertAtStart w d v.length 1 → SameV (Ptr.vInsert S Q v pos b h) (v.insert S Q pos b h)) ∧
    (InsertAtStart w d v.length 1 → ∀ r, v.insert S Q pos b h = .ok r → BadV (Ptr.vInsert S Q v pos b h)) :=
  ⟨fun hg => (Ptr.fv_insert hw hf hp hd hg).same h, fun hg _ e => (Ptr.sv_insert hw hf hp hd hg).bad Ptr.uv_insert h e⟩

/-- C99: `insert(pos, count, value)`, if single precision is enough for the lengths. -/
theorem C99_insert_count (hw : 0 < w) (S : ShiftSem w) (Q : Policy) (v : BV) (pos : BitIter w) (d n : Nat) (b : Bool) (hf : v.length ≤ v.vec.size * w)
    (hfl : FloatOk w v.vec.size v.length n) (hp : IsPos v pos d) (hd : d ≤ v.length) (h : Heap w) :
    (¬ InsertAtStart w d v.length n → SameV (Ptr.vInsertN S Q v pos n b h) (v.insertN S Q pos n b h)) ∧
    (InsertAtStart w d v.length n → ∀ r, v.insertN S Q pos n b h = .ok r → BadV (Ptr.vInsertN S Q v pos n b h)) :=
  ⟨fun hg => (Ptr.fv_insertN hw hf hfl hp hd hg).same h, fun hg _ e => (Ptr.sv_insertN hw hfl hp hd hg).bad Ptr.uv_insertN h e⟩

/-- C99: `insert(pos, first, last)` for a range of `n` bits of the array `A`. -/
theorem C99_insert_range (S : ShiftSem w) (Q : Policy) (A : Arr) (v : BV) (pos first last : BitIter w) (d n : Nat) (hf : v.length ≤ v.vec.size * w)
    (hfl : FloatOk w v.vec.size v.length n) (hp : IsPos v pos d) (hd : d ≤ v.length) (ha : A.Has first) (hl : A.Has last)
    (hn : last.addr = first.addr + n) (h : Heap w) :
    (¬ InsertAtStart w d v.length n → SameV (Ptr.vInsertRange A S Q v pos first last h) (v.insertRange S Q pos first last h)) ∧
    (InsertAtStart w d v.length n → ∀ r, v.insertRange S Q pos first last h = .ok r → BadV (Ptr.vInsertRange A S Q v pos first last h)) :=
  ⟨fun hg => (Ptr.fv_insertRange hf hfl hp hd ha hl hn hg).same h,
    fun hg _ e => (Ptr.sv_insertRange ha.pos_w hfl hp hd hn hg).bad Ptr.uv_insertRange h e⟩

/-- Example: fifteen elements in two words at 0; two more words at 2. -/
def exH15 : Heap 8 := ⟨memOf [0xA5#8, 0x03#8, 0xFF#8, 0xFF#8], 5⟩
def exV15 : BV := ⟨⟨0, 2, 2⟩, 15⟩

/- The sixteenth element is inserted at the front, in the middle of the first word and in the second word: only the first two leave the array. -/
example : exV15.length ≤ exV15.vec.size * 8 ∧ IsPos exV15 (⟨0, 0⟩ : BitIter 8) 0 ∧ IsPos exV15 (⟨0, 7⟩ : BitIter 8) 7 ∧ IsPos exV15 (⟨1, 0⟩ : BitIter 8) 8 :=
  ⟨by decide, ⟨by decide, by decide⟩, ⟨by decide, by decide⟩, ⟨by decide, by decide⟩⟩
example : InsertAtStart 8 0 15 1 ∧ InsertAtStart 8 7 15 1 ∧ ¬ InsertAtStart 8 8 15 1 ∧ ¬ InsertAtStart 8 0 14 1 ∧ ¬ InsertAtStart 8 7 14 1 := by decide
example : ∃ r, exV15.insert S8 doubling ⟨0, 0⟩ true exH15 = .ok r ∧ r.2.mem 0 = some 0x4B#8 := ⟨_, rfl, rfl⟩
example : ∃ r, Ptr.vInsert S8 doubling exV15 ⟨1, 0⟩ true exH15 = .ok r ∧ r.2.mem 1 = some 0x07#8 := ⟨_, rfl, rfl⟩
/- Three elements, and eight: a whole word goes along with no word iterator before the array. -/
example : InsertAtStart 8 0 15 3 ∧ ¬ InsertAtStart 8 0 15 8 ∧ FloatOk 8 2 15 3 ∧ FloatOk 8 2 15 8 :=
  ⟨by decide, by decide, floatOk_small (by decide) (by decide), floatOk_small (by decide) (by decide)⟩
example : (∃ r, exV15.insertN S8 doubling ⟨0, 0⟩ 3 true exH15 = .ok r) ∧ ∃ r, Ptr.vInsertN S8 doubling exV15 ⟨0, 0⟩ 8 true exH15 = .ok r := ⟨⟨_, rfl⟩, ⟨_, rfl⟩⟩
example : (⟨2, 4⟩ : Arr).Has (⟨2, 1⟩ : BitIter 8) ∧ (⟨2, 4⟩ : Arr).Has (⟨2, 4⟩ : BitIter 8) ∧ (⟨2, 4⟩ : BitIter 8).addr = (⟨2, 1⟩ : BitIter 8).addr + (3 : Nat) ∧
    ∃ r, exV15.insertRange S8 doubling ⟨0, 0⟩ ⟨2, 1⟩ ⟨2, 4⟩ exH15 = .ok r := ⟨by decide, by decide, by decide, _, rfl⟩

/-- C99: so inserting at the front is undefined for every vector that holds two words of elements afterwards, whatever they are. -/
theorem C99_insert_front (hw : 1 < w) (S : ShiftSem w) (Q : Policy) (h : Heap w) (v : BV) (l : List Bool) (b : Bool) (hwf : h.WF) (hr : Rep h v l)
    (hl : 2 * w ≤ l.length + 1) : BadV (Ptr.vInsert S Q v v.begin b h) := by
  have hp : IsPos v (v.begin : BitIter w) 0 := ⟨BV.begin_valid (by omega) v, by rw [BV.begin_addr]; omega⟩
  obtain ⟨v', it, h', e, -⟩ := C26_insert_partial (by omega) S Q h v l b v.begin 0 hwf hr hp (Nat.zero_le _) (.inl (by omega))
  refine (C99_insert (by omega) S Q v v.begin 0 b hr.fit hp (Nat.zero_le _) h).2 ⟨by omega, ?_, ?_, ?_⟩ _ e
  · rw [hr.len]
    have : 2 ≤ (l.length + 1) / w := (Nat.le_div_iff_mul_le (by omega)).2 hl
    have := Nat.mul_le_mul_right w this
    omega
  · rw [Nat.mod_eq_of_lt hw]
    omega
  · rw [Nat.mod_eq_of_lt hw]
    omega

/- Sixteen elements. -/
def exV16 : BV := ⟨⟨0, 2, 2⟩, 16⟩
example : Rep exH exV16 (exL ++ List.replicate 5 false) :=
  ⟨exRep.ok, by decide, by decide, by decide⟩
example : 2 * 8 ≤ (exL ++ List.replicate 5 false).length + 1 := by decide

end BitLib
