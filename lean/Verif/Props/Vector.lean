import Verif.Lemmas.BVecFail
import Verif.Props.Run
/-
C25-C34, C36-C38: the operations of `bit_vector`.

`Rep h v l` (SpecVec.lean) says that `v` is a valid vector holding exactly the list `l`; `VStep` says that nothing outside the storage of
the vector was touched. Each operation is shown to run without undefined behaviour from every such state, with every allocation policy
`P`, and to end in such a state for the right list. By `C36_contents` the list is what `size()` and `operator[]` report.

Where the library falls short there is a `_refuted` theorem with a program of valid calls.
-/
namespace BitLib
variable {w : Nat}

/-! ### A concrete state -/

/-- Two words in use, the second one partly. -/
def exH : Heap 8 := ⟨memOf [0xA5#8, 0x03#8], 3⟩
def exV : BV := ⟨⟨0, 2, 2⟩, 11⟩
def exL : List Bool := [true, false, true, false, false, true, false, true, true, true, false]

theorem exH_wf : exH.WF := by
  refine ⟨by decide, ?_⟩
  intro i hi
  have hi' : (3 : Int) * 8 ≤ i := hi
  unfold bitAt
  have : exH.mem (i / ((8 : Nat) : Int)) = none := by
    show memOf _ _ = none
    unfold memOf
    rw [if_pos (by omega)]
    exact List.getElem?_eq_none (by simp; omega)
  rw [this]; rfl

theorem exRep : Rep exH exV exL := by
  refine ⟨⟨by decide, by decide, ?_⟩, rfl, by decide, by decide⟩
  exact mapped_memOf (by decide) (by decide) (by decide)

/-- The empty heap. -/
def emptyHeap : Heap w := ⟨fun _ => none, 0⟩

theorem emptyHeap_wf : (emptyHeap : Heap w).WF := ⟨Int.le_refl _, fun _ _ => rfl⟩

/-- An allocation policy that doubles. -/
def doubling : Policy where
  grow cap need := max need (2 * cap)
  grow_ok _ _ := Nat.le_max_left _ _
  alloc n := n
  alloc_ok _ := Nat.le_refl _
  shrink _ _ := true

/-! ### C36: element access -/

/-- C36: `operator[]` reads element `i` and changes nothing. -/
theorem C36_get (hw : 0 < w) (S : ShiftSem w) (h : Heap w) (v : BV) (l : List Bool) (hr : Rep h v l) (i : Nat) (hi : i < l.length) :
    v.get S i h = .ok (l[i], h) := by
  obtain ⟨b, h', e, rfl, rfl⟩ := wpV_get S hw hr hi (Q := fun b h' => b = l[i] ∧ h' = h) ⟨rfl, rfl⟩
  exact e

/-- C36: `size()`, `empty()` and `operator[]` report exactly the list represented. -/
theorem C36_contents (hw : 0 < w) (S : ShiftSem w) (h : Heap w) (v : BV) (l : List Bool) (hr : Rep h v l) :
    v.size = l.length ∧ (v.isEmpty = true ↔ l = []) ∧ (∀ (i : Nat) (hi : i < l.length), v.get S i h = .ok (l[i], h)) ∧
    ((List.range v.size).mapM (fun i => v.get S i)) h = .ok (l, h) := by
  refine ⟨hr.len, ?_, C36_get hw S h v l hr, ?_⟩
  · unfold BV.isEmpty
    rw [decide_eq_true_iff, hr.len, List.length_eq_zero_iff]
  · have key : ∀ n, n ≤ l.length → ((List.range n).mapM (fun i => v.get S i)) h = .ok (l.take n, h) := by
      intro n
      induction n with
      | zero => intro _; rfl
      | succ n ih =>
        intro hn
        rw [List.range_succ, List.mapM_append]
        have h1 := ih (by omega)
        have h2 := C36_get hw S h v l hr n (by omega)
        show (Except.bind (((List.range n).mapM fun i => v.get S i) h) fun p => _) = _
        rw [h1]
        show (Except.bind ((List.mapM (fun i => v.get S i) [n]) h) fun p => _) = _
        have h3 : (List.mapM (fun i => v.get S i) [n]) h = .ok ([l[n]], h) := by
          rw [List.mapM_cons]
          show (Except.bind (v.get S n h) fun p => _) = _
          rw [h2]; rfl
        rw [h3]
        show Except.ok (l.take n ++ [l[n]], h) = _
        rw [List.take_succ_eq_append_getElem (by omega)]
    have := key l.length (Nat.le_refl _)
    rw [List.take_length] at this
    rw [show v.size = l.length from hr.len]
    exact this

/-- C36: the list represented is determined by the state. -/
theorem C36_unique (h : Heap w) (v : BV) (l l' : List Bool) (hr : Rep h v l) (hr' : Rep h v l') : l = l' := hr.uniq hr'

/-- C36: `operator[]`, `front`, `back` and `at` return references to the stated elements. -/
theorem C36_references (hw : 0 < w) (S : ShiftSem w) (h : Heap w) (v : BV) (l : List Bool) (hr : Rep h v l) :
    (∀ i, i < l.length → ∃ r, v.index S i h = .ok (r, h) ∧ v.at_ S i h = .ok (r, h) ∧ r.At (v.vec.ptr * (w : Int) + (i : Int))) ∧
    (∀ (hne : l ≠ []), (∃ r, v.front S h = .ok (r, h) ∧ r.toBool h.mem = .ok (l.head hne, h.mem)) ∧
      (∃ r, v.back S h = .ok (r, h) ∧ r.toBool h.mem = .ok (l.getLast hne, h.mem))) := by
  have hl := hr.len
  have key : ∀ i : Nat, ∃ r, v.index S i h = .ok (r, h) ∧ r.At (v.vec.ptr * (w : Int) + (i : Int)) := by
    intro i
    have : wpV (v.index S i) h fun r h' => h' = h ∧ r.At (v.vec.ptr * (w : Int) + (i : Int)) := by
      unfold BV.index
      refine wpV_onMem (wp_index S (BV.begin_valid hw v) ?_)
      intro r hr
      refine ⟨rfl, ?_⟩
      rw [BV.begin_addr] at hr
      exact hr
    obtain ⟨r, h', e, rfl, ha⟩ := this
    exact ⟨r, e, ha⟩
  have read : ∀ (i : Nat) (hi : i < l.length) (r : BitRef w), r.At (v.vec.ptr * (w : Int) + (i : Int)) → r.toBool h.mem = .ok (l[i], h.mem) := by
    intro i hi r ha
    obtain ⟨x, m', e, rfl, rfl⟩ := wp_refRead (Q := fun x m' => x = l[i] ∧ m' = h.mem) ha (hr.bits i hi) ⟨rfl, rfl⟩
    exact e
  refine ⟨?_, ?_⟩
  · intro i hi
    obtain ⟨r, e, ha⟩ := key i
    refine ⟨r, e, ?_, ha⟩
    unfold BV.at_
    rw [if_pos (by omega)]
    exact e
  · intro hne
    have hpos : 0 < l.length := List.length_pos_iff.2 hne
    constructor
    · obtain ⟨r, e, ha⟩ := key 0
      exact ⟨r, e, by rw [List.head_eq_getElem]; exact read 0 hpos r ha⟩
    · obtain ⟨r, e, ha⟩ := key (l.length - 1)
      refine ⟨r, ?_, by rw [List.getLast_eq_getElem]; exact read (l.length - 1) (by omega) r ha⟩
      unfold BV.back
      rw [hl, show (l.length : Int) - 1 = ((l.length - 1 : Nat) : Int) by omega]
      exact e

/-- C36: `at(i)` throws exactly when `i >= size()`, whatever the memory, and without touching it. -/
theorem C36_at_throws (S : ShiftSem w) (h : Heap w) (v : BV) (i : Nat) :
    v.at_ S i h = .error (.throw .outOfRange) ↔ v.size ≤ i := by
  unfold BV.at_ BV.size
  split_ifs with hc
  · constructor
    · intro he
      unfold onMem at he
      split at he <;> simp at he
    · omega
  · constructor
    · omega
    · intro _; rfl

/-- C36: reads through `at`. -/
theorem C36_at (hw : 0 < w) (S : ShiftSem w) (h : Heap w) (v : BV) (l : List Bool) (hr : Rep h v l) (i : Nat) :
    (v.at_ S i >>= fun r => onMem r.toBool) h =
      if hi : i < l.length then .ok (l[i], h) else .error (.throw .outOfRange) := by
  have hl := hr.len
  split_ifs with hi
  · have := C36_get hw S h v l hr i hi
    unfold BV.get BV.index at this
    unfold BV.at_
    rw [if_pos (by omega)]
    exact this
  · refine failsV_bind_left ?_
    exact (C36_at_throws S h v i).2 (by unfold BV.size; omega)

/-- `data()`: the address of the first word of a non-empty vector; null for an empty one. The `const` version differs: it is
null only if no word is allocated. -/
theorem C36_data (h : Heap w) (v : BV) (l : List Bool) (hr : Rep h v l) :
    v.data = .ok (if l = [] then none else some v.vec.ptr) ∧ (l ≠ [] → v.dataConst = some v.vec.ptr) := by
  have hl := hr.len
  have hf := hr.fit
  unfold BV.data BV.dataConst
  rcases l with _ | ⟨b, l⟩
  · rw [if_neg (by simp [hl])]; exact ⟨rfl, fun h => absurd rfl h⟩
  · rw [List.length_cons] at hl
    have : 0 < v.vec.size := by
      rcases Nat.eq_zero_or_pos v.vec.size with h0 | h0
      · rw [h0] at hf; omega
      · exact h0
    rw [if_pos (show v.length ≠ 0 by omega), if_pos this, if_pos (show v.vec.size ≠ 0 by omega), if_neg (by simp)]
    exact ⟨rfl, fun _ => rfl⟩

example : Rep exH exV exL := exRep
example : ((List.range exV.size).mapM (fun i => exV.get S8 i)) exH = .ok (exL, exH) := (C36_contents (by decide) S8 _ _ _ exRep).2.2.2
example : exV.at_ S8 11 exH = .error (.throw .outOfRange) := (C36_at_throws S8 _ _ _).2 (by decide)
example : exV.get S8 8 exH = .ok (true, exH) := C36_get (by decide) S8 _ _ _ exRep 8 (by decide)

/-! ### C25: `push_back` and `pop_back` -/

/-- C25: `push_back(b)` appends `b` and keeps all earlier elements. -/
theorem C25_push_back (hw : 0 < w) (S : ShiftSem w) (P : Policy) (h : Heap w) (v : BV) (l : List Bool) (b : Bool)
    (hwf : h.WF) (hr : Rep h v l) :
    ∃ v' h', v.pushBack S P b h = .ok (v', h') ∧ VStep h v.vec h' v'.vec ∧ Rep h' v' (l ++ [b]) :=
  wpV_push S hw hwf hr fun _ _ s r => ⟨s, r⟩

/-- C25: `pop_back()` on a non-empty vector drops the last element and keeps the rest. -/
theorem C25_pop_back (hw : 0 < w) (h : Heap w) (v : BV) (l : List Bool) (hwf : h.WF) (hr : Rep h v l) (hne : l ≠ []) :
    ∃ v' h', v.popBack h = .ok (v', h') ∧ VStep h v.vec h' v'.vec ∧ Rep h' v' l.dropLast :=
  wpV_pop hw hwf hr hne fun _ _ s r => ⟨s, r⟩

/-- C25: `pop_back` undoes `push_back`. -/
theorem C25_push_pop (hw : 0 < w) (S : ShiftSem w) (P : Policy) (h : Heap w) (v : BV) (l : List Bool) (b : Bool)
    (hwf : h.WF) (hr : Rep h v l) :
    ∃ v' h', (v.pushBack S P b >>= fun v => v.popBack) h = .ok (v', h') ∧ VStep h v.vec h' v'.vec ∧ Rep h' v' l := by
  show wpV _ h _
  rw [wpV_bind]
  refine wpV_push S hw hwf hr fun v1 h1 s1 r1 => ?_
  refine wpV_pop hw s1.wf r1 (by simp) fun v2 h2 s2 r2 => ⟨s1.trans s2, ?_⟩
  rw [List.dropLast_concat] at r2
  exact r2

example : ∃ v' h', exV.pushBack S8 doubling true exH = .ok (v', h') ∧ VStep exH exV.vec h' v'.vec ∧ Rep h' v' (exL ++ [true]) :=
  C25_push_back (by decide) S8 doubling exH exV exL true exH_wf exRep
example : exL ≠ [] := by decide

/-! ### C26: `insert(pos, value)` -/

/-- C26: `insert(pos, b)` puts `b` before position `d`, keeps the order of the others and returns an iterator to the new element.
`_partial`: on 32- and 64-bit words the vector must not end up with exactly one word from an aligned `pos` on: see `C26_exact`. -/
theorem C26_insert_partial (hw : 0 < w) (S : ShiftSem w) (P : Policy) (h : Heap w) (v : BV) (l : List Bool) (b : Bool) (pos : BitIter w)
    (d : Nat) (hwf : h.WF) (hr : Rep h v l) (hp : IsPos v pos d) (hd : d ≤ l.length)
    (hfull : ¬ (d % w = 0 ∧ l.length + 1 - d = w ∧ 1 < w) ∨ S.FullShiftOk) :
    ∃ v' it h', v.insert S P pos b h = .ok ((v', it), h') ∧ VStep h v.vec h' v'.vec ∧ Rep h' v' (l.take d ++ [b] ++ l.drop d) ∧
      IsPos v' it d := by
  obtain ⟨⟨v', it⟩, h', e, q⟩ := wpV_insert S hw hwf hr hp hd hfull
    (Q := fun r h' => VStep h v.vec h' r.1.vec ∧ Rep h' r.1 (l.take d ++ [b] ++ l.drop d) ∧ IsPos r.1 r.2 d) fun _ _ _ s r i => ⟨s, r, i⟩
  exact ⟨v', it, h', e, q⟩

/-- C26 in full for word types narrower than `int` (and machines where a full shift gives 0). -/
theorem C26_insert_promoted (hw : 0 < w) (S : ShiftSem w) (hS : S.FullShiftOk) (P : Policy) (h : Heap w) (v : BV) (l : List Bool) (b : Bool)
    (pos : BitIter w) (d : Nat) (hwf : h.WF) (hr : Rep h v l) (hp : IsPos v pos d) (hd : d ≤ l.length) :
    ∃ v' it h', v.insert S P pos b h = .ok ((v', it), h') ∧ VStep h v.vec h' v'.vec ∧ Rep h' v' (l.take d ++ [b] ++ l.drop d) ∧
      IsPos v' it d := C26_insert_partial hw S P h v l b pos d hwf hr hp hd (.inr hS)

/-- C26, exactly when `insert` is undefined for word types that are not promoted. -/
theorem C26_exact (hw : 0 < w) (P : Policy) (h : Heap w) (v : BV) (l : List Bool) (b : Bool) (pos : BitIter w)
    (d : Nat) (hwf : h.WF) (hr : Rep h v l) (hp : IsPos v pos d) (hd : d ≤ l.length) :
    v.insert (Unpromoted w) P pos b h = .error (.ub .overshift) ↔ (d % w = 0 ∧ l.length + 1 - d = w ∧ 1 < w) := by
  constructor
  · intro he
    by_contra hc
    obtain ⟨v', it, h', e, -⟩ := C26_insert_partial hw (Unpromoted w) P h v l b pos d hwf hr hp hd (.inl hc)
    rw [he] at e; simp at e
  · rintro ⟨h1, h2, h3⟩
    exact failsV_insert hw hwf hr hp hd h1 h2 h3

/-- C26 fails for `uint32_t` and `uint64_t`: inserting at the front of a vector of 31 (63) bits is undefined, with every allocator. -/
theorem C26_refuted (P : Policy) (b : Bool) :
    (BV.ofCount P 31 >>= fun v => v.insert S32 P v.begin b) emptyHeap = .error (.ub .overshift) ∧
    (BV.ofCount P 63 >>= fun v => v.insert S64 P v.begin b) emptyHeap = .error (.ub .overshift) := by
  constructor
  · refine failsV_bind (wpV_ofCount (by decide) emptyHeap_wf (by decide) fun v h s r => ?_)
    exact failsV_insert (w := 32) (d := 0) (by decide) s.wf r ⟨BV.begin_valid (by decide) v, by rw [BV.begin_addr]; omega⟩ (Nat.zero_le _)
      (by decide) (by decide) (by decide)
  · refine failsV_bind (wpV_ofCount (by decide) emptyHeap_wf (by decide) fun v h s r => ?_)
    exact failsV_insert (w := 64) (d := 0) (by decide) s.wf r ⟨BV.begin_valid (by decide) v, by rw [BV.begin_addr]; omega⟩ (Nat.zero_le _)
      (by decide) (by decide) (by decide)

theorem exPos (d : Nat) : IsPos exV ((exV.begin : BitIter 8).add d) d := IsPos.begin_add (by decide) exV d

example : S8.FullShiftOk ∧ IsPos exV ((exV.begin : BitIter 8).add (3 : Nat)) 3 ∧ 3 ≤ exL.length :=
  ⟨.inl (by decide), exPos 3, by decide⟩

/-! ### C27: `insert(pos, count, value)` -/

/-- C27: `insert(pos, n, b)` puts `n` copies of `b` before position `d`.
`_partial`: the sizes must be computed correctly in single precision (`FloatOk`), and the full-word shift is excluded as in C26. -/
theorem C27_insert_count_partial (hw : 0 < w) (S : ShiftSem w) (P : Policy) (h : Heap w) (v : BV) (l : List Bool) (b : Bool)
    (pos : BitIter w) (d n : Nat) (hwf : h.WF) (hr : Rep h v l) (hp : IsPos v pos d) (hd : d ≤ l.length)
    (hfl : FloatOk w v.vec.size l.length n) (hfull : ¬ (d % w = 0 ∧ l.length + n - d = w ∧ n < w) ∨ S.FullShiftOk) :
    ∃ v' it h', v.insertN S P pos n b h = .ok ((v', it), h') ∧ VStep h v.vec h' v'.vec ∧
      Rep h' v' (l.take d ++ List.replicate n b ++ l.drop d) ∧ IsPos v' it d := by
  obtain ⟨⟨v', it⟩, h', e, q⟩ := wpV_insertN S hw hwf hr hp hd hfl hfull
    (Q := fun r h' => VStep h v.vec h' r.1.vec ∧ Rep h' r.1 (l.take d ++ List.replicate n b ++ l.drop d) ∧ IsPos r.1 r.2 d)
    fun _ _ _ s r i => ⟨s, r, i⟩
  exact ⟨v', it, h', e, q⟩

/-- C27 for vectors of at most `2^24` bits. -/
theorem C27_insert_count_small_partial (hw : 0 < w) (S : ShiftSem w) (P : Policy) (h : Heap w) (v : BV) (l : List Bool) (b : Bool)
    (pos : BitIter w) (d n : Nat) (hwf : h.WF) (hr : Rep h v l) (hp : IsPos v pos d) (hd : d ≤ l.length)
    (hsmall : l.length + n ≤ 2 ^ 24) (hfull : ¬ (d % w = 0 ∧ l.length + n - d = w ∧ n < w) ∨ S.FullShiftOk) :
    ∃ v' it h', v.insertN S P pos n b h = .ok ((v', it), h') ∧ VStep h v.vec h' v'.vec ∧
      Rep h' v' (l.take d ++ List.replicate n b ++ l.drop d) ∧ IsPos v' it d :=
  C27_insert_count_partial hw S P h v l b pos d n hwf hr hp hd (floatOk_small hw hsmall) hfull

/-- C27, exactly when small vectors of unpromoted words fail. -/
theorem C27_exact_small (hw : 0 < w) (P : Policy) (h : Heap w) (v : BV) (l : List Bool) (b : Bool) (pos : BitIter w)
    (d n : Nat) (hwf : h.WF) (hr : Rep h v l) (hp : IsPos v pos d) (hd : d ≤ l.length) (hsmall : l.length + n ≤ 2 ^ 24) (hn : 0 < n) :
    v.insertN (Unpromoted w) P pos n b h = .error (.ub .overshift) ↔ (d % w = 0 ∧ l.length + n - d = w ∧ n < w) := by
  constructor
  · intro he
    by_contra hc
    obtain ⟨v', it, h', e, -⟩ := C27_insert_count_small_partial hw (Unpromoted w) P h v l b pos d n hwf hr hp hd hsmall (.inl hc)
    rw [he] at e; simp at e
  · rintro ⟨h1, h2, h3⟩
    exact failsV_insertN hw hwf hr hp hd (floatOk_small hw hsmall) hn h1 h2 h3

/-- C27, exactly when `insert(pos, n, b)` does its work on unpromoted words, for vectors of every size: single precision must be enough
(`FloatOk`), and the elements from an aligned `pos` on must not become exactly one word. -/
theorem C27_exact (hw : 0 < w) (P : Policy) (h : Heap w) (v : BV) (l : List Bool) (b : Bool) (pos : BitIter w)
    (d n : Nat) (hwf : h.WF) (hr : Rep h v l) (hp : IsPos v pos d) (hd : d ≤ l.length) (hn : 0 < n) :
    (∃ v' it h', v.insertN (Unpromoted w) P pos n b h = .ok ((v', it), h') ∧ Rep h' v' (l.take d ++ List.replicate n b ++ l.drop d) ∧
      IsPos v' it d) ↔ FloatOk w v.vec.size l.length n ∧ ¬ (d % w = 0 ∧ l.length + n - d = w ∧ n < w) := by
  constructor
  · rintro ⟨v', it, h', e, r, -⟩
    have hfl := insertN_float hn e r.fit
    rw [hr.len] at hfl
    refine ⟨hfl, ?_⟩
    rintro ⟨h1, h2, h3⟩
    rw [show v.insertN (Unpromoted w) P pos n b h = _ from failsV_insertN hw hwf hr hp hd hfl hn h1 h2 h3] at e
    simp at e
  · rintro ⟨h1, h2⟩
    obtain ⟨v', it, h', e, -, r, i⟩ := C27_insert_count_partial hw (Unpromoted w) P h v l b pos d n hwf hr hp hd h1 (.inl h2)
    exact ⟨v', it, h', e, r, i⟩

/-- C27, exactly when `insert(pos, n, b)` does its work on words narrower than `int`. -/
theorem C27_exact_promoted (hw : 0 < w) (S : ShiftSem w) (hS : S.FullShiftOk) (P : Policy) (h : Heap w) (v : BV) (l : List Bool) (b : Bool)
    (pos : BitIter w) (d n : Nat) (hwf : h.WF) (hr : Rep h v l) (hp : IsPos v pos d) (hd : d ≤ l.length) (hn : 0 < n) :
    (∃ v' it h', v.insertN S P pos n b h = .ok ((v', it), h') ∧ Rep h' v' (l.take d ++ List.replicate n b ++ l.drop d) ∧
      IsPos v' it d) ↔ FloatOk w v.vec.size l.length n := by
  constructor
  · rintro ⟨v', it, h', e, r, -⟩
    have hfl := insertN_float hn e r.fit
    rw [hr.len] at hfl
    exact hfl
  · intro h1
    obtain ⟨v', it, h', e, -, r, i⟩ := C27_insert_count_partial hw S P h v l b pos d n hwf hr hp hd h1 (.inr hS)
    exact ⟨v', it, h', e, r, i⟩

/-- A fresh vector of `2^24` zero bits: all words are in use and the word after them is not there. -/
theorem ofCount_2_24 (hw : 0 < w) (hdvd : w ∣ 2 ^ 24) (P : Policy) (h : Heap w) (hwf : h.WF) :
    ∃ v h', BV.ofCount P (2 ^ 24) h = .ok (v, h') ∧ v.length = 2 ^ 24 ∧ v.vec.size * w = 2 ^ 24 ∧
      h'.mem (v.vec.ptr + (v.vec.size : Int)) = none ∧ ∀ a, a < h.next → h'.mem a = h.mem a := by
  refine ⟨_, _, rfl, rfl, ?_, ?_, ?_⟩
  · show wordCount w (2 ^ 24) * w = 2 ^ 24
    unfold wordCount
    obtain ⟨k, hk⟩ := hdvd
    rw [show 2 ^ 24 % 2 ^ 32 = 2 ^ 24 by decide, hk, show w * k + w - 1 = (w - 1) + w * k by omega, Nat.add_mul_div_left _ _ hw,
      Nat.div_eq_of_lt (by omega), Nat.zero_add, Nat.mul_comm]
  · have hz : ∀ a : Int, h.next ≤ a → h.mem a = none := by
      intro a ha
      have := hwf.unused (a * (w : Int)) (Int.mul_le_mul_of_nonneg_right ha (by omega))
      unfold bitAt at this
      rw [Int.mul_ediv_cancel _ (by omega)] at this
      exact Option.map_eq_none_iff.1 this
    dsimp only
    unfold Mem.place
    rw [if_neg (by omega)]
    exact hz _ (by omega)
  · intro a ha
    dsimp only
    unfold Mem.place
    rw [if_neg (by omega)]

/-- C27 fails above `2^24` bits for every usual width (any `w > 1` dividing `2^24`), every shift semantics and every allocator:
appending one bit to `bit_vector(2^24)` with `insert(end(), 1, b)` writes past the end of the storage. -/
theorem C27_refuted_large (hw : 1 < w) (hdvd : w ∣ 2 ^ 24) (S : ShiftSem w) (P : Policy) (b : Bool) (h : Heap w) (hwf : h.WF) :
    (BV.ofCount P (2 ^ 24) >>= fun v => v.insertN S P v.end 1 b) h = .error (.ub .outOfBounds) := by
  obtain ⟨v, h', e, h1, h2, h3, -⟩ := ofCount_2_24 (by omega) hdvd P h hwf
  refine failsV_bind ⟨v, h', e, ?_⟩
  refine failsV_insertN_float S hw h1 h2 ?_ h3
  rw [← h1]
  exact IsPos.begin_add (by omega) v _

/-- C27 fails for 32- and 64-bit words on small vectors too. -/
theorem C27_refuted_word (P : Policy) (b : Bool) :
    (BV.ofCount P 20 >>= fun v => v.insertN S32 P v.begin 12 b) emptyHeap = .error (.ub .overshift) ∧
    (BV.ofCount P 20 >>= fun v => v.insertN S64 P v.begin 44 b) emptyHeap = .error (.ub .overshift) := by
  constructor
  · refine failsV_bind (wpV_ofCount (by decide) emptyHeap_wf (by decide) fun v h s r => ?_)
    exact failsV_insertN (w := 32) (d := 0) (by decide) s.wf r ⟨BV.begin_valid (by decide) v, by rw [BV.begin_addr]; omega⟩ (Nat.zero_le _)
      (floatOk_small (by decide) (by decide)) (by decide) (by decide) (by decide) (by decide)
  · refine failsV_bind (wpV_ofCount (by decide) emptyHeap_wf (by decide) fun v h s r => ?_)
    exact failsV_insertN (w := 64) (d := 0) (by decide) s.wf r ⟨BV.begin_valid (by decide) v, by rw [BV.begin_addr]; omega⟩ (Nat.zero_le _)
      (floatOk_small (by decide) (by decide)) (by decide) (by decide) (by decide) (by decide)

example : IsPos exV ((exV.begin : BitIter 8).add (3 : Nat)) 3 ∧ exL.length + 20 ≤ 2 ^ 24 ∧ S8.FullShiftOk :=
  ⟨exPos 3, by decide, .inl (by decide)⟩
example : FloatOk 8 exV.vec.size exL.length 20 := floatOk_small (by decide) (by decide)
example : (1 : Nat) < 64 ∧ 64 ∣ 2 ^ 24 ∧ (emptyHeap : Heap 64).WF := ⟨by decide, by decide, emptyHeap_wf⟩

/-! ### C28: `insert(pos, first, last)` -/

/-- C28: `insert(pos, first, last)` puts the bits of the range before position `d`. `_partial`: as for C27. -/
theorem C28_insert_range_partial (hw : 0 < w) (S : ShiftSem w) (P : Policy) (h : Heap w) (v : BV) (l s : List Bool)
    (pos first last : BitIter w) (d : Nat) (hwf : h.WF) (hr : Rep h v l) (hp : IsPos v pos d) (hd : d ≤ l.length)
    (hs : HoldsSeq h first last s) (hout : Outside v.vec first last)
    (hfl : FloatOk w v.vec.size l.length s.length) (hfull : ¬ (d % w = 0 ∧ l.length + s.length - d = w ∧ s.length < w) ∨ S.FullShiftOk) :
    ∃ v' it h', v.insertRange S P pos first last h = .ok ((v', it), h') ∧ VStep h v.vec h' v'.vec ∧
      Rep h' v' (l.take d ++ s ++ l.drop d) ∧ IsPos v' it d := by
  obtain ⟨⟨v', it⟩, h', e, q⟩ := wpV_insertRange S hw hwf hr hp hd hs hout hfl hfull
    (Q := fun r h' => VStep h v.vec h' r.1.vec ∧ Rep h' r.1 (l.take d ++ s ++ l.drop d) ∧ IsPos r.1 r.2 d)
    fun _ _ _ s r i => ⟨s, r, i⟩
  exact ⟨v', it, h', e, q⟩

/-- C28 for vectors of at most `2^24` bits. -/
theorem C28_insert_range_small_partial (hw : 0 < w) (S : ShiftSem w) (P : Policy) (h : Heap w) (v : BV) (l s : List Bool)
    (pos first last : BitIter w) (d : Nat) (hwf : h.WF) (hr : Rep h v l) (hp : IsPos v pos d) (hd : d ≤ l.length)
    (hs : HoldsSeq h first last s) (hout : Outside v.vec first last) (hsmall : l.length + s.length ≤ 2 ^ 24)
    (hfull : ¬ (d % w = 0 ∧ l.length + s.length - d = w ∧ s.length < w) ∨ S.FullShiftOk) :
    ∃ v' it h', v.insertRange S P pos first last h = .ok ((v', it), h') ∧ VStep h v.vec h' v'.vec ∧
      Rep h' v' (l.take d ++ s ++ l.drop d) ∧ IsPos v' it d :=
  C28_insert_range_partial hw S P h v l s pos first last d hwf hr hp hd hs hout (floatOk_small hw hsmall) hfull

/-- C28, exactly when small vectors of unpromoted words fail. -/
theorem C28_exact_small (hw : 0 < w) (P : Policy) (h : Heap w) (v : BV) (l s : List Bool) (pos first last : BitIter w)
    (d : Nat) (hwf : h.WF) (hr : Rep h v l) (hp : IsPos v pos d) (hd : d ≤ l.length) (hs : HoldsSeq h first last s)
    (hout : Outside v.vec first last) (hsmall : l.length + s.length ≤ 2 ^ 24) (hne : s ≠ []) :
    v.insertRange (Unpromoted w) P pos first last h = .error (.ub .overshift) ↔
      (d % w = 0 ∧ l.length + s.length - d = w ∧ s.length < w) := by
  constructor
  · intro he
    by_contra hc
    obtain ⟨v', it, h', e, -⟩ :=
      C28_insert_range_small_partial hw (Unpromoted w) P h v l s pos first last d hwf hr hp hd hs hout hsmall (.inl hc)
    rw [he] at e; simp at e
  · rintro ⟨h1, h2, h3⟩
    exact failsV_insertRange hw hwf hr hp hd hs (floatOk_small hw hsmall) hne h1 h2 h3

/-- C28, exactly when `insert(pos, first, last)` does its work on unpromoted words, for vectors of every size. -/
theorem C28_exact (hw : 0 < w) (P : Policy) (h : Heap w) (v : BV) (l s : List Bool) (pos first last : BitIter w)
    (d : Nat) (hwf : h.WF) (hr : Rep h v l) (hp : IsPos v pos d) (hd : d ≤ l.length) (hs : HoldsSeq h first last s)
    (hout : Outside v.vec first last) (hne : s ≠ []) :
    (∃ v' it h', v.insertRange (Unpromoted w) P pos first last h = .ok ((v', it), h') ∧ Rep h' v' (l.take d ++ s ++ l.drop d) ∧
      IsPos v' it d) ↔ FloatOk w v.vec.size l.length s.length ∧ ¬ (d % w = 0 ∧ l.length + s.length - d = w ∧ s.length < w) := by
  constructor
  · rintro ⟨v', it, h', e, r, -⟩
    have hfl := insertRange_float (List.length_pos_iff.2 hne) hs.len e r.fit
    rw [hr.len] at hfl
    refine ⟨hfl, ?_⟩
    rintro ⟨h1, h2, h3⟩
    rw [show v.insertRange (Unpromoted w) P pos first last h = _ from failsV_insertRange hw hwf hr hp hd hs hfl hne h1 h2 h3] at e
    simp at e
  · rintro ⟨h1, h2⟩
    obtain ⟨v', it, h', e, -, r, i⟩ :=
      C28_insert_range_partial hw (Unpromoted w) P h v l s pos first last d hwf hr hp hd hs hout h1 (.inl h2)
    exact ⟨v', it, h', e, r, i⟩

/-- C28, exactly when `insert(pos, first, last)` does its work on words narrower than `int`. -/
theorem C28_exact_promoted (hw : 0 < w) (S : ShiftSem w) (hS : S.FullShiftOk) (P : Policy) (h : Heap w) (v : BV) (l s : List Bool)
    (pos first last : BitIter w) (d : Nat) (hwf : h.WF) (hr : Rep h v l) (hp : IsPos v pos d) (hd : d ≤ l.length)
    (hs : HoldsSeq h first last s) (hout : Outside v.vec first last) (hne : s ≠ []) :
    (∃ v' it h', v.insertRange S P pos first last h = .ok ((v', it), h') ∧ Rep h' v' (l.take d ++ s ++ l.drop d) ∧
      IsPos v' it d) ↔ FloatOk w v.vec.size l.length s.length := by
  constructor
  · rintro ⟨v', it, h', e, r, -⟩
    have hfl := insertRange_float (List.length_pos_iff.2 hne) hs.len e r.fit
    rw [hr.len] at hfl
    exact hfl
  · intro h1
    obtain ⟨v', it, h', e, -, r, i⟩ := C28_insert_range_partial hw S P h v l s pos first last d hwf hr hp hd hs hout h1 (.inr hS)
    exact ⟨v', it, h', e, r, i⟩

/-- C28 fails above `2^24` bits, for every usual width: inserting a one-bit range at the end of `bit_vector(2^24)`. -/
theorem C28_refuted_large (hw : 1 < w) (hdvd : w ∣ 2 ^ 24) (S : ShiftSem w) (P : Policy) (h : Heap w) (hwf : h.WF)
    (first last : BitIter w) (x : Bool) (hs : HoldsSeq h first last [x]) :
    (BV.ofCount P (2 ^ 24) >>= fun v => v.insertRange S P v.end first last) h = .error (.ub .outOfBounds) := by
  obtain ⟨v, h', e, h1, h2, h3, h4⟩ := ofCount_2_24 (by omega) hdvd P h hwf
  refine failsV_bind ⟨v, h', e, ?_⟩
  refine failsV_insertRange_float (x := x) S hw h1 h2 ?_ ⟨hs.validFirst, hs.validLast, hs.len, ?_⟩ h3
  · rw [← h1]
    exact IsPos.begin_add (by omega) v _
  · intro i hi
    have hb := hs.bits i hi
    rw [← hb]
    unfold bitAt
    rw [h4]
    by_contra hc
    have := hwf.unused (first.addr + (i : Int)) (by
      have h5 : h.next ≤ (first.addr + (i : Int)) / (w : Int) := by omega
      have h6 := Int.ediv_mul_le (first.addr + (i : Int)) (b := (w : Int)) (by omega)
      have h7 := Int.mul_le_mul_of_nonneg_right h5 (show (0 : Int) ≤ (w : Int) by omega)
      omega)
    rw [hb] at this; simp at this

/-- The bits 2, 3 and 4 of the first word of `exH`, as a range for insertion into an empty vector. -/
example : HoldsSeq exH ⟨0, 2⟩ ⟨0, 5⟩ [true, false, false] ∧ Outside BV.default.vec (⟨0, 2⟩ : BitIter 8) ⟨0, 5⟩ ∧ Rep exH BV.default [] :=
  ⟨⟨by decide, by decide, by decide, by decide⟩, Or.inr (.inl rfl), (wpV_default exH_wf).2⟩
example : HoldsSeq exH ⟨0, 2⟩ ⟨0, 3⟩ [true] := ⟨by decide, by decide, by decide, by decide⟩

/-! ### C29: `erase(pos)` -/

/-- C29: `erase(pos)` removes exactly the element at position `d` and returns an iterator to the next one.
`_partial`: on 32- and 64-bit words the elements from an aligned `pos` on must not be exactly one word: see `C29_exact`. -/
theorem C29_erase_partial (hw : 0 < w) (S : ShiftSem w) (h : Heap w) (v : BV) (l : List Bool) (pos : BitIter w) (d : Nat)
    (hwf : h.WF) (hr : Rep h v l) (hp : IsPos v pos d) (hd : d < l.length)
    (hfull : ¬ (d % w = 0 ∧ l.length - d = w ∧ 1 < w) ∨ S.FullShiftOk) :
    ∃ v' it h', v.erase S pos h = .ok ((v', it), h') ∧ VStep h v.vec h' v'.vec ∧ Rep h' v' (l.take d ++ l.drop (d + 1)) ∧ IsPos v' it d := by
  obtain ⟨⟨v', it⟩, h', e, q⟩ := wpV_erase S hw hwf hr hp hd hfull
    (Q := fun r h' => VStep h v.vec h' r.1.vec ∧ Rep h' r.1 (l.take d ++ l.drop (d + 1)) ∧ IsPos r.1 r.2 d) fun _ _ _ s r i => ⟨s, r, i⟩
  exact ⟨v', it, h', e, q⟩

/-- C29 in full for word types narrower than `int`. -/
theorem C29_erase_promoted (hw : 0 < w) (S : ShiftSem w) (hS : S.FullShiftOk) (h : Heap w) (v : BV) (l : List Bool) (pos : BitIter w)
    (d : Nat) (hwf : h.WF) (hr : Rep h v l) (hp : IsPos v pos d) (hd : d < l.length) :
    ∃ v' it h', v.erase S pos h = .ok ((v', it), h') ∧ VStep h v.vec h' v'.vec ∧ Rep h' v' (l.take d ++ l.drop (d + 1)) ∧ IsPos v' it d :=
  C29_erase_partial hw S h v l pos d hwf hr hp hd (.inr hS)

/-- C29, exactly when `erase` is undefined for word types that are not promoted. -/
theorem C29_exact (hw : 0 < w) (h : Heap w) (v : BV) (l : List Bool) (pos : BitIter w) (d : Nat) (hwf : h.WF) (hr : Rep h v l)
    (hp : IsPos v pos d) (hd : d < l.length) :
    v.erase (Unpromoted w) pos h = .error (.ub .overshift) ↔ (d % w = 0 ∧ l.length - d = w ∧ 1 < w) := by
  constructor
  · intro he
    by_contra hc
    obtain ⟨v', it, h', e, -⟩ := C29_erase_partial hw (Unpromoted w) h v l pos d hwf hr hp hd (.inl hc)
    rw [he] at e; simp at e
  · rintro ⟨h1, h2, h3⟩
    exact failsV_erase hw hr hp h1 h2 h3

/-- C29 fails for `uint32_t` and `uint64_t`: erasing the first element of a vector of 32 (64) bits is undefined. -/
theorem C29_refuted (P : Policy) :
    (BV.ofCount P 32 >>= fun v => v.erase S32 v.begin) emptyHeap = .error (.ub .overshift) ∧
    (BV.ofCount P 64 >>= fun v => v.erase S64 v.begin) emptyHeap = .error (.ub .overshift) := by
  constructor
  · refine failsV_bind (wpV_ofCount (by decide) emptyHeap_wf (by decide) fun v h s r => ?_)
    exact failsV_erase (w := 32) (d := 0) (by decide) r ⟨BV.begin_valid (by decide) v, by rw [BV.begin_addr]; omega⟩
      (by decide) (by decide) (by decide)
  · refine failsV_bind (wpV_ofCount (by decide) emptyHeap_wf (by decide) fun v h s r => ?_)
    exact failsV_erase (w := 64) (d := 0) (by decide) r ⟨BV.begin_valid (by decide) v, by rw [BV.begin_addr]; omega⟩
      (by decide) (by decide) (by decide)

example : IsPos exV ((exV.begin : BitIter 8).add (3 : Nat)) 3 ∧ 3 < exL.length ∧ S8.FullShiftOk := ⟨exPos 3, by decide, .inl (by decide)⟩

/-! ### C30: `erase(first, last)` -/

/-- C30: `erase(first, last)` removes exactly the positions `a` to `b - 1` and returns an iterator to position `a`.
`_partial`: fewer than `2^32` elements remain, and on 32- and 64-bit words not exactly one word from an aligned `first` on. `C30_exact`
shows that both conditions are needed. -/
theorem C30_erase_range_partial (hw : 0 < w) (S : ShiftSem w) (P : Policy) (h : Heap w) (v : BV) (l : List Bool) (first last : BitIter w)
    (a b : Nat) (hwf : h.WF) (hr : Rep h v l) (hp : IsPos v first a) (hq : IsPos v last b) (hab : a ≤ b) (hb : b ≤ l.length)
    (hlen : a = b ∨ l.length - (b - a) < 2 ^ 32) (hfull : ¬ (a % w = 0 ∧ l.length - a = w ∧ a < b ∧ b - a < w) ∨ S.FullShiftOk) :
    ∃ v' it h', v.eraseRange S P first last h = .ok ((v', it), h') ∧ VStep h v.vec h' v'.vec ∧ Rep h' v' (l.take a ++ l.drop b) ∧
      IsPos v' it a := by
  obtain ⟨⟨v', it⟩, h', e, q⟩ := wpV_eraseRange S hw hwf hr hp hq hab hb hlen hfull
    (Q := fun r h' => VStep h v.vec h' r.1.vec ∧ Rep h' r.1 (l.take a ++ l.drop b) ∧ IsPos r.1 r.2 a) fun _ _ _ s r i => ⟨s, r, i⟩
  exact ⟨v', it, h', e, q⟩

/-- The number of elements left by a non-empty `erase(first, last)` that did its work is below `2^32`. -/
theorem eraseRange_small (hw : 0 < w) (hw' : w ≤ 2 ^ 32) {S : ShiftSem w} {P : Policy} {v v' : BV} {h h' : Heap w} {l r : List Bool}
    {first last it : BitIter w} {a b : Nat} (hr : Rep h v l) (hp : IsPos v first a) (hq : IsPos v last b) (hab : a < b) (hb : b ≤ l.length)
    (e : v.eraseRange S P first last h = .ok ((v', it), h')) (hr' : Rep h' v' r) : l.length - (b - a) < 2 ^ 32 := by
  have hp2 := hp.2
  have hq2 := hq.2
  have hl := hr.len
  obtain ⟨h1, h2⟩ := eraseRange_size (n := b - a) (by omega) (by omega) (by omega) e
  have hf := hr'.fit
  rw [h1, h2, hl] at hf
  by_contra hc
  unfold wordCount at hf
  have h3 := Nat.div_mul_le_self ((l.length - (b - a)) % 2 ^ 32 + w - 1) w
  omega

/-- C30, exactly when `erase(first, last)` does its work on unpromoted words, for vectors of every size. -/
theorem C30_exact (hw : 0 < w) (hw' : w ≤ 2 ^ 32) (P : Policy) (h : Heap w) (v : BV) (l : List Bool) (first last : BitIter w)
    (a b : Nat) (hwf : h.WF) (hr : Rep h v l) (hp : IsPos v first a) (hq : IsPos v last b) (hab : a < b) (hb : b ≤ l.length) :
    (∃ v' it h', v.eraseRange (Unpromoted w) P first last h = .ok ((v', it), h') ∧ Rep h' v' (l.take a ++ l.drop b) ∧ IsPos v' it a) ↔
      l.length - (b - a) < 2 ^ 32 ∧ ¬ (a % w = 0 ∧ l.length - a = w ∧ b - a < w) := by
  constructor
  · rintro ⟨v', it, h', e, r, -⟩
    refine ⟨eraseRange_small hw hw' hr hp hq hab hb e r, ?_⟩
    rintro ⟨h1, h2, h3⟩
    rw [show v.eraseRange (Unpromoted w) P first last h = _ from failsV_eraseRange hw hr hp hq hab h1 h2 h3] at e
    simp at e
  · rintro ⟨h1, h2⟩
    obtain ⟨v', it, h', e, -, r, i⟩ := C30_erase_range_partial hw (Unpromoted w) P h v l first last a b hwf hr hp hq (by omega) hb (.inr h1)
      (.inl fun hc => h2 ⟨hc.1, hc.2.1, hc.2.2.2⟩)
    exact ⟨v', it, h', e, r, i⟩

/-- C30, exactly when `erase(first, last)` does its work on words narrower than `int`. -/
theorem C30_exact_promoted (hw : 0 < w) (hw' : w ≤ 2 ^ 32) (S : ShiftSem w) (hS : S.FullShiftOk) (P : Policy) (h : Heap w) (v : BV)
    (l : List Bool) (first last : BitIter w) (a b : Nat) (hwf : h.WF) (hr : Rep h v l) (hp : IsPos v first a) (hq : IsPos v last b)
    (hab : a < b) (hb : b ≤ l.length) :
    (∃ v' it h', v.eraseRange S P first last h = .ok ((v', it), h') ∧ Rep h' v' (l.take a ++ l.drop b) ∧ IsPos v' it a) ↔
      l.length - (b - a) < 2 ^ 32 := by
  constructor
  · rintro ⟨v', it, h', e, r, -⟩
    exact eraseRange_small hw hw' hr hp hq hab hb e r
  · intro h1
    obtain ⟨v', it, h', e, -, r, i⟩ := C30_erase_range_partial hw S P h v l first last a b hwf hr hp hq (by omega) hb (.inr h1) (.inr hS)
    exact ⟨v', it, h', e, r, i⟩

/-- C30, exactly when the over-shift happens. -/
theorem C30_exact_overshift (hw : 0 < w) (P : Policy) (h : Heap w) (v : BV) (l : List Bool) (first last : BitIter w)
    (a b : Nat) (hwf : h.WF) (hr : Rep h v l) (hp : IsPos v first a) (hq : IsPos v last b) (hab : a ≤ b) (hb : b ≤ l.length)
    (hlen : a = b ∨ l.length - (b - a) < 2 ^ 32) :
    v.eraseRange (Unpromoted w) P first last h = .error (.ub .overshift) ↔ (a % w = 0 ∧ l.length - a = w ∧ a < b ∧ b - a < w) := by
  constructor
  · intro he
    by_contra hc
    obtain ⟨v', it, h', e, -⟩ := C30_erase_range_partial hw (Unpromoted w) P h v l first last a b hwf hr hp hq hab hb hlen (.inl hc)
    rw [he] at e; simp at e
  · rintro ⟨h1, h2, h3, h4⟩
    exact failsV_eraseRange hw hr hp hq h3 h1 h2 h4

/-- C30 fails for `uint32_t` and `uint64_t`: erasing the first three elements of a vector of 32 (64) bits is undefined. -/
theorem C30_refuted (P : Policy) :
    (BV.ofCount P 32 >>= fun v => v.eraseRange S32 P v.begin (v.begin.add (3 : Nat))) emptyHeap = .error (.ub .overshift) ∧
    (BV.ofCount P 64 >>= fun v => v.eraseRange S64 P v.begin (v.begin.add (3 : Nat))) emptyHeap = .error (.ub .overshift) := by
  constructor
  · refine failsV_bind (wpV_ofCount (by decide) emptyHeap_wf (by decide) fun v h s r => ?_)
    exact failsV_eraseRange (w := 32) (a := 0) (b := 3) (by decide) r ⟨BV.begin_valid (by decide) v, by rw [BV.begin_addr]; omega⟩
      (IsPos.begin_add (by decide) v 3) (by decide) (by decide) (by decide) (by decide)
  · refine failsV_bind (wpV_ofCount (by decide) emptyHeap_wf (by decide) fun v h s r => ?_)
    exact failsV_eraseRange (w := 64) (a := 0) (b := 3) (by decide) r ⟨BV.begin_valid (by decide) v, by rw [BV.begin_addr]; omega⟩
      (IsPos.begin_add (by decide) v 3) (by decide) (by decide) (by decide) (by decide)

example : IsPos exV ((exV.begin : BitIter 8).add (2 : Nat)) 2 ∧ IsPos exV ((exV.begin : BitIter 8).add (9 : Nat)) 9 ∧ 9 ≤ exL.length ∧
    exL.length - (9 - 2) < 2 ^ 32 ∧ S8.FullShiftOk := ⟨exPos 2, exPos 9, by decide, by decide, .inl (by decide)⟩

end BitLib
