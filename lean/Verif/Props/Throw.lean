import Verif.Lemmas.Throw
import Verif.Props.Programs
/-
C71, C73, C74: `bit_vector` when the allocator refuses.

`Obj.f … (h, v)` runs the member `f` on the vector `v` in the heap `h`. A run that throws `e` and leaves heap and vector as they were is
`.ok (.error e, (h, v))`. `Refused A h.next n cap e`: the request for `n` words is refused with exception `e`.
-/
namespace BitLib
variable {w : Nat}

theorem runUnit_of {f : Except Halt (Except Exn Unit × (Heap w × BV))} {x : Except Stop (BV × Heap w)} {Q : BV → Heap w → Prop}
    (hf : f = Obj.asUnit x) (hx : ∃ v' h', x = .ok (v', h') ∧ Q v' h') : ∃ h' v', f = .ok (.ok (), (h', v')) ∧ Q v' h' := by
  obtain ⟨v', h', e, q⟩ := hx
  exact ⟨h', v', by rw [hf, e]; rfl, q⟩

theorem runObj_of {α : Type} {f : Except Halt (Except Exn α × (Heap w × BV))} {x : Except Stop ((BV × α) × Heap w)} {Q : BV → α → Heap w → Prop}
    (hf : f = Obj.asObj x) (hx : ∃ p h', x = .ok (p, h') ∧ Q p.1 p.2 h') : ∃ h' v' a, f = .ok (.ok a, (h', v')) ∧ Q v' a h' := by
  obtain ⟨⟨v', a⟩, h', e, q⟩ := hx
  exact ⟨h', v', a, by rw [hf, e]; rfl, q⟩

theorem runV_ok {α : Type} {x : V w α} {h : Heap w} {Q : α → Heap w → Prop} (hx : wpV x h Q) : ∃ a h', x h = .ok (a, h') ∧ Q a h' := hx

theorem distance_begin {v : BV} {h : Heap w} {pos : BitIter w} {d : Nat} (hp : IsPos v pos d) :
    distance v.begin pos h.mem = .ok ((d : Int), h.mem) := by
  have := (wp_distance (w := w) (first := v.begin) (last := pos) (m := h.mem) (Q := fun x m => x = (d : Int) ∧ m = h.mem)).2
    ⟨by rw [BV.begin_addr]; have := hp.2; omega, by rw [BV.begin_addr]; have := hp.2; omega, rfl⟩
  obtain ⟨x, m, e, rfl, rfl⟩ := this
  exact e

theorem distance_seq {h : Heap w} {first last : BitIter w} {s : List Bool} (hs : HoldsSeq h first last s) :
    distance first last h.mem = .ok ((s.length : Int), h.mem) := by
  have := (wp_distance (w := w) (first := first) (last := last) (m := h.mem) (Q := fun x m => x = (s.length : Int) ∧ m = h.mem)).2
    ⟨by have := hs.len; omega, by have := hs.len; omega, rfl⟩
  obtain ⟨x, m, e, rfl, rfl⟩ := this
  exact e

theorem Refused.kind {A : Alloc} {next : Int} {n cap : Nat} {e : Exn} (h : Refused A next n cap e) : e = .badAlloc ∨ e = .lengthError := by
  rcases h with ⟨_, h⟩ | ⟨_, _, h⟩
  · exact .inr h
  · exact .inl h

/-! ### C71: a member call that throws changes nothing -/

/-- C71, `push_back`: the call throws exactly if the vector is full and the request for one more word is refused, and then nothing has
changed; else it appends the value. -/
theorem C71_push_back (hw : 0 < w) (S : ShiftSem w) (A : Alloc) (P : Policy) (h : Heap w) (v : BV) (l : List Bool) (b : Bool)
    (hwf : h.WF) (hr : Rep h v l) :
    (∀ e, l.length = v.capacity w → Refused A h.next (v.vec.cap + 1) (P.grow v.vec.cap (v.vec.cap + 1)) e →
      Obj.pushBack S A P b (h, v) = .ok (.error e, (h, v))) ∧
    (¬ (l.length = v.capacity w ∧ ∃ e, Refused A h.next (v.vec.cap + 1) (P.grow v.vec.cap (v.vec.cap + 1)) e) →
      ∃ h' v', Obj.pushBack S A P b (h, v) = .ok (.ok (), (h', v')) ∧ VStep h v.vec h' v'.vec ∧ Rep h' v' (l ++ [b])) := by
  have ht := Obj.pushBack_tries S A P h v b
  rw [Obj.needOne_eq hw hr] at ht
  obtain ⟨h1, h2⟩ := ht.exact
  exact ⟨h1, fun hc => runUnit_of (h2 hc) (runV_ok (wpV_push S hw hwf hr fun _ _ s r => ⟨s, r⟩))⟩

/-- C72, `insert(pos, value)`. -/
theorem C72_insert_partial (hw : 0 < w) (S : ShiftSem w) (A : Alloc) (P : Policy) (h : Heap w) (v : BV) (l : List Bool) (b : Bool)
    (pos : BitIter w) (d : Nat) (hwf : h.WF) (hr : Rep h v l) (hp : IsPos v pos d) (hd : d ≤ l.length)
    (hfull : ¬ (d % w = 0 ∧ l.length + 1 - d = w ∧ 1 < w) ∨ S.FullShiftOk) :
    (∀ e, l.length = v.capacity w → Refused A h.next (v.vec.cap + 1) (P.grow v.vec.cap (v.vec.cap + 1)) e →
      Obj.insert S A P pos b (h, v) = .ok (.error e, (h, v))) ∧
    (¬ (l.length = v.capacity w ∧ ∃ e, Refused A h.next (v.vec.cap + 1) (P.grow v.vec.cap (v.vec.cap + 1)) e) →
      ∃ h' v' it, Obj.insert S A P pos b (h, v) = .ok (.ok it, (h', v')) ∧ VStep h v.vec h' v'.vec ∧
        Rep h' v' (l.take d ++ [b] ++ l.drop d) ∧ IsPos v' it d) := by
  have ht := Obj.insert_tries S A P h v pos b (distance_begin hp)
  rw [Obj.needOne_eq hw hr] at ht
  obtain ⟨h1, h2⟩ := ht.exact
  exact ⟨h1, fun hc => runObj_of (h2 hc) (runV_ok (wpV_insert S hw hwf hr hp hd hfull fun _ _ _ s r i => ⟨s, r, i⟩))⟩

/-- C72, `insert(pos, count, value)`: it throws exactly if the new size exceeds the capacity and the request is refused. -/
theorem C72_insert_count_partial (hw : 0 < w) (S : ShiftSem w) (A : Alloc) (P : Policy) (h : Heap w) (v : BV) (l : List Bool) (b : Bool)
    (pos : BitIter w) (d n : Nat) (hwf : h.WF) (hr : Rep h v l) (hp : IsPos v pos d) (hd : d ≤ l.length) (hn : l.length + n ≤ 2 ^ 24)
    (hfull : ¬ (d % w = 0 ∧ l.length + n - d = w ∧ n < w) ∨ S.FullShiftOk) :
    (∀ e, v.capacity w < l.length + n →
      Refused A h.next (wordCount w (l.length + n)) (P.grow v.vec.cap (wordCount w (l.length + n))) e →
      Obj.insertN S A P pos n b (h, v) = .ok (.error e, (h, v))) ∧
    (¬ (v.capacity w < l.length + n ∧
        ∃ e, Refused A h.next (wordCount w (l.length + n)) (P.grow v.vec.cap (wordCount w (l.length + n))) e) →
      ∃ h' v' it, Obj.insertN S A P pos n b (h, v) = .ok (.ok it, (h', v')) ∧ VStep h v.vec h' v'.vec ∧
        Rep h' v' (l.take d ++ List.replicate n b ++ l.drop d) ∧ IsPos v' it d) := by
  have ht := Obj.insertN_tries S A P h v pos n b (distance_begin hp)
  have e0 : (if n = 0 then none else Obj.needGrow P w v n) = Obj.needGrow P w v n := by
    by_cases h0 : n = 0
    · rw [if_pos h0, Obj.needGrow_eq hw hr hn, if_neg]
      have h1 := hr.fit
      have h2 := Nat.mul_le_mul_right w hr.ok.cap
      rw [hr.len] at h1
      unfold BV.capacity
      omega
    · rw [if_neg h0]
  rw [e0, Obj.needGrow_eq hw hr hn] at ht
  obtain ⟨h1, h2⟩ := ht.exact
  exact ⟨h1, fun hc => runObj_of (h2 hc)
    (runV_ok (wpV_insertN S hw hwf hr hp hd (floatOk_small hw hn) hfull fun _ _ _ s r i => ⟨s, r, i⟩))⟩

/-- C72, `insert(pos, first, last)`. -/
theorem C72_insert_range_partial (hw : 0 < w) (S : ShiftSem w) (A : Alloc) (P : Policy) (h : Heap w) (v : BV) (l s : List Bool)
    (pos first last : BitIter w) (d : Nat) (hwf : h.WF) (hr : Rep h v l) (hp : IsPos v pos d) (hd : d ≤ l.length)
    (hs : HoldsSeq h first last s) (hout : Outside v.vec first last) (hn : l.length + s.length ≤ 2 ^ 24)
    (hfull : ¬ (d % w = 0 ∧ l.length + s.length - d = w ∧ s.length < w) ∨ S.FullShiftOk) :
    (∀ e, v.capacity w < l.length + s.length →
      Refused A h.next (wordCount w (l.length + s.length)) (P.grow v.vec.cap (wordCount w (l.length + s.length))) e →
      Obj.insertRange S A P pos first last (h, v) = .ok (.error e, (h, v))) ∧
    (¬ (v.capacity w < l.length + s.length ∧
        ∃ e, Refused A h.next (wordCount w (l.length + s.length)) (P.grow v.vec.cap (wordCount w (l.length + s.length))) e) →
      ∃ h' v' it, Obj.insertRange S A P pos first last (h, v) = .ok (.ok it, (h', v')) ∧ VStep h v.vec h' v'.vec ∧
        Rep h' v' (l.take d ++ s ++ l.drop d) ∧ IsPos v' it d) := by
  have ht := Obj.insertRange_tries S A P h v pos first last (distance_begin hp) (distance_seq hs)
  rw [toSize_nat] at ht
  have e0 : (if s.length = 0 then none else Obj.needGrow P w v s.length) = Obj.needGrow P w v s.length := by
    by_cases h0 : s.length = 0
    · rw [if_pos h0, Obj.needGrow_eq hw hr hn, if_neg]
      have h1 := hr.fit
      have h2 := Nat.mul_le_mul_right w hr.ok.cap
      rw [hr.len] at h1
      unfold BV.capacity
      omega
    · rw [if_neg h0]
  rw [e0, Obj.needGrow_eq hw hr hn] at ht
  obtain ⟨h1, h2⟩ := ht.exact
  exact ⟨h1, fun hc => runObj_of (h2 hc)
    (runV_ok (wpV_insertRange S hw hwf hr hp hd hs hout (floatOk_small hw hn) hfull fun _ _ _ s r i => ⟨s, r, i⟩))⟩

/-- C71, `resize(n)`: it throws exactly if `n` exceeds the capacity and the request is refused. -/
theorem C71_resize (hw : 0 < w) (A : Alloc) (P : Policy) (h : Heap w) (v : BV) (l : List Bool) (n : Nat) (hwf : h.WF) (hr : Rep h v l)
    (hn : n < 2 ^ 32) :
    (∀ e, v.capacity w < n → Refused A h.next (wordCount w n) (P.grow v.vec.cap (wordCount w n)) e →
      Obj.resize A P n (h, v) = .ok (.error e, (h, v))) ∧
    (¬ (v.capacity w < n ∧ ∃ e, Refused A h.next (wordCount w n) (P.grow v.vec.cap (wordCount w n)) e) →
      ∃ h' v' l', Obj.resize A P n (h, v) = .ok (.ok (), (h', v')) ∧ VStep h v.vec h' v'.vec ∧ Rep h' v' l' ∧ l'.length = n ∧
        l'.take l.length = l.take n) := by
  have ht := Obj.resize_tries A P h v n
  rw [Obj.needWords_eq hw hr hn] at ht
  obtain ⟨h1, h2⟩ := ht.exact
  refine ⟨h1, fun hc => ?_⟩
  obtain ⟨v', h', l', e1, s, r1, hl1, hk⟩ := C31_resize_keeps hw P h v _ n hwf hr hn
  exact ⟨h', v', l', by rw [h2 hc, e1]; rfl, s, r1, hl1, hk⟩

/-- C71, `resize(n, value)`: it throws exactly if `n` exceeds the capacity and the request is refused; else it does what C32 says of the
call without failures. -/
theorem C71_resize_value (hw : 0 < w) (S : ShiftSem w) (A : Alloc) (P : Policy) (h : Heap w) (v : BV) (l : List Bool) (n : Nat) (b : Bool)
    (hr : Rep h v l) (hn : n < 2 ^ 32) :
    (∀ e, v.capacity w < n → Refused A h.next (wordCount w n) (P.grow v.vec.cap (wordCount w n)) e →
      Obj.resizeVal S A P n b (h, v) = .ok (.error e, (h, v))) ∧
    (¬ (v.capacity w < n ∧ ∃ e, Refused A h.next (wordCount w n) (P.grow v.vec.cap (wordCount w n)) e) →
      ∀ v' h', v.resizeVal S P n b h = .ok (v', h') → Obj.resizeVal S A P n b (h, v) = .ok (.ok (), (h', v'))) := by
  have ht := Obj.resizeVal_tries S A P h v n b
  rw [Obj.needWords_eq hw hr hn] at ht
  obtain ⟨h1, h2⟩ := ht.exact
  refine ⟨h1, fun hc v' h' e => ?_⟩
  rw [h2 hc, e]; rfl

/-- C71, `reserve(n)`. -/
theorem C71_reserve (hw : 0 < w) (A : Alloc) (P : Policy) (h : Heap w) (v : BV) (l : List Bool) (n : Nat) (hwf : h.WF) (hr : Rep h v l)
    (hn : n < 2 ^ 32) :
    (∀ e, v.capacity w < n → Refused A h.next (wordCount w n) (P.alloc (wordCount w n)) e →
      Obj.reserve A P n (h, v) = .ok (.error e, (h, v))) ∧
    (¬ (v.capacity w < n ∧ ∃ e, Refused A h.next (wordCount w n) (P.alloc (wordCount w n)) e) →
      ∃ h' v', Obj.reserve A P n (h, v) = .ok (.ok (), (h', v')) ∧ VStep h v.vec h' v'.vec ∧ Rep h' v' l ∧ n ≤ v'.capacity w ∧
        v.capacity w ≤ v'.capacity w) := by
  have ht := Obj.reserve_tries A P h v n
  have e0 : v.vec.cap < wordCount w n ↔ v.capacity w < n := by
    have := Obj.wordCount_le_iff hw (c := v.vec.cap) hn
    unfold BV.capacity
    omega
  simp only [e0] at ht
  obtain ⟨h1, h2⟩ := ht.exact
  refine ⟨h1, fun hc => runUnit_of (h2 hc) (runV_ok (wpV_reserve hw hwf hr fun _ _ s r h3 h4 => ⟨s, r, ?_, Nat.mul_le_mul_right w h4⟩))⟩
  exact (Obj.wordCount_le_iff hw hn).1 h3

/-- C71, `shrink_to_fit()`: whatever the allocator does, the elements stay; if the call throws nothing has changed. -/
theorem C71_shrink_to_fit (hw : 0 < w) (A : Alloc) (P : Policy) (h : Heap w) (v : BV) (l : List Bool) (hwf : h.WF) (hr : Rep h v l) :
    (∃ h' v', Obj.shrinkToFit A P (h, v) = .ok (.ok (), (h', v')) ∧ VStep h v.vec h' v'.vec ∧ Rep h' v' l ∧ v'.capacity w ≤ v.capacity w) ∨
    (A.grants h.next v.vec.size = false ∧ Obj.shrinkToFit A P (h, v) = .ok (.error .badAlloc, (h, v))) := by
  rcases Obj.shrinkToFit_cases A P h v with h1 | ⟨h1, h2, h3⟩
  · exact .inl (runUnit_of h1 (runV_ok (wpV_shrinkToFit hw hwf hr fun _ _ s r h3 => ⟨s, r, Nat.mul_le_mul_right w h3⟩)))
  · cases hs : A.shrinkThrows with
    | true => rw [hs] at h3; exact .inr ⟨h2, h3⟩
    | false => rw [hs] at h3; exact .inl ⟨h, v, h3, VStep.refl hwf _, hr, Nat.le_refl _⟩

/-- C71, copy assignment (also from itself): it throws exactly if the words of the source do not fit in the capacity and the request is
refused. -/
theorem C71_copy_assign (hw : 0 < w) (A : Alloc) (P : Policy) (h : Heap w) (v o : BV) (l l' : List Bool) (hwf : h.WF) (hv : Rep h v l')
    (hr : Rep h o l) :
    (∀ e, v.vec.cap < o.vec.size → Refused A h.next o.vec.size (P.alloc o.vec.size) e →
      Obj.copyAssign A P o (h, v) = .ok (.error e, (h, v))) ∧
    (¬ (v.vec.cap < o.vec.size ∧ ∃ e, Refused A h.next o.vec.size (P.alloc o.vec.size) e) →
      ∃ h' v', Obj.copyAssign A P o (h, v) = .ok (.ok (), (h', v')) ∧ VStep h v.vec h' v'.vec ∧ Rep h' v' l) := by
  obtain ⟨h1, h2⟩ := (Obj.copyAssign_tries A P h v o).exact
  exact ⟨h1, fun hc => runUnit_of (h2 hc) (runV_ok (wpV_copyAssign hw hwf hv hr fun _ _ s r => ⟨s, r⟩))⟩

/-- C71, `at(i)`: out of range it throws `std::out_of_range` and nothing has changed; else it is `v[i]`. -/
theorem C71_at (hw : 0 < w) (S : ShiftSem w) (h : Heap w) (v : BV) (l : List Bool) (i : Nat) (hr : Rep h v l) :
    (l.length ≤ i → Obj.at_ S i (h, v) = .ok (.error .outOfRange, (h, v))) ∧
    ∀ hi : i < l.length, ∃ r : BitRef w, Obj.at_ S i (h, v) = .ok (.ok r, (h, v)) ∧ r.toBool h.mem = .ok (l[i], h.mem) := by
  unfold Obj.at_
  rw [Obj.run_this]
  dsimp only
  rw [hr.len]
  constructor
  · intro hi
    rw [if_neg (by omega)]
  · intro hi
    rw [if_pos hi]
    have e := C36_get hw S h v l hr i hi
    unfold BV.get BV.index at e
    obtain ⟨r, h1, e1, e2⟩ := runV_bind_inv e
    have e3 : BitIter.index S v.begin (i : Int) = .ok r ∧ h1 = h := by
      unfold onMem lift at e1
      cases hx : BitIter.index S v.begin (i : Int) with
      | error x => rw [hx] at e1; cases e1
      | ok x => rw [hx] at e1; cases e1; exact ⟨rfl, rfl⟩
    obtain ⟨e3, rfl⟩ := e3
    refine ⟨r, ?_, ?_⟩
    · unfold Obj.onMemory lift
      rw [e3]
    · unfold onMem at e2
      cases hx : r.toBool h1.mem with
      | error x => rw [hx] at e2; cases e2
      | ok x =>
        obtain ⟨x, m⟩ := x
        rw [hx] at e2
        injection e2 with e2
        injection e2 with e4 e5
        rw [e4, show m = h1.mem from congrArg Heap.mem e5]

/-- C72: the members that shrink a vector or assign an element ask for nothing; with every allocator they do what they do without failures. -/
theorem C72_no_request_partial (hw : 0 < w) (S : ShiftSem w) (A : Alloc) (P : Policy) (h : Heap w) (v : BV) (l : List Bool)
    (hwf : h.WF) (hr : Rep h v l) :
    (l ≠ [] → ∃ h' v', Obj.popBack (h, v) = .ok (.ok (), (h', v')) ∧ VStep h v.vec h' v'.vec ∧ Rep h' v' l.dropLast) ∧
    (∀ (pos : BitIter w) (d : Nat), IsPos v pos d → d < l.length → (¬ (d % w = 0 ∧ l.length - d = w ∧ 1 < w) ∨ S.FullShiftOk) →
      ∃ h' v' it, Obj.erase S pos (h, v) = .ok (.ok it, (h', v')) ∧ VStep h v.vec h' v'.vec ∧ Rep h' v' (l.take d ++ l.drop (d + 1)) ∧
        IsPos v' it d) ∧
    (∀ (first last : BitIter w) (a b : Nat), IsPos v first a → IsPos v last b → a ≤ b → b ≤ l.length →
      (a = b ∨ l.length - (b - a) < 2 ^ 32) → (¬ (a % w = 0 ∧ l.length - a = w ∧ a < b ∧ b - a < w) ∨ S.FullShiftOk) →
      ∃ h' v' it, Obj.eraseRange S A P first last (h, v) = .ok (.ok it, (h', v')) ∧ VStep h v.vec h' v'.vec ∧
        Rep h' v' (l.take a ++ l.drop b) ∧ IsPos v' it a) ∧
    (∃ h' v', Obj.clear (h, v) = .ok (.ok (), (h', v')) ∧ VStep h v.vec h' v'.vec ∧ Rep h' v' []) ∧
    (∀ (i : Nat) (b : Bool), i < l.length →
      ∃ h', Obj.set S i b (h, v) = .ok (.ok (), (h', v)) ∧ VStep h v.vec h' v.vec ∧ Rep h' v (l.set i b)) := by
  refine ⟨fun hne => ?_, fun pos d hp hd hfull => ?_, fun first last a b hp hq hab hb hlen hfull => ?_, ?_, fun i b hi => ?_⟩
  · exact runUnit_of (Obj.popBack_eq h v) (runV_ok (wpV_pop hw hwf hr hne fun _ _ s r => ⟨s, r⟩))
  · exact runObj_of (Obj.erase_eq S h v pos) (runV_ok (wpV_erase S hw hwf hr hp hd hfull fun _ _ _ s r i => ⟨s, r, i⟩))
  · have hc : distance first last h.mem = .ok (((b - a : Nat) : Int), h.mem) := by
      have := (wp_distance (w := w) (first := first) (last := last) (m := h.mem) (Q := fun x m => x = ((b - a : Nat) : Int) ∧ m = h.mem)).2
        ⟨by have := hp.2; have := hq.2; omega, by have := hp.2; have := hq.2; omega, rfl⟩
      obtain ⟨x, m, e, rfl, rfl⟩ := this
      exact e
    have hl := hr.len
    exact runObj_of (Obj.eraseRange_eq S A P h v first last hw hr.fit hc (by omega) (by omega))
      (runV_ok (wpV_eraseRange S hw hwf hr hp hq hab hb hlen hfull fun _ _ _ s r i => ⟨s, r, i⟩))
  · exact runUnit_of (Obj.clear_eq h v) (runV_ok (wpV_clear hw hwf hr fun _ _ s r _ => ⟨s, r⟩))
  · obtain ⟨v', h', e, rfl, s, r⟩ := runV_ok (wpV_set S hw (v := v) (b := b) (Q := fun v' h' => v' = v ∧ VStep h v.vec h' v.vec ∧ Rep h' v (l.set i b)) hwf hr hi
      fun _ s r => ⟨rfl, s, r⟩)
    exact ⟨h', by rw [Obj.set_eq, e]; rfl, s, r⟩

/-- A member that makes the request `need` throws exactly if the request is refused, and then nothing has changed. -/
theorem Tries.throws_iff {α : Type} {A : Alloc} {s : Heap w × BV} {c : Prop} [Decidable c] {n cap : Nat}
    {res r : Except Halt (Except Exn α × (Heap w × BV))} (h : Tries A s (if c then some (n, cap) else Option.none) res r)
    (hr : ∀ e s', r ≠ .ok (.error e, s')) (e : Exn) (s' : Heap w × BV) :
    res = .ok (.error e, s') ↔ c ∧ Refused A s.1.next n cap e ∧ s' = s := by
  obtain ⟨h1, h2⟩ := h.exact
  constructor
  · intro he
    by_cases hc : c ∧ ∃ e, Refused A s.1.next n cap e
    · obtain ⟨h3, e', h4⟩ := hc
      rw [h1 e' h3 h4] at he
      cases he
      exact ⟨h3, h4, rfl⟩
    · rw [h2 hc] at he
      exact absurd he (hr e s')
  · rintro ⟨h3, h4, rfl⟩
    exact h1 e h3 h4

theorem asObj_returns {α : Type} (x : Except Stop ((BV × α) × Heap w)) (e : Exn) (s' : Heap w × BV) : Obj.asObj x ≠ .ok (.error e, s') := by
  rcases x with (x | x) | ⟨⟨v, a⟩, h⟩ <;> intro h <;> cases h

theorem asUnit_returns (x : Except Stop (BV × Heap w)) (e : Exn) (s' : Heap w × BV) : Obj.asUnit x ≠ .ok (.error e, s') := by
  rcases x with (x | x) | ⟨v, h⟩ <;> intro h <;> cases h

theorem Tries.unchanged {α : Type} {A : Alloc} {s s' : Heap w × BV} {need : Option (Nat × Nat)} {res r : Except Halt (Except Exn α × (Heap w × BV))}
    {e : Exn} (h : Tries A s need res r) (hr : ∀ e s', r ≠ .ok (.error e, s')) (he : res = .ok (.error e, s')) :
    s' = s ∧ (e = .badAlloc ∨ e = .lengthError) := by
  rcases h with ⟨_, _, _, _, h2, h3⟩ | ⟨_, h2⟩
  · rw [he] at h3; cases h3; exact ⟨rfl, h2.kind⟩
  · rw [he] at h2; exact absurd h2.symm (hr _ _)

/-- C71: whatever the sizes, a call that throws an allocation failure has changed neither the heap nor the vector. -/
theorem C71_unchanged (S : ShiftSem w) (A : Alloc) (P : Policy) (h : Heap w) (v : BV) (e : Exn) (s' : Heap w × BV) :
    (∀ b, Obj.pushBack S A P b (h, v) = .ok (.error e, s') → s' = (h, v) ∧ (e = .badAlloc ∨ e = .lengthError)) ∧
    (∀ pos b, Obj.insert S A P pos b (h, v) = .ok (.error e, s') → s' = (h, v) ∧ (e = .badAlloc ∨ e = .lengthError)) ∧
    (∀ pos n b, Obj.insertN S A P pos n b (h, v) = .ok (.error e, s') → s' = (h, v) ∧ (e = .badAlloc ∨ e = .lengthError)) ∧
    (∀ pos first last, Obj.insertRange S A P pos first last (h, v) = .ok (.error e, s') → s' = (h, v) ∧ (e = .badAlloc ∨ e = .lengthError)) ∧
    (∀ n, Obj.resize A P n (h, v) = .ok (.error e, s') → s' = (h, v) ∧ (e = .badAlloc ∨ e = .lengthError)) ∧
    (∀ n b, Obj.resizeVal S A P n b (h, v) = .ok (.error e, s') → s' = (h, v) ∧ (e = .badAlloc ∨ e = .lengthError)) ∧
    (∀ n, Obj.reserve A P n (h, v) = .ok (.error e, s') → s' = (h, v) ∧ (e = .badAlloc ∨ e = .lengthError)) ∧
    (∀ o, Obj.copyAssign A P o (h, v) = .ok (.error e, s') → s' = (h, v) ∧ (e = .badAlloc ∨ e = .lengthError)) := by
  have noDist : ∀ {a b : BitIter w} {x : UB}, distance a b h.mem = .error x → ∀ {β : Type} (f : Int → T w β),
      (Obj.onMemory (distance a b) >>= f) (h, v) = .error (.ub x) := by
    intro a b x hx β f
    rw [Obj.run_onMemory, hx]
  refine ⟨fun b he => ?_, fun pos b he => ?_, fun pos n b he => ?_, fun pos first last he => ?_, fun n he => ?_, fun n b he => ?_, fun n he => ?_,
    fun o he => ?_⟩
  · exact (Obj.pushBack_tries S A P h v b).unchanged (asUnit_returns _) he
  · rcases Obj.distance_cases v.begin pos with ⟨x, hx⟩ | ⟨d, hd⟩
    · unfold Obj.insert at he
      rw [Obj.run_this, noDist (hx _)] at he
      cases he
    · exact (Obj.insert_tries S A P h v pos b (hd _)).unchanged (asObj_returns _) he
  · rcases Obj.distance_cases v.begin pos with ⟨x, hx⟩ | ⟨d, hd⟩
    · unfold Obj.insertN at he
      rw [Obj.run_this, noDist (hx _)] at he
      cases he
    · exact (Obj.insertN_tries S A P h v pos n b (hd _)).unchanged (asObj_returns _) he
  · rcases Obj.distance_cases v.begin pos with ⟨x, hx⟩ | ⟨d, hd⟩
    · unfold Obj.insertRange at he
      rw [Obj.run_this, noDist (hx _)] at he
      cases he
    · rcases Obj.distance_cases first last with ⟨x, hx⟩ | ⟨c, hc⟩
      · unfold Obj.insertRange at he
        rw [Obj.run_this, Obj.run_onMemory, hd] at he
        dsimp only at he
        rw [Obj.run_onMemory, hx] at he
        cases he
      · exact (Obj.insertRange_tries S A P h v pos first last (hd _) (hc _)).unchanged (asObj_returns _) he
  · exact (Obj.resize_tries A P h v n).unchanged (asUnit_returns _) he
  · exact (Obj.resizeVal_tries S A P h v n b).unchanged (asUnit_returns _) he
  · exact (Obj.reserve_tries A P h v n).unchanged (asUnit_returns _) he
  · exact (Obj.copyAssign_tries A P h v o).unchanged (asUnit_returns _) he

/-- C71, `insert(pos, value)`: it throws exactly if the vector is full and the request for one more word is refused, and then nothing has
changed. -/
theorem C71_insert (hw : 0 < w) (S : ShiftSem w) (A : Alloc) (P : Policy) (h : Heap w) (v : BV) (l : List Bool) (b : Bool)
    (pos : BitIter w) (d : Nat) (hr : Rep h v l) (hp : IsPos v pos d) (e : Exn) (s' : Heap w × BV) :
    Obj.insert S A P pos b (h, v) = .ok (.error e, s') ↔
      l.length = v.capacity w ∧ Refused A h.next (v.vec.cap + 1) (P.grow v.vec.cap (v.vec.cap + 1)) e ∧ s' = (h, v) := by
  have ht := Obj.insert_tries S A P h v pos b (distance_begin hp)
  rw [Obj.needOne_eq hw hr] at ht
  exact ht.throws_iff (asObj_returns _) e s'

/-- C71, `insert(pos, count, value)`. -/
theorem C71_insert_count (hw : 0 < w) (S : ShiftSem w) (A : Alloc) (P : Policy) (h : Heap w) (v : BV) (l : List Bool) (b : Bool)
    (pos : BitIter w) (d n : Nat) (hr : Rep h v l) (hp : IsPos v pos d) (e : Exn) (s' : Heap w × BV) :
    (Obj.insertN S A P pos n b (h, v) = .ok (.error e, s') → s' = (h, v) ∧ (e = .badAlloc ∨ e = .lengthError)) ∧
    (l.length + n ≤ 2 ^ 24 → (Obj.insertN S A P pos n b (h, v) = .ok (.error e, s') ↔
      v.capacity w < l.length + n ∧
        Refused A h.next (wordCount w (l.length + n)) (P.grow v.vec.cap (wordCount w (l.length + n))) e ∧ s' = (h, v))) := by
  have ht := Obj.insertN_tries S A P h v pos n b (distance_begin hp)
  constructor
  · intro he
    rcases ht with ⟨_, _, x, _, h2, h3⟩ | ⟨_, h2⟩
    · rw [he] at h3
      cases h3
      exact ⟨rfl, h2.kind⟩
    · rw [he] at h2
      exact absurd h2.symm (asObj_returns _ _ _)
  · intro hn
    have e0 : (if n = 0 then none else Obj.needGrow P w v n) = Obj.needGrow P w v n := by
      by_cases h0 : n = 0
      · rw [if_pos h0, Obj.needGrow_eq hw hr hn, if_neg]
        have h1 := hr.fit
        have h2 := Nat.mul_le_mul_right w hr.ok.cap
        rw [hr.len] at h1
        unfold BV.capacity
        omega
      · rw [if_neg h0]
    rw [e0, Obj.needGrow_eq hw hr hn] at ht
    exact ht.throws_iff (asObj_returns _) e s'

/-- C71, `insert(pos, first, last)`. -/
theorem C71_insert_range (hw : 0 < w) (S : ShiftSem w) (A : Alloc) (P : Policy) (h : Heap w) (v : BV) (l s : List Bool)
    (pos first last : BitIter w) (d : Nat) (hr : Rep h v l) (hp : IsPos v pos d) (hs : HoldsSeq h first last s) (e : Exn) (s' : Heap w × BV) :
    (Obj.insertRange S A P pos first last (h, v) = .ok (.error e, s') → s' = (h, v) ∧ (e = .badAlloc ∨ e = .lengthError)) ∧
    (l.length + s.length ≤ 2 ^ 24 → (Obj.insertRange S A P pos first last (h, v) = .ok (.error e, s') ↔
      v.capacity w < l.length + s.length ∧
        Refused A h.next (wordCount w (l.length + s.length)) (P.grow v.vec.cap (wordCount w (l.length + s.length))) e ∧ s' = (h, v))) := by
  have ht := Obj.insertRange_tries S A P h v pos first last (distance_begin hp) (distance_seq hs)
  rw [toSize_nat] at ht
  constructor
  · intro he
    rcases ht with ⟨_, _, x, _, h2, h3⟩ | ⟨_, h2⟩
    · rw [he] at h3
      cases h3
      exact ⟨rfl, h2.kind⟩
    · rw [he] at h2
      exact absurd h2.symm (asObj_returns _ _ _)
  · intro hn
    have e0 : (if s.length = 0 then none else Obj.needGrow P w v s.length) = Obj.needGrow P w v s.length := by
      by_cases h0 : s.length = 0
      · rw [if_pos h0, Obj.needGrow_eq hw hr hn, if_neg]
        have h1 := hr.fit
        have h2 := Nat.mul_le_mul_right w hr.ok.cap
        rw [hr.len] at h1
        unfold BV.capacity
        omega
      · rw [if_neg h0]
    rw [e0, Obj.needGrow_eq hw hr hn] at ht
    exact ht.throws_iff (asObj_returns _) e s'

/-- C71: `pop_back`, the two `erase`s, `clear` and assignment of an element never throw. -/
theorem C71_never_throw (hw : 0 < w) (S : ShiftSem w) (A : Alloc) (P : Policy) (h : Heap w) (v : BV) (l : List Bool) (hr : Rep h v l)
    (e : Exn) (s' : Heap w × BV) :
    Obj.popBack (h, v) ≠ .ok (.error e, s') ∧ (∀ pos, Obj.erase S pos (h, v) ≠ .ok (.error e, s')) ∧
    (∀ (first last : BitIter w) (a b : Nat), IsPos v first a → IsPos v last b → a ≤ b → b ≤ l.length →
      Obj.eraseRange S A P first last (h, v) ≠ .ok (.error e, s')) ∧
    Obj.clear (h, v) ≠ .ok (.error e, s') ∧ ∀ i b, Obj.set S i b (h, v) ≠ .ok (.error e, s') := by
  refine ⟨?_, fun pos => ?_, fun first last a b hp hq hab hb => ?_, ?_, fun i b => ?_⟩
  · rw [Obj.popBack_eq]; exact asUnit_returns _ _ _
  · rw [Obj.erase_eq]; exact asObj_returns _ _ _
  · have hc : distance first last h.mem = .ok (((b - a : Nat) : Int), h.mem) := by
      have := (wp_distance (w := w) (first := first) (last := last) (m := h.mem) (Q := fun x m => x = ((b - a : Nat) : Int) ∧ m = h.mem)).2
        ⟨by have := hp.2; have := hq.2; omega, by have := hp.2; have := hq.2; omega, rfl⟩
      obtain ⟨x, m, e, rfl, rfl⟩ := this
      exact e
    have hl := hr.len
    rw [Obj.eraseRange_eq S A P h v first last hw hr.fit hc (by omega) (by omega)]
    exact asObj_returns _ _ _
  · rw [Obj.clear_eq]; exact asUnit_returns _ _ _
  · rw [Obj.set_eq]; exact asUnit_returns _ _ _

/-! ### C71: constructors -/

theorem NewTries.exact {A : Alloc} {h : Heap w} {c : Prop} [Decidable c] {n cap : Nat} {res : Except Halt (Except Exn BV × Heap w)}
    {x : Except Stop (BV × Heap w)} {l : List Bool} (ht : Obj.NewTries A h (if c then some (n, cap) else none) res (Obj.asNew x))
    (hx : ∃ v h', x = .ok (v, h') ∧ VStep h Vec.empty h' v.vec ∧ Rep h' v l) :
    (∀ e, c → Refused A h.next n cap e → res = .ok (.error e, h)) ∧
    (¬ (c ∧ ∃ e, Refused A h.next n cap e) → ∃ v h', res = .ok (.ok v, h') ∧ VStep h Vec.empty h' v.vec ∧ Rep h' v l) := by
  obtain ⟨v, h', e1, q⟩ := hx
  rcases ht with ⟨n', cap', e, h1, h2, h3⟩ | ⟨h1, h2⟩
  · by_cases hc : c
    · rw [if_pos hc] at h1
      cases h1
      exact ⟨fun e' _ h4 => by rw [h2.unique h4] at h3; exact h3, fun h4 => absurd ⟨hc, _, h2⟩ h4⟩
    · rw [if_neg hc] at h1
      cases h1
  · refine ⟨fun e hc h4 => absurd h4 (h1 n cap e (if_pos hc)), fun _ => ⟨v, h', ?_, q⟩⟩
    rw [h2, e1]; rfl

theorem wordCount_pos (hw : 0 < w) {n : Nat} (hn : n < 2 ^ 32) : 0 < wordCount w n ↔ 0 < n := by
  have := Obj.wordCount_le_iff hw (c := 0) hn
  omega

/-- C71, `bit_vector(n)`: it throws exactly if `n` is positive and the request for the words of `n` bits is refused; the heap is then
what it was. -/
theorem C71_new_count (hw : 0 < w) (A : Alloc) (P : Policy) (h : Heap w) (hwf : h.WF) (n : Nat) (hn : n < 2 ^ 32) :
    (∀ e, 0 < n → Refused A h.next (wordCount w n) (P.alloc (wordCount w n)) e → Obj.construct (Obj.ofCount A P n) h = .ok (.error e, h)) ∧
    (¬ (0 < n ∧ ∃ e, Refused A h.next (wordCount w n) (P.alloc (wordCount w n)) e) →
      ∃ v h', Obj.construct (Obj.ofCount A P n) h = .ok (.ok v, h') ∧ VStep h Vec.empty h' v.vec ∧ Rep h' v (List.replicate n false)) := by
  have ht := Obj.ofCount_tries A P h n
  unfold Obj.needNew at ht
  simp only [wordCount_pos hw hn] at ht
  exact NewTries.exact ht (C33_count hw P h hwf n hn)

/-- C71, `bit_vector(n, b)`. -/
theorem C71_new_count_value (hw : 0 < w) (A : Alloc) (P : Policy) (h : Heap w) (hwf : h.WF) (n : Nat) (hn : n < 2 ^ 32) (b : Bool) :
    (∀ e, 0 < n → Refused A h.next (wordCount w n) (P.alloc (wordCount w n)) e →
      Obj.construct (Obj.ofCountVal A P n b) h = .ok (.error e, h)) ∧
    (¬ (0 < n ∧ ∃ e, Refused A h.next (wordCount w n) (P.alloc (wordCount w n)) e) →
      ∃ v h', Obj.construct (Obj.ofCountVal A P n b) h = .ok (.ok v, h') ∧ VStep h Vec.empty h' v.vec ∧ Rep h' v (List.replicate n b)) := by
  have ht := Obj.ofCountVal_tries A P h n b
  unfold Obj.needNew at ht
  simp only [wordCount_pos hw hn] at ht
  exact NewTries.exact ht (C33_count_value hw P h hwf n hn b)

/-- C71, from a string: one word per digit is requested. -/
theorem C71_new_string (hw : 0 < w) (S : ShiftSem w) (A : Alloc) (P : Policy) (h : Heap w) (hwf : h.WF) (s : List Char) :
    (∀ e, 0 < (digitsOf s).length → Refused A h.next (digitsOf s).length (P.alloc (digitsOf s).length) e →
      Obj.construct (Obj.ofString S A P s) h = .ok (.error e, h)) ∧
    (¬ (0 < (digitsOf s).length ∧ ∃ e, Refused A h.next (digitsOf s).length (P.alloc (digitsOf s).length) e) →
      ∃ v h', Obj.construct (Obj.ofString S A P s) h = .ok (.ok v, h') ∧ VStep h Vec.empty h' v.vec ∧ Rep h' v (digitsOf s)) := by
  have ht := Obj.ofString_tries S A P h s
  rw [← length_digitsOf] at ht
  exact NewTries.exact ht (C33_string hw S P h hwf s)

/-- C71, from a range of `bool`: one word per bit is requested. -/
theorem C71_new_bool_range (hw : 0 < w) (S : ShiftSem w) (A : Alloc) (P : Policy) (h : Heap w) (hwf : h.WF) (l : List Bool) :
    (∀ e, 0 < l.length → Refused A h.next l.length (P.alloc l.length) e → Obj.construct (Obj.ofBoolRange S A P l) h = .ok (.error e, h)) ∧
    (¬ (0 < l.length ∧ ∃ e, Refused A h.next l.length (P.alloc l.length) e) →
      ∃ v h', Obj.construct (Obj.ofBoolRange S A P l) h = .ok (.ok v, h') ∧ VStep h Vec.empty h' v.vec ∧ Rep h' v l) :=
  NewTries.exact (Obj.ofBoolRange_tries S A P h l) (C33_bool_range hw S P h hwf l)

/-- C71, from words. -/
theorem C71_new_words (hw : 0 < w) (A : Alloc) (P : Policy) (h : Heap w) (hwf : h.WF) (l : List (BitVec w)) :
    (∀ e, 0 < l.length → Refused A h.next l.length (P.alloc l.length) e → Obj.construct (Obj.ofWords A P l) h = .ok (.error e, h)) ∧
    (¬ (0 < l.length ∧ ∃ e, Refused A h.next l.length (P.alloc l.length) e) →
      ∃ v h', Obj.construct (Obj.ofWords A P l) h = .ok (.ok v, h') ∧ VStep h Vec.empty h' v.vec ∧ Rep h' v (bitsOfWords l)) :=
  NewTries.exact (Obj.ofWords_tries A P h l) (C33_words hw P h hwf l)

/-- C71, from a range of bits: one word per bit is requested. -/
theorem C71_new_bits (hw : 0 < w) (S : ShiftSem w) (A : Alloc) (P : Policy) (h : Heap w) (hwf : h.WF) (first last : BitIter w) (s : List Bool)
    (hs : HoldsSeq h first last s) :
    (∀ e, 0 < s.length → Refused A h.next s.length (P.alloc s.length) e → Obj.construct (Obj.ofBits S A P first last) h = .ok (.error e, h)) ∧
    (¬ (0 < s.length ∧ ∃ e, Refused A h.next s.length (P.alloc s.length) e) →
      ∃ v h', Obj.construct (Obj.ofBits S A P first last) h = .ok (.ok v, h') ∧ VStep h Vec.empty h' v.vec ∧ Rep h' v s) := by
  have ht := Obj.ofBits_tries S A P h first last (distance_seq hs)
  rw [toSize_nat] at ht
  exact NewTries.exact ht (C33_bits hw S P h hwf first last s hs)

/-- C71, the copy constructor. -/
theorem C71_new_copy (hw : 0 < w) (A : Alloc) (P : Policy) (h : Heap w) (hwf : h.WF) (o : BV) (l : List Bool) (hr : Rep h o l) :
    (∀ e, 0 < o.vec.size → Refused A h.next o.vec.size (P.alloc o.vec.size) e → Obj.construct (Obj.copyOf A P o) h = .ok (.error e, h)) ∧
    (¬ (0 < o.vec.size ∧ ∃ e, Refused A h.next o.vec.size (P.alloc o.vec.size) e) →
      ∃ v h', Obj.construct (Obj.copyOf A P o) h = .ok (.ok v, h') ∧ VStep h Vec.empty h' v.vec ∧ Rep h' v l) :=
  NewTries.exact (Obj.copyOf_tries A P h o) (runV_ok (wpV_copyOf hw hwf hr fun _ _ s r => ⟨s, r⟩))

/-- C71, from a list of `bool`: it appends one by one and may be refused at any of them; no existing storage is touched then either. -/
theorem C71_new_bool_list (hw : 0 < w) (S : ShiftSem w) (A : Alloc) (P : Policy) (h : Heap w) (hwf : h.WF) (l : List Bool) :
    (∃ v h', Obj.construct (Obj.ofBoolList S A P l) h = .ok (.ok v, h') ∧ VStep h Vec.empty h' v.vec ∧ Rep h' v l) ∨
    (∃ e h', Obj.construct (Obj.ofBoolList S A P l) h = .ok (.error e, h') ∧ (e = .badAlloc ∨ e = .lengthError) ∧
      VStep h Vec.empty h' Vec.empty) := by
  rw [Obj.construct_eq]
  rcases Obj.ofBoolList_cases S A P hw l h BV.default [] hwf (wpV_default hwf).2 with ⟨e, h', v', n, _, h1, h2, h3, _⟩ | h1
  · right
    have s := h3.trans (release_ok hw h3.wf)
    exact ⟨e, _, by rw [h1]; rfl, h2, s.wf, s.next, s.frame, .inl ⟨rfl, rfl⟩⟩
  · left
    obtain ⟨v, h', e, s, r⟩ := C33_bool_list hw S P h hwf l
    refine ⟨v, h', ?_, s, r⟩
    unfold BV.ofBoolList at e
    rw [h1, Obj.finish_asUnit, e]
    rfl

theorem NewTries.unchanged {A : Alloc} {h h' : Heap w} {need : Option (Nat × Nat)} {res : Except Halt (Except Exn BV × Heap w)}
    {x : Except Stop (BV × Heap w)} {e : Exn} (ht : Obj.NewTries A h need res (Obj.asNew x)) (he : res = .ok (.error e, h')) :
    h' = h ∧ (e = .badAlloc ∨ e = .lengthError) := by
  rcases ht with ⟨_, _, _, _, h2, h3⟩ | ⟨_, h2⟩
  · rw [he] at h3; cases h3; exact ⟨rfl, h2.kind⟩
  · rw [he] at h2
    rcases x with (x | x) | ⟨v, h1⟩ <;> cases h2

/-- C71: `bit_vector(n)` and `bit_vector(n, b)` that throw leave the heap as it was, whatever `n`. -/
theorem C71_new_unchanged (A : Alloc) (P : Policy) (h h' : Heap w) (n : Nat) (b : Bool) (e : Exn) :
    (Obj.construct (Obj.ofCount A P n) h = .ok (.error e, h') → h' = h ∧ (e = .badAlloc ∨ e = .lengthError)) ∧
    (Obj.construct (Obj.ofCountVal A P n b) h = .ok (.error e, h') → h' = h ∧ (e = .badAlloc ∨ e = .lengthError)) :=
  ⟨NewTries.unchanged (Obj.ofCount_tries A P h n), NewTries.unchanged (Obj.ofCountVal_tries A P h n b)⟩

/-! ### C72: programs that catch exceptions -/

/-- Run the member `p` on vector `i`. -/
def memberT {α : Type} (vs : List BV) (i : Nat) (h : Heap w) (p : BV → T w α) : Except Halt (Except Exn Unit × Heap w × List BV) :=
  match vs[i]? with
  | none => .error (.ub .badRange)
  | some v =>
    match p v (h, v) with
    | .error e => .error e
    | .ok (.ok _, (h', v')) => .ok (.ok (), h', vs.set i v')
    | .ok (.error e, (h', v')) => .ok (.error e, h', vs.set i v')

/-- Construct one more vector; if that throws there is none. -/
def newT (vs : List BV) (h : Heap w) (p : T w Unit) : Except Halt (Except Exn Unit × Heap w × List BV) :=
  match Obj.construct p h with
  | .error e => .error e
  | .ok (.ok v, h') => .ok (.ok (), h', vs ++ [v])
  | .ok (.error e, h') => .ok (.error e, h', vs)

/-- A call that asks for no storage (move assignment and the destructor are `noexcept`). -/
def plainT (h : Heap w) (x : V w (List BV)) : Except Halt (Except Exn Unit × Heap w × List BV) :=
  match x h with
  | .ok (vs', h') => .ok (.ok (), h', vs')
  | .error (.ub e) => .error (.ub e)
  | .error (.throw _) => .error .terminate

namespace Op

/-- A call, with an allocator that can refuse: how it ends, and heap and vectors afterwards. -/
def execT (S : ShiftSem w) (A : Alloc) (P : Policy) (h : Heap w) (vs : List BV) : Op w → Except Halt (Except Exn Unit × Heap w × List BV)
  | newEmpty => newT vs h (pure ())
  | newCount n => newT vs h (Obj.ofCount A P n)
  | newCountVal n x => newT vs h (Obj.ofCountVal A P n x)
  | newString s => newT vs h (Obj.ofString S A P s)
  | newBoolRange l => newT vs h (Obj.ofBoolRange S A P l)
  | newBoolList l => newT vs h (Obj.ofBoolList S A P l)
  | newWords l => newT vs h (Obj.ofWords A P l)
  | newBits j a b =>
    match vs[j]? with
    | some o => newT vs h (Obj.ofBits S A P (o.begin.add (a : Int)) (o.begin.add (b : Int)))
    | none => .error (.ub .badRange)
  | newCopy j =>
    match vs[j]? with
    | some o => newT vs h (Obj.copyOf A P o)
    | none => .error (.ub .badRange)
  | push i x => memberT vs i h fun _ => Obj.pushBack S A P x
  | pop i => memberT vs i h fun _ => Obj.popBack
  | insert i d x => memberT vs i h fun v => Obj.insert S A P (v.begin.add (d : Int)) x
  | insertN i d n x => memberT vs i h fun v => Obj.insertN S A P (v.begin.add (d : Int)) n x
  | insertRange i d j a b =>
    match vs[j]? with
    | some o => memberT vs i h fun v => Obj.insertRange S A P (v.begin.add (d : Int)) (o.begin.add (a : Int)) (o.begin.add (b : Int))
    | none => .error (.ub .badRange)
  | erase i d => memberT vs i h fun v => Obj.erase S (v.begin.add (d : Int))
  | eraseRange i a b => memberT vs i h fun v => Obj.eraseRange S A P (v.begin.add (a : Int)) (v.begin.add (b : Int))
  | clear i => memberT vs i h fun _ => Obj.clear
  | set i k x => memberT vs i h fun _ => Obj.set S k x
  | copyAssign i j =>
    match vs[j]? with
    | some o => memberT vs i h fun _ => Obj.copyAssign A P o
    | none => .error (.ub .badRange)
  | moveAssign i j => plainT h ((moveAssign i j : Op w).exec S P vs)
  | reserve i n => memberT vs i h fun _ => Obj.reserve A P n
  | shrinkToFit i => memberT vs i h fun _ => Obj.shrinkToFit A P
  | shrink i n => memberT vs i h fun _ => Obj.resize A P n
  | destroy i => plainT h ((destroy i : Op w).exec S P vs)

/-- The calls that may ask for storage. -/
def Asks : Op w → Prop
  | newEmpty | pop _ | erase _ _ | eraseRange _ _ _ | clear _ | set _ _ _ | moveAssign _ _ | shrink _ _ | destroy _ => False
  | _ => True

end Op

/-- How a call ended: it did to the vectors what it does to plain lists, or it threw, and the lists are what they were. -/
def StepOk (op : Op w) (ls : List (List Bool)) (res : Except Halt (Except Exn Unit × Heap w × List BV)) : Prop :=
  (∃ h' vs', res = .ok (.ok (), h', vs') ∧ EnvOk h' vs' (op.apply ls)) ∨
  (∃ e h' vs', res = .ok (.error e, h', vs') ∧ (e = .badAlloc ∨ e = .lengthError) ∧ op.Asks ∧ EnvOk h' vs' ls)

theorem onVec_inv {vs vs' : List BV} {i : Nat} {f : BV → V w BV} {h h' : Heap w} {v : BV} (hv : vs[i]? = some v)
    (he : onVec vs i f h = .ok (vs', h')) : ∃ v', f v h = .ok (v', h') ∧ vs' = vs.set i v' := by
  unfold onVec at he
  rw [hv] at he
  obtain ⟨v', h1, e1, e2⟩ := runV_bind_inv he
  cases e2
  exact ⟨v', e1, rfl⟩

theorem stepOk_member {α : Type} {A : Alloc} {op : Op w} {ls : List (List Bool)} {vs vs' : List BV} {i : Nat} {h h' : Heap w} {v v' : BV} {p : BV → T w α}
    {need : Option (Nat × Nat)} {a : α} (e : EnvOk h vs ls) (hv : vs[i]? = some v)
    (ht : Tries A (h, v) need (p v (h, v)) (.ok (.ok a, (h', v')))) (hk : need = none ∨ op.Asks)
    (hs : vs' = vs.set i v') (he : EnvOk h' vs' (op.apply ls)) : StepOk op ls (memberT vs i h p) := by
  subst hs
  unfold memberT
  rw [hv]
  dsimp only
  rcases ht with ⟨n, cap, x, h1, h2, h3⟩ | ⟨h1, h2⟩
  · right
    rw [h3]
    refine ⟨x, h, vs.set i v, rfl, h2.kind, ?_, by rw [list_set_self hv]; exact e⟩
    rcases hk with hk | hk
    · rw [hk] at h1; cases h1
    · exact hk
  · left
    rw [h2]
    exact ⟨_, _, rfl, he⟩

theorem map_fst_inv {α : Type} {x : V w (BV × α)} {h h' : Heap w} {v' : BV} (he : (Prod.fst <$> x) h = .ok (v', h')) :
    ∃ a, x h = .ok ((v', a), h') := by
  have he : (Except.bind (x h) fun p => Except.ok (p.1.1, p.2)) = .ok (v', h') := he
  rcases hx : x h with e | ⟨⟨v1, a⟩, h1⟩
  · rw [hx] at he; cases he
  · rw [hx] at he; cases he; exact ⟨a, rfl⟩

theorem stepOk_new {A : Alloc} {op : Op w} {ls : List (List Bool)} {vs vs' : List BV} {h h' : Heap w} {p : T w Unit} {f : V w BV}
    {need : Option (Nat × Nat)} (e : EnvOk h vs ls) (ht : Obj.NewTries A h need (Obj.construct p h) (Obj.asNew (f h))) (hk : op.Asks)
    (hx : newVec vs f h = .ok (vs', h')) (he : EnvOk h' vs' (op.apply ls)) : StepOk op ls (newT vs h p) := by
  unfold newVec at hx
  obtain ⟨v', h1, e1, e2⟩ := runV_bind_inv hx
  cases e2
  unfold newT
  rcases ht with ⟨n, cap, x, h1, h2, h3⟩ | ⟨h1, h2⟩
  · right
    rw [h3]
    exact ⟨x, h, vs, rfl, h2.kind, hk, e⟩
  · left
    rw [h2, e1]
    exact ⟨_, _, rfl, he⟩

/-- A call that is right when the allocator gives what it is asked for. -/
theorem stepOk_of_right (hw : 0 < w) (S : ShiftSem w) (A : Alloc) (P : Policy) (h : Heap w) (vs : List BV) (ls : List (List Bool)) (op : Op w)
    (e : EnvOk h vs ls) (hpre : op.Pre ls) (hshr : ∀ i n, op = .shrink i n → n < 2 ^ 32) {vs' : List BV} {h' : Heap w}
    (hx : op.exec S P vs h = .ok (vs', h')) (he : EnvOk h' vs' (op.apply ls)) : StepOk op ls (op.execT S A P h vs) := by
  cases op with
  | newEmpty =>
    left
    cases hx
    exact ⟨_, _, rfl, he⟩
  | newCount n => exact stepOk_new e (Obj.ofCount_tries A P h n) trivial hx he
  | newCountVal n x => exact stepOk_new e (Obj.ofCountVal_tries A P h n x) trivial hx he
  | newString s => exact stepOk_new e (Obj.ofString_tries S A P h s) trivial hx he
  | newBoolRange l => exact stepOk_new e (Obj.ofBoolRange_tries S A P h l) trivial hx he
  | newBoolList l =>
    unfold Op.execT
    dsimp only
    unfold newT
    rcases C71_new_bool_list hw S A P h e.wf l with ⟨v, h1, h2, s, r⟩ | ⟨x, h1, h2, h3, s⟩
    · rw [h2]
      exact .inl ⟨_, _, rfl, e.push s r⟩
    · rw [h2]
      refine .inr ⟨_, _, _, rfl, h3, trivial, ?_⟩
      have old : ∀ (k : Nat) (o : BV) (l : List Bool), vs[k]? = some o → ls[k]? = some l → Rep h1 o l := fun k o l ho hl =>
        ((e.rep k o l ho hl).frame s (.inl rfl)).1
      exact ⟨s.wf, e.len, old, e.sep⟩
  | newWords l => exact stepOk_new e (Obj.ofWords_tries A P h l) trivial hx he
  | newBits j a b =>
    obtain ⟨hj, hab, hb⟩ := hpre
    obtain ⟨o, h1, h2, r⟩ := e.get hj
    unfold Op.execT
    unfold Op.exec at hx
    dsimp only at hx ⊢
    rw [h1] at hx ⊢
    exact stepOk_new e (Obj.ofBits_tries S A P h _ _ (distance_seq (r.holdsSeq hw hab hb))) trivial hx he
  | newCopy j =>
    obtain ⟨o, h1, h2, r⟩ := e.get hpre
    unfold Op.execT
    unfold Op.exec at hx
    dsimp only at hx ⊢
    rw [h1] at hx ⊢
    exact stepOk_new e (Obj.copyOf_tries A P h o) trivial hx he
  | push i x =>
    obtain ⟨v, hv, _, r⟩ := e.get (i := i) hpre
    obtain ⟨v', e1, e2⟩ := onVec_inv hv hx
    have ht := Obj.pushBack_tries S A P h v x
    rw [e1] at ht
    exact stepOk_member e hv ht (.inr trivial) e2 he
  | pop i =>
    obtain ⟨v, hv, _, r⟩ := e.get (i := i) hpre.1
    obtain ⟨v', e1, e2⟩ := onVec_inv hv hx
    have ht := Obj.popBack_eq h v
    rw [e1] at ht
    exact stepOk_member (A := A) e hv (.none ht) (.inl rfl) e2 he
  | insert i d x =>
    obtain ⟨v, hv, _, r⟩ := e.get (i := i) hpre.1
    obtain ⟨v', e1, e2⟩ := onVec_inv hv hx
    obtain ⟨a, e1⟩ := map_fst_inv e1
    have ht := Obj.insert_tries S A P h v _ x (distance_begin (IsPos.begin_add hw v d))
    rw [e1] at ht
    exact stepOk_member e hv ht (.inr trivial) e2 he
  | insertN i d n x =>
    obtain ⟨v, hv, _, r⟩ := e.get (i := i) hpre.1
    obtain ⟨v', e1, e2⟩ := onVec_inv hv hx
    obtain ⟨a, e1⟩ := map_fst_inv e1
    have ht := Obj.insertN_tries S A P h v _ n x (distance_begin (IsPos.begin_add hw v d))
    rw [e1] at ht
    exact stepOk_member e hv ht (.inr trivial) e2 he
  | insertRange i d j a b =>
    obtain ⟨hi, hd, hj, hij, hab, hb⟩ := hpre
    obtain ⟨v, hv, _, r⟩ := e.get hi
    obtain ⟨o, ho, _, ro⟩ := e.get hj
    unfold Op.execT
    dsimp only
    rw [ho]
    unfold Op.exec onVec2 at hx
    dsimp only at hx
    rw [hv, ho] at hx
    obtain ⟨v', h1, e1, e2⟩ := runV_bind_inv hx
    cases e2
    obtain ⟨x, e1⟩ := map_fst_inv e1
    have ht := Obj.insertRange_tries S A P h v _ _ _ (distance_begin (IsPos.begin_add hw v d)) (distance_seq (ro.holdsSeq hw hab hb))
    rw [e1] at ht
    exact stepOk_member e hv ht (.inr trivial) rfl he
  | erase i d =>
    obtain ⟨v, hv, _, r⟩ := e.get (i := i) hpre.1
    obtain ⟨v', e1, e2⟩ := onVec_inv hv hx
    obtain ⟨a, e1⟩ := map_fst_inv e1
    have ht := Obj.erase_eq S h v ((v.begin : BitIter w).add (d : Int))
    rw [e1] at ht
    exact stepOk_member (A := A) (p := fun v => Obj.erase S (v.begin.add (d : Int))) e hv (.none ht) (.inl rfl) e2 he
  | eraseRange i a b =>
    obtain ⟨v, hv, _, r⟩ := e.get (i := i) hpre.1
    obtain ⟨v', e1, e2⟩ := onVec_inv hv hx
    obtain ⟨x, e1⟩ := map_fst_inv e1
    have hl := r.len
    have hp2 := hpre.2.1
    have hp3 := hpre.2.2
    have hseq := distance_seq (r.holdsSeq hw hp2 hp3)
    have hlen : (((Op.at' ls i).take b).drop a).length ≤ (Op.at' ls i).length := by simp
    have ht := Obj.eraseRange_eq S A P h v _ _ hw r.fit hseq (by omega) (by rw [hl]; exact_mod_cast hlen)
    rw [e1] at ht
    exact stepOk_member (A := A) (p := fun v => Obj.eraseRange S A P (v.begin.add (a : Int)) (v.begin.add (b : Int))) e hv (.none ht) (.inl rfl) e2 he
  | clear i =>
    obtain ⟨v, hv, _, r⟩ := e.get (i := i) hpre
    obtain ⟨v', e1, e2⟩ := onVec_inv hv hx
    have ht := Obj.clear_eq h v
    rw [e1] at ht
    exact stepOk_member (A := A) (p := fun _ => Obj.clear) (a := ()) e hv (.none ht) (.inl rfl) e2 he
  | set i k x =>
    obtain ⟨v, hv, _, r⟩ := e.get (i := i) hpre.1
    obtain ⟨v', e1, e2⟩ := onVec_inv hv hx
    have ht := Obj.set_eq S h v k x
    rw [e1] at ht
    exact stepOk_member (A := A) e hv (.none ht) (.inl rfl) e2 he
  | copyAssign i j =>
    obtain ⟨hi, hj⟩ := hpre
    obtain ⟨v, hv, _, r⟩ := e.get hi
    obtain ⟨o, ho, _, ro⟩ := e.get hj
    unfold Op.execT
    dsimp only
    rw [ho]
    unfold Op.exec onVec2 at hx
    dsimp only at hx
    rw [hv, ho] at hx
    obtain ⟨v', h1, e1, e2⟩ := runV_bind_inv hx
    cases e2
    have ht := Obj.copyAssign_tries A P h v o
    rw [e1] at ht
    exact stepOk_member e hv ht (.inr trivial) rfl he
  | moveAssign i j =>
    left
    unfold Op.execT
    dsimp only
    unfold plainT
    rw [hx]
    exact ⟨_, _, rfl, he⟩
  | reserve i n =>
    obtain ⟨v, hv, _, r⟩ := e.get (i := i) hpre
    obtain ⟨v', e1, e2⟩ := onVec_inv hv hx
    have ht := Obj.reserve_tries A P h v n
    rw [e1] at ht
    exact stepOk_member e hv ht (.inr trivial) e2 he
  | shrinkToFit i =>
    obtain ⟨v, hv, _, r⟩ := e.get (i := i) hpre
    obtain ⟨v', e1, e2⟩ := onVec_inv hv hx
    rcases Obj.shrinkToFit_cases A P h v with h1 | ⟨h1, h2, h3⟩
    · rw [e1] at h1
      exact stepOk_member (A := A) e hv (.none h1) (.inr trivial) e2 he
    · unfold Op.execT
      dsimp only
      unfold memberT
      rw [hv]
      dsimp only
      rw [h3]
      cases A.shrinkThrows with
      | true => exact .inr ⟨_, _, _, rfl, .inl rfl, trivial, by rw [list_set_self hv]; exact e⟩
      | false => exact .inl ⟨_, _, rfl, by rw [list_set_self hv]; exact e⟩
  | shrink i n =>
    obtain ⟨v, hv, _, r⟩ := e.get (i := i) hpre.1
    obtain ⟨v', e1, e2⟩ := onVec_inv hv hx
    have ht := Obj.resize_tries A P h v n
    have hn : n < 2 ^ 32 := hshr i n rfl
    rw [e1, Obj.needWords_eq hw r hn, if_neg] at ht
    · exact stepOk_member e hv ht (.inl rfl) e2 he
    · have h1 := r.fit
      have h2 := Nat.mul_le_mul_right w r.ok.cap
      have h3 := hpre.2
      rw [r.len] at h1
      unfold BV.capacity
      omega
  | destroy i =>
    left
    unfold Op.execT
    dsimp only
    unfold plainT
    rw [hx]
    exact ⟨_, _, rfl, he⟩

/-- C72, one call: with every allocator a valid call within the limits has no undefined behaviour and does not end the program; it either
does to the vectors what it does to plain lists, or throws `bad_alloc` or `length_error` and leaves every list as it was. Only calls that may
need storage throw. -/
theorem C72_step_partial (hw : 0 < w) (S : ShiftSem w) (A : Alloc) (P : Policy) (h : Heap w) (vs : List BV) (ls : List (List Bool)) (op : Op w)
    (e : EnvOk h vs ls) (hpre : op.Pre ls) (hlim : op.Lim S ls) : StepOk op ls (op.execT S A P h vs) := by
  obtain ⟨vs', h', hx, he⟩ := C35_step_partial hw S P h vs ls op e hpre hlim
  refine stepOk_of_right hw S A P h vs ls op e hpre ?_ hx he
  rintro i n rfl
  exact hlim.1

/-- A program that catches exceptions: what it does next depends on how each call ended. -/
inductive Strat (w : Nat) where
  | stop
  | call (op : Op w) (next : Option Exn → Strat w)

namespace Strat

/-- Run the program; also record how each call ended. -/
def run (S : ShiftSem w) (A : Alloc) (P : Policy) : Strat w → Heap w → List BV → Except Halt (List (Option Exn) × Heap w × List BV)
  | stop, h, vs => .ok ([], h, vs)
  | call op next, h, vs =>
    match op.execT S A P h vs with
    | .error e => .error e
    | .ok (.ok (), h', vs') =>
      match (next none).run S A P h' vs' with
      | .error e => .error e
      | .ok (t, r) => .ok (none :: t, r)
    | .ok (.error e, h', vs') =>
      match (next (some e)).run S A P h' vs' with
      | .error e => .error e
      | .ok (t, r) => .ok (some e :: t, r)

/-- What the program does to plain lists if its calls end as recorded: a call that throws does nothing. -/
def result : Strat w → List (Option Exn) → List (List Bool) → List (List Bool)
  | call op next, none :: t, ls => (next none).result t (op.apply ls)
  | call _ next, some e :: t, ls => (next (some e)).result t ls
  | _, _, ls => ls

/-- Every call is valid and within the limits, however the calls before it ended. -/
def Valid (S : ShiftSem w) : Strat w → List (List Bool) → Prop
  | stop, _ => True
  | call op next, ls => op.Pre ls ∧ op.Lim S ls ∧ (next none).Valid S (op.apply ls) ∧
      (op.Asks → (next (some .badAlloc)).Valid S ls ∧ (next (some .lengthError)).Valid S ls)

/-- The number of calls and which of them threw fit the program, and only calls that may need storage threw. -/
def Fits : Strat w → List (Option Exn) → Prop
  | stop, t => t = []
  | call _ next, none :: t => (next none).Fits t
  | call op next, some e :: t => op.Asks ∧ (e = .badAlloc ∨ e = .lengthError) ∧ (next (some e)).Fits t
  | call _ _, [] => False

end Strat

/-- C72: with every allocator, a valid program that catches exceptions runs to its end without undefined behaviour; the vectors hold what
the calls that returned did to plain lists. -/
theorem C72_program_partial (hw : 0 < w) (S : ShiftSem w) (A : Alloc) (P : Policy) (p : Strat w) (h : Heap w) (vs : List BV)
    (ls : List (List Bool)) (e : EnvOk h vs ls) (hv : p.Valid S ls) :
    ∃ t h' vs', p.run S A P h vs = .ok (t, h', vs') ∧ p.Fits t ∧ EnvOk h' vs' (p.result t ls) := by
  induction p generalizing h vs ls with
  | stop => exact ⟨[], h, vs, rfl, rfl, e⟩
  | call op next ih =>
    obtain ⟨h1, h2, h3, h4⟩ := hv
    unfold Strat.run
    rcases C72_step_partial hw S A P h vs ls op e h1 h2 with ⟨h', vs', he, e'⟩ | ⟨x, h', vs', he, hk, ha, e'⟩
    · rw [he]
      obtain ⟨t, h'', vs'', e1, e2, e3⟩ := ih none h' vs' _ e' h3
      dsimp only
      rw [e1]
      exact ⟨none :: t, h'', vs'', rfl, e2, e3⟩
    · rw [he]
      have hv' : (next (some x)).Valid S ls := by
        rcases hk with rfl | rfl
        · exact (h4 ha).1
        · exact (h4 ha).2
      obtain ⟨t, h'', vs'', e1, e2, e3⟩ := ih (some x) h' vs' _ e' hv'
      dsimp only
      rw [e1]
      exact ⟨some x :: t, h'', vs'', rfl, ⟨ha, hk, e2⟩, e3⟩

/-! ### C73: calls within the capacity -/

/-- The storage is where it was: same `begin()`, same `capacity()`, every iterator designates the position it did. -/
structure Kept (w : Nat) (v v' : BV) : Prop where
  begin : (v'.begin : BitIter w) = v.begin
  capacity : v'.capacity w = v.capacity w
  iterators : ∀ (it : BitIter w) (k : Nat), IsPos v' it k ↔ IsPos v it k

theorem Vec.Same.kept {v v' : BV} (h : v'.vec.Same v.vec) : Kept w v v' := by
  obtain ⟨h1, h2⟩ := h
  refine ⟨?_, ?_, ?_⟩
  · unfold BV.begin; rw [h1]
  · unfold BV.capacity; rw [h2]
  · intro it k; unfold IsPos; rw [h1]

theorem Kept.trans {v v1 v2 : BV} (h : Kept w v v1) (h' : Kept w v1 v2) : Kept w v v2 :=
  ⟨h'.begin.trans h.begin, h'.capacity.trans h.capacity, fun it k => (h'.iterators it k).trans (h.iterators it k)⟩

/-- C73, `push_back` below the capacity: with every allocator it appends, and the storage stays. -/
theorem C73_push_back (hw : 0 < w) (S : ShiftSem w) (A : Alloc) (P : Policy) (h : Heap w) (v : BV) (l : List Bool) (b : Bool)
    (hwf : h.WF) (hr : Rep h v l) (hc : l.length < v.capacity w) :
    ∃ h' v', Obj.pushBack S A P b (h, v) = .ok (.ok (), (h', v')) ∧ VStep h v.vec h' v'.vec ∧ Rep h' v' (l ++ [b]) ∧ Kept w v v' := by
  have ht := Obj.pushBack_tries S A P h v b
  rw [Obj.needOne_eq hw hr] at ht
  refine runUnit_of (ht.exact.2 (by omega)) ?_
  obtain ⟨v', h', e, s, r⟩ := runV_ok (wpV_push S hw (P := P) (b := b) (Q := fun v' h' => VStep h v.vec h' v'.vec ∧ Rep h' v' (l ++ [b])) hwf hr fun _ _ s r => ⟨s, r⟩)
  exact ⟨v', h', e, s, r, (BV.pushBack_same hw hr hc e).kept⟩

/-- C73, any number of `push_back`s up to the capacity. -/
theorem C73_push_many (hw : 0 < w) (S : ShiftSem w) (A : Alloc) (P : Policy) (h : Heap w) (v : BV) (l bs : List Bool)
    (hwf : h.WF) (hr : Rep h v l) (hc : l.length + bs.length ≤ v.capacity w) :
    ∃ h' v', Obj.ofBoolList S A P bs (h, v) = .ok (.ok (), (h', v')) ∧ VStep h v.vec h' v'.vec ∧ Rep h' v' (l ++ bs) ∧ Kept w v v' := by
  induction bs generalizing h v l with
  | nil => exact ⟨h, v, rfl, VStep.refl hwf _, by simpa using hr, rfl, rfl, fun _ _ => Iff.rfl⟩
  | cons b bs ih =>
    rw [List.length_cons] at hc
    obtain ⟨h1, v1, e1, s1, r1, k1⟩ := C73_push_back hw S A P h v l b hwf hr (by omega)
    obtain ⟨h2, v2, e2, s2, r2, k2⟩ := ih h1 v1 _ s1.wf r1 (by rw [k1.capacity]; simp; omega)
    refine ⟨h2, v2, ?_, s1.trans s2, by simpa using r2, k1.trans k2⟩
    unfold Obj.ofBoolList
    rw [Obj.run_bind, e1]
    exact e2

/-- C73: after a successful `reserve(n)`, `push_back`s up to `n` elements never throw and move nothing, whatever the allocator does then. -/
theorem C73_reserve_push (hw : 0 < w) (S : ShiftSem w) (A A' : Alloc) (P : Policy) (h h1 : Heap w) (v v1 : BV) (l bs : List Bool) (n : Nat)
    (hwf : h.WF) (hr : Rep h v l) (hn : n < 2 ^ 32) (he : Obj.reserve A P n (h, v) = .ok (.ok (), (h1, v1))) (hc : l.length + bs.length ≤ n) :
    ∃ h' v', Obj.ofBoolList S A' P bs (h1, v1) = .ok (.ok (), (h', v')) ∧ VStep h1 v1.vec h' v'.vec ∧ Rep h' v' (l ++ bs) ∧ Kept w v1 v' := by
  obtain ⟨f1, f2⟩ := C71_reserve hw A P h v l n hwf hr hn
  by_cases hx : v.capacity w < n ∧ ∃ e, Refused A h.next (wordCount w n) (P.alloc (wordCount w n)) e
  · obtain ⟨h2, e, h3⟩ := hx
    rw [f1 e h2 h3] at he
    cases he
  · obtain ⟨h2, v2, e2, s2, r2, c2, _⟩ := f2 hx
    rw [e2] at he
    cases he
    exact C73_push_many hw S A' P _ _ l bs s2.wf r2 (by omega)

/-- C72, the three `insert`s within the capacity: they insert, and the storage stays. -/
theorem C72_insert_in_place_partial (hw : 0 < w) (S : ShiftSem w) (A : Alloc) (P : Policy) (h : Heap w) (v : BV) (l : List Bool) (b : Bool)
    (pos : BitIter w) (d : Nat) (hwf : h.WF) (hr : Rep h v l) (hp : IsPos v pos d) (hd : d ≤ l.length) :
    (l.length < v.capacity w → (¬ (d % w = 0 ∧ l.length + 1 - d = w ∧ 1 < w) ∨ S.FullShiftOk) →
      ∃ h' v', Obj.insert S A P pos b (h, v) = .ok (.ok pos, (h', v')) ∧ VStep h v.vec h' v'.vec ∧
        Rep h' v' (l.take d ++ [b] ++ l.drop d) ∧ Kept w v v') ∧
    (∀ n, l.length + n ≤ v.capacity w → l.length + n ≤ 2 ^ 24 → (¬ (d % w = 0 ∧ l.length + n - d = w ∧ n < w) ∨ S.FullShiftOk) →
      ∃ h' v', Obj.insertN S A P pos n b (h, v) = .ok (.ok pos, (h', v')) ∧ VStep h v.vec h' v'.vec ∧
        Rep h' v' (l.take d ++ List.replicate n b ++ l.drop d) ∧ Kept w v v') ∧
    (∀ (first last : BitIter w) (s : List Bool), HoldsSeq h first last s → Outside v.vec first last →
      l.length + s.length ≤ v.capacity w → l.length + s.length ≤ 2 ^ 24 →
      (¬ (d % w = 0 ∧ l.length + s.length - d = w ∧ s.length < w) ∨ S.FullShiftOk) →
      ∃ h' v', Obj.insertRange S A P pos first last (h, v) = .ok (.ok pos, (h', v')) ∧ VStep h v.vec h' v'.vec ∧
        Rep h' v' (l.take d ++ s ++ l.drop d) ∧ Kept w v v') := by
  have uniq : ∀ it : BitIter w, IsPos v it d → it = pos := by
    intro it hi
    exact BitIter.addr_inj hi.1 hp.1 (by rw [hi.2, hp.2])
  refine ⟨fun hc hfull => ?_, fun n hc hn hfull => ?_, fun first last s hs hout hc hn hfull => ?_⟩
  · obtain ⟨h', v', it, e, s, r, i⟩ := (C72_insert_partial hw S A P h v l b pos d hwf hr hp hd hfull).2 (by omega)
    have k : Kept w v v' := by
      have ht := (Obj.insert_tries S A P h v pos b (distance_begin hp))
      rw [Obj.needOne_eq hw hr] at ht
      have e2 := ht.exact.2 (by omega)
      rw [e] at e2
      cases hx : v.insert S P pos b h with
      | error x => rw [hx] at e2; cases x <;> cases e2
      | ok x =>
        obtain ⟨⟨a, c⟩, d⟩ := x
        rw [hx] at e2; cases e2
        exact (BV.insert_same hw hr hc hx).kept
    rw [uniq it ((k.iterators it d).1 i)] at e
    exact ⟨h', v', e, s, r, k⟩
  · obtain ⟨h', v', it, e, s, r, i⟩ := (C72_insert_count_partial hw S A P h v l b pos d n hwf hr hp hd hn hfull).2 (by omega)
    have k : Kept w v v' := by
      obtain ⟨⟨a, c⟩, h2, hx, _⟩ := runV_ok (wpV_insertN S hw (P := P) (b := b) (Q := fun _ _ => True) hwf hr hp hd (floatOk_small hw hn) hfull fun _ _ _ _ _ _ => trivial)
      have ht := (Obj.insertN_tries S A P h v pos n b (distance_begin hp))
      rw [hx] at ht
      rcases ht with ⟨_, _, _, _, _, h3⟩ | ⟨_, h3⟩
      · rw [e] at h3; cases h3
      · rw [e] at h3; cases h3
        exact (BV.insertN_same hw hr hc hn hx).kept
    rw [uniq it ((k.iterators it d).1 i)] at e
    exact ⟨h', v', e, s, r, k⟩
  · obtain ⟨h', v', it, e, s', r, i⟩ := (C72_insert_range_partial hw S A P h v l s pos first last d hwf hr hp hd hs hout hn hfull).2 (by omega)
    have k : Kept w v v' := by
      obtain ⟨⟨a, c⟩, h2, hx, _⟩ := runV_ok (wpV_insertRange S hw (P := P) (Q := fun _ _ => True) hwf hr hp hd hs hout (floatOk_small hw hn) hfull fun _ _ _ _ _ _ => trivial)
      have ht := (Obj.insertRange_tries S A P h v pos first last (distance_begin hp) (distance_seq hs))
      rw [hx] at ht
      rcases ht with ⟨_, _, _, _, _, h3⟩ | ⟨_, h3⟩
      · rw [e] at h3; cases h3
      · rw [e] at h3; cases h3
        exact (BV.insertRange_same hw hr hs hc hn hx).kept
    rw [uniq it ((k.iterators it d).1 i)] at e
    exact ⟨h', v', e, s', r, k⟩

/-- C73, the three `insert`s within the capacity never throw, and the storage stays. -/
theorem C73_insert (hw : 0 < w) (S : ShiftSem w) (A : Alloc) (P : Policy) (h : Heap w) (v : BV) (l : List Bool) (b : Bool)
    (pos : BitIter w) (d : Nat) (hr : Rep h v l) (hp : IsPos v pos d) :
    (l.length < v.capacity w → (∀ e s', Obj.insert S A P pos b (h, v) ≠ .ok (.error e, s')) ∧
      ∀ it h' v', Obj.insert S A P pos b (h, v) = .ok (.ok it, (h', v')) → Kept w v v') ∧
    (∀ n, l.length + n ≤ v.capacity w → l.length + n ≤ 2 ^ 24 → (∀ e s', Obj.insertN S A P pos n b (h, v) ≠ .ok (.error e, s')) ∧
      ∀ it h' v', Obj.insertN S A P pos n b (h, v) = .ok (.ok it, (h', v')) → Kept w v v') ∧
    (∀ (first last : BitIter w) (s : List Bool), HoldsSeq h first last s → l.length + s.length ≤ v.capacity w → l.length + s.length ≤ 2 ^ 24 →
      (∀ e s', Obj.insertRange S A P pos first last (h, v) ≠ .ok (.error e, s')) ∧
      ∀ it h' v', Obj.insertRange S A P pos first last (h, v) = .ok (.ok it, (h', v')) → Kept w v v') := by
  refine ⟨fun hc => ⟨fun e s' he => ?_, fun it h' v' he => ?_⟩, fun n hc hn => ⟨fun e s' he => ?_, fun it h' v' he => ?_⟩,
    fun first last s hs hc hn => ⟨fun e s' he => ?_, fun it h' v' he => ?_⟩⟩
  · have := ((C71_insert hw S A P h v l b pos d hr hp e s').1 he).1
    omega
  · rcases Obj.insert_tries S A P h v pos b (distance_begin hp) with ⟨_, _, _, _, _, h3⟩ | ⟨_, h3⟩
    · rw [he] at h3; cases h3
    · rw [he] at h3
      cases hx : v.insert S P pos b h with
      | error x => rw [hx] at h3; cases x <;> cases h3
      | ok x =>
        obtain ⟨⟨a, c⟩, d⟩ := x
        rw [hx] at h3; cases h3
        exact (BV.insert_same hw hr hc hx).kept
  · have := (((C71_insert_count hw S A P h v l b pos d n hr hp e s').2 hn).1 he).1
    omega
  · rcases Obj.insertN_tries S A P h v pos n b (distance_begin hp) with ⟨_, _, _, _, _, h3⟩ | ⟨_, h3⟩
    · rw [he] at h3; cases h3
    · rw [he] at h3
      cases hx : v.insertN S P pos n b h with
      | error x => rw [hx] at h3; cases x <;> cases h3
      | ok x =>
        obtain ⟨⟨a, c⟩, d⟩ := x
        rw [hx] at h3; cases h3
        exact (BV.insertN_same hw hr hc hn hx).kept
  · have := (((C71_insert_range hw S A P h v l s pos first last d hr hp hs e s').2 hn).1 he).1
    omega
  · rcases Obj.insertRange_tries S A P h v pos first last (distance_begin hp) (distance_seq hs) with ⟨_, _, _, _, _, h3⟩ | ⟨_, h3⟩
    · rw [he] at h3; cases h3
    · rw [he] at h3
      cases hx : v.insertRange S P pos first last h with
      | error x => rw [hx] at h3; cases x <;> cases h3
      | ok x =>
        obtain ⟨⟨a, c⟩, d⟩ := x
        rw [hx] at h3; cases h3
        exact (BV.insertRange_same hw hr hs hc hn hx).kept

/-- C73, `resize(n)` within the capacity. -/
theorem C73_resize (hw : 0 < w) (A : Alloc) (P : Policy) (h : Heap w) (v : BV) (l : List Bool) (n : Nat) (hwf : h.WF) (hr : Rep h v l)
    (hn : n < 2 ^ 32) (hc : n ≤ v.capacity w) :
    ∃ h' v' l', Obj.resize A P n (h, v) = .ok (.ok (), (h', v')) ∧ VStep h v.vec h' v'.vec ∧ Rep h' v' l' ∧ l'.length = n ∧
      l'.take l.length = l.take n ∧ Kept w v v' := by
  have ht := Obj.resize_tries A P h v n
  rw [Obj.needWords_eq hw hr hn] at ht
  have h2 := ht.exact.2 (by omega)
  obtain ⟨v', h', l', e1, s, r1, hl1, hk⟩ := C31_resize_keeps hw P h v _ n hwf hr hn
  exact ⟨h', v', l', by rw [h2, e1]; rfl, s, r1, hl1, hk, (BV.resize_same hw hc hn e1).kept⟩

/-- C73, `reserve(n)` within the capacity does nothing. -/
theorem C73_reserve (hw : 0 < w) (A : Alloc) (P : Policy) (h : Heap w) (v : BV) (n : Nat) (hn : n < 2 ^ 32) (hc : n ≤ v.capacity w) :
    Obj.reserve A P n (h, v) = .ok (.ok (), (h, v)) := by
  have ht := Obj.reserve_tries A P h v n
  have h1 := ((Obj.wordCount_le_iff hw (c := v.vec.cap) hn).2 hc)
  rw [ht.exact.2 (by omega)]
  unfold BV.reserve Vec.reserve
  rw [if_pos h1]
  rfl

/-- C73: the members that shrink a vector move nothing. -/
theorem C73_shrinking (hw : 0 < w) (S : ShiftSem w) (A : Alloc) (P : Policy) (h h' : Heap w) (v v' : BV) (l : List Bool) (hr : Rep h v l) :
    (∀ u, Obj.popBack (h, v) = .ok (.ok u, (h', v')) → Kept w v v') ∧
    (∀ (pos it : BitIter w), Obj.erase S pos (h, v) = .ok (.ok it, (h', v')) → Kept w v v') ∧
    (∀ (first last it : BitIter w) (a b : Nat), IsPos v first a → IsPos v last b → a ≤ b → b ≤ l.length →
      Obj.eraseRange S A P first last (h, v) = .ok (.ok it, (h', v')) → Kept w v v') ∧
    (∀ u, Obj.clear (h, v) = .ok (.ok u, (h', v')) → Kept w v v') := by
  refine ⟨fun u e => ?_, fun pos it e => ?_, fun first last it a b hp hq hab hb e => ?_, fun u e => ?_⟩
  · rw [Obj.popBack_eq] at e
    cases hx : v.popBack h with
    | error x => rw [hx] at e; cases x <;> cases e
    | ok x => rw [hx] at e; cases e; exact (BV.popBack_same hx).kept
  · rw [Obj.erase_eq] at e
    cases hx : v.erase S pos h with
    | error x => rw [hx] at e; cases x <;> cases e
    | ok x =>
      obtain ⟨⟨a, c⟩, d⟩ := x
      rw [hx] at e; cases e; exact (BV.erase_same hx).kept
  · have hc : distance first last h.mem = .ok (((b - a : Nat) : Int), h.mem) := by
      have := (wp_distance (w := w) (first := first) (last := last) (m := h.mem) (Q := fun x m => x = ((b - a : Nat) : Int) ∧ m = h.mem)).2
        ⟨by have := hp.2; have := hq.2; omega, by have := hp.2; have := hq.2; omega, rfl⟩
      obtain ⟨x, m, e, rfl, rfl⟩ := this
      exact e
    have hl := hr.len
    rw [Obj.eraseRange_eq S A P h v first last hw hr.fit hc (by omega) (by omega)] at e
    cases hx : v.eraseRange S P first last h with
    | error x => rw [hx] at e; cases x <;> cases e
    | ok x =>
      obtain ⟨⟨x1, c⟩, d⟩ := x
      rw [hx] at e; cases e; exact (BV.eraseRange_same hw hr hp hq hab hb hx).kept
  · cases e
    exact Vec.Same.kept ⟨rfl, rfl⟩

/-! ### C74: `noexcept` -/

/-- C74: the constructor from an rvalue ends the program exactly if the source has words and the request for as many is refused; else it
copies. -/
theorem C74_move_construct_exact (hw : 0 < w) (A : Alloc) (P : Policy) (h : Heap w) (hwf : h.WF) (o : BV) (l : List Bool) (hr : Rep h o l) :
    (Obj.moveConstruct A P o h = .error .terminate ↔ 0 < o.vec.size ∧ ∃ e, Refused A h.next o.vec.size (P.alloc o.vec.size) e) ∧
    (¬ (0 < o.vec.size ∧ ∃ e, Refused A h.next o.vec.size (P.alloc o.vec.size) e) →
      ∃ v h', Obj.moveConstruct A P o h = .ok (v, h') ∧ VStep h Vec.empty h' v.vec ∧ Rep h' v l ∧ Rep h' o l) := by
  obtain ⟨h1, h2⟩ := C71_new_copy hw A P h hwf o l hr
  have h3 : ¬ (0 < o.vec.size ∧ ∃ e, Refused A h.next o.vec.size (P.alloc o.vec.size) e) →
      ∃ v h', Obj.moveConstruct A P o h = .ok (v, h') ∧ VStep h Vec.empty h' v.vec ∧ Rep h' v l ∧ Rep h' o l := by
    intro hc
    obtain ⟨v, h', e, s, r⟩ := h2 hc
    refine ⟨v, h', ?_, s, r, (hr.frame s (.inl rfl)).1⟩
    unfold Obj.moveConstruct
    rw [e]
  refine ⟨⟨fun he => ?_, fun ⟨h0, e, hf⟩ => ?_⟩, h3⟩
  · by_contra hc
    obtain ⟨v, h', e, _⟩ := h3 hc
    rw [e] at he
    cases he
  · unfold Obj.moveConstruct
    rw [h1 e h0 hf]

/-! ### Examples -/

/-- A full vector of 16 bits. -/
def exF : BV := ⟨⟨0, 2, 2⟩, 16⟩
def exFL : List Bool := exL ++ [false, false, false, false, false]
/-- Grants at most three words at a time. -/
def stingy : Alloc := ⟨1000, fun _ cap => decide (cap ≤ 3), true⟩
/-- Grants nothing. -/
def stubborn : Alloc := ⟨1000, fun _ _ => false, false⟩

theorem exFRep : Rep exH exF exFL := by
  refine ⟨exRep.ok, rfl, by decide, ?_⟩
  decide

/-- C74: not every call of a `noexcept` function returns: moving from a vector with two words ends the program if the request for two words
is refused. -/
theorem C74_refuted : Obj.moveConstruct stubborn doubling exV exH = .error .terminate :=
  (C74_move_construct_exact (by decide) stubborn doubling exH exH_wf exV exL exRep).1.2
    ⟨by decide, .badAlloc, .inr ⟨by decide, rfl, rfl⟩⟩

example : exFL.length = BV.capacity 8 exF ∧ Refused stingy exH.next (exF.vec.cap + 1) (doubling.grow exF.vec.cap (exF.vec.cap + 1)) .badAlloc :=
  ⟨rfl, .inr ⟨by decide, rfl, rfl⟩⟩
example : Obj.pushBack S8 stingy doubling true (exH, exF) = .ok (.error .badAlloc, (exH, exF)) :=
  (C71_push_back (by decide) S8 stingy doubling exH exF exFL true exH_wf exFRep).1 _ rfl (.inr ⟨by decide, rfl, rfl⟩)
example : ∃ h' v', Obj.pushBack S8 stingy doubling true (exH, exV) = .ok (.ok (), (h', v')) ∧ VStep exH exV.vec h' v'.vec ∧
    Rep h' v' (exL ++ [true]) ∧ Kept 8 exV v' :=
  C73_push_back (by decide) S8 stingy doubling exH exV exL true exH_wf exRep (by decide)
example : Refused stingy exH.next (wordCount 8 8010) (doubling.alloc (wordCount 8 8010)) .lengthError := .inl ⟨by decide, rfl⟩
example : Refused stingy exH.next (wordCount 8 40) (doubling.alloc (wordCount 8 40)) .badAlloc := .inr ⟨by decide, rfl, rfl⟩
example : Obj.resize stingy doubling 8010 (exH, exV) = .ok (.error .lengthError, (exH, exV)) :=
  (C71_resize (by decide) stingy doubling exH exV exL 8010 exH_wf exRep (by decide)).1 _ (by decide) (.inl ⟨by decide, rfl⟩)
example : Obj.construct (Obj.ofCount stingy doubling 40) exH = .ok (.error .badAlloc, exH) :=
  (C71_new_count (by decide) stingy doubling exH exH_wf 40 (by decide)).1 _ (by decide) (.inr ⟨by decide, rfl, rfl⟩)
example : IsPos exV (⟨0, 3⟩ : BitIter 8) 3 ∧ exL.length + 5 ≤ BV.capacity 8 exV ∧ exL.length + 5 ≤ 2 ^ 24 := ⟨⟨by decide, by decide⟩, by decide, by decide⟩

/-- Append; if that throws, drop elements and append again. -/
def exStrat : Strat 8 :=
  .call (.push 0 true) fun
    | none => .stop
    | some _ => .call (.shrink 0 8) fun _ => .call (.push 0 true) fun _ => .stop

example : exStrat.Valid S8 [exFL] := by
  refine ⟨by show 0 < 1; decide, ⟨trivial, .inl trivial⟩, trivial, fun _ => ⟨?_, ?_⟩⟩
  all_goals
    refine ⟨⟨by decide, by decide⟩, ⟨by show 8 < 2 ^ 32; decide, .inl trivial⟩, ?_, fun h => h.elim⟩
    exact ⟨by show 0 < 1; decide, ⟨trivial, .inl trivial⟩, trivial, fun _ => ⟨trivial, trivial⟩⟩
example : ((exStrat.run S8 stingy doubling exH [exF]).map fun r => r.1) = .ok [some .badAlloc, none, none] := by rfl
example : exStrat.result [some .badAlloc, none, none] [exFL] = [exL.take 8 ++ [true]] := by rfl
example : exStrat.Fits [some .badAlloc, none, none] := ⟨trivial, .inl rfl, rfl⟩

end BitLib
