import Verif.SpecThrow
import Verif.Lemmas.BVec3
/- Runs of member functions with an allocator that can refuse, compared with the runs in which it does not. -/
namespace BitLib
variable {w : Nat} {α β : Type}

namespace Obj

theorem run_bind (x : T w α) (f : α → T w β) (s : Heap w × BV) : (x >>= f) s = match x s with
    | .ok (.ok a, s') => f a s'
    | .ok (.error e, s') => .ok (.error e, s')
    | .error e => .error e := by
  show (Except.bind (x s) fun p => ExceptT.bindCont f p.1 p.2) = _
  rcases x s with e | ⟨r, s'⟩
  · rfl
  · cases r <;> rfl

theorem run_this (f : BV → T w β) (s : Heap w × BV) : (this >>= f) s = f s.2 s := run_bind _ _ _

theorem run_setLength (n : Nat) (f : Unit → T w β) (s : Heap w × BV) : (setLength n >>= f) s = f () (s.1, ⟨s.2.vec, n⟩) := run_bind _ _ _

theorem run_onMemory (p : M w α) (f : α → T w β) (s : Heap w × BV) : (onMemory p >>= f) s = match p s.1.mem with
    | .ok (a, m) => f a ({ s.1 with mem := m }, s.2)
    | .error e => .error (.ub e) := by
  rw [run_bind]
  unfold onMemory
  rcases p s.1.mem with e | ⟨a, m⟩ <;> rfl

/-- The result of a member of `Model/Vector` that returns something, as the result of a run on the object. -/
def asObj : Except Stop ((BV × α) × Heap w) → Except Halt (Except Exn α × (Heap w × BV))
  | .ok ((v, a), h) => .ok (.ok a, (h, v))
  | .error (.ub e) => .error (.ub e)
  | .error (.throw _) => .error .terminate

/-- The result of a member of `Model/Vector` that returns nothing, as the result of a run on the object. -/
def asUnit : Except Stop (BV × Heap w) → Except Halt (Except Exn Unit × (Heap w × BV))
  | .ok (v, h) => .ok (.ok (), (h, v))
  | .error (.ub e) => .error (.ub e)
  | .error (.throw _) => .error .terminate

end Obj

theorem runV_onMem (p : M w α) (f : α → V w β) (h : Heap w) : (onMem p >>= f) h = match p h.mem with
    | .ok (a, m) => f a { h with mem := m }
    | .error e => .error (.ub e) := by
  show (Except.bind (onMem p h) fun q => _) = _
  unfold onMem
  rcases p h.mem with e | ⟨a, m⟩ <;> rfl

theorem runV_bind_ok {x : V w α} {f : α → V w β} {h h' : Heap w} {a : α} (hx : x h = .ok (a, h')) : (x >>= f) h = f a h' := by
  show (Except.bind (x h) fun q => _) = _
  rw [hx]; rfl

/-- A run in state `s` makes the request `need` (needed words, capacity), if any, before it changes anything: it throws in the state `s`
if the request is refused, and ends in `r` otherwise. -/
def Tries (A : Alloc) (s : Heap w × BV) (need : Option (Nat × Nat)) (res r : Except Halt (Except Exn α × (Heap w × BV))) : Prop :=
  (∃ n cap e, need = some (n, cap) ∧ Refused A s.1.next n cap e ∧ res = .ok (.error e, s)) ∨
  ((∀ n cap e, need = some (n, cap) → ¬ Refused A s.1.next n cap e) ∧ res = r)

theorem Tries.bind {A : Alloc} {s s' : Heap w × BV} {need : Option (Nat × Nat)} {x : T w α} {f : α → T w β} {a : α}
    {r : Except Halt (Except Exn β × (Heap w × BV))} (h : Tries A s need (x s) (.ok (.ok a, s'))) (hr : f a s' = r) :
    Tries A s need ((x >>= f) s) r := by
  rcases h with ⟨n, cap, e, h1, h2, h3⟩ | ⟨h1, h2⟩
  · refine .inl ⟨n, cap, e, h1, h2, ?_⟩
    rw [Obj.run_bind, h3]
  · refine .inr ⟨h1, ?_⟩
    rw [Obj.run_bind, h2]
    exact hr

theorem Tries.none {A : Alloc} {s : Heap w × BV} {res r : Except Halt (Except Exn α × (Heap w × BV))} (h : res = r) : Tries A s none res r :=
  .inr ⟨(by simp), h⟩

namespace Obj

theorem request_tries (A : Alloc) (n cap : Nat) (s : Heap w × BV) : Tries A s (some (n, cap)) (request A n cap s) (.ok (.ok (), s)) := by
  unfold request
  by_cases h1 : A.maxWords < n
  · rw [if_pos h1]
    exact .inl ⟨n, cap, _, rfl, .inl ⟨h1, rfl⟩, rfl⟩
  · rw [if_neg h1]
    cases h2 : A.grants s.1.next cap with
    | true =>
      refine .inr ⟨?_, rfl⟩
      rintro n' cap' e h3 (h4 | h4)
      · cases h3; omega
      · cases h3; rw [h2] at h4; exact absurd h4.2.1 (by decide)
    | false => exact .inl ⟨n, cap, _, rfl, .inr ⟨by omega, h2, rfl⟩, rfl⟩

theorem onlyIf_pos {c : Prop} [Decidable c] (p : T w Unit) (hc : c) : onlyIf c p = p := if_pos hc
theorem onlyIf_neg {c : Prop} [Decidable c] (p : T w Unit) (hc : ¬ c) : onlyIf c p = pure () := if_neg hc

/-- Request if needed, then a member function of `word_vector` that returns. -/
theorem words_tries {A : Alloc} (c : Prop) [Decidable c] {n cap : Nat} {p : Vec → V w Vec} {s : Heap w × BV} {u : Vec} {h' : Heap w}
    (hp : p s.2.vec s.1 = .ok (u, h')) :
    Tries A s (if c then some (n, cap) else none) ((onlyIf c (request A n cap) >>= fun _ => words p) s)
      (.ok (.ok (), (h', ⟨u, s.2.length⟩))) := by
  have hw : words p s = .ok (.ok (), (h', ⟨u, s.2.length⟩)) := by
    unfold words
    rw [hp]
  by_cases hc : c
  · rw [if_pos hc, onlyIf_pos _ hc]
    exact (request_tries A n cap s).bind hw
  · rw [if_neg hc, onlyIf_neg _ hc]
    exact .none hw

end Obj

/-- Some words can be appended: all calls on a `std::vector` return. -/
theorem Vec.ensure_ok (P : Policy) (v : Vec) (n : Nat) (h : Heap w) : ∃ u h', v.ensure P n h = .ok (u, h') := by
  unfold Vec.ensure
  split_ifs
  · exact ⟨_, _, rfl⟩
  · exact ⟨_, _, rfl⟩

theorem Vec.pushBack_ok (P : Policy) (v : Vec) (x : BitVec w) (h : Heap w) : ∃ u h', v.pushBack P x h = .ok (u, h') := by
  obtain ⟨u, h', e⟩ := Vec.ensure_ok P v (v.size + 1) h
  unfold Vec.pushBack
  rw [runV_bind_ok e]
  exact ⟨_, _, rfl⟩

theorem Vec.resize_ok (P : Policy) (v : Vec) (n : Nat) (h : Heap w) : ∃ u h', v.resize P n h = .ok (u, h') := by
  unfold Vec.resize
  split_ifs
  · exact ⟨_, _, rfl⟩
  · obtain ⟨u, h', e⟩ := Vec.ensure_ok P v n h
    rw [runV_bind_ok e]
    exact ⟨_, _, rfl⟩

theorem Vec.reserve_ok (P : Policy) (v : Vec) (n : Nat) (h : Heap w) : ∃ u h', v.reserve P n h = .ok (u, h') := by
  unfold Vec.reserve
  split_ifs
  · exact ⟨_, _, rfl⟩
  · exact ⟨_, _, rfl⟩

theorem Vec.shrinkToFit_ok (P : Policy) (v : Vec) (h : Heap w) : ∃ u h', v.shrinkToFit P h = .ok (u, h') := by
  unfold Vec.shrinkToFit
  split_ifs
  · exact ⟨_, _, rfl⟩
  · exact ⟨_, _, rfl⟩

theorem Vec.copyAssign_ok (P : Policy) (v o : Vec) (h : Heap w) : ∃ u h', v.copyAssign P o h = .ok (u, h') := by
  unfold Vec.copyAssign
  split_ifs
  · exact ⟨_, _, rfl⟩
  · exact ⟨_, _, rfl⟩

namespace Obj

/-- What `push_back` and `insert(pos, value)` ask for. -/
def needOne (P : Policy) (w : Nat) (v : BV) : Option (Nat × Nat) :=
  if v.vec.size * w = v.length ∧ v.vec.cap < v.vec.size + 1 then some (v.vec.size + 1, P.grow v.vec.cap (v.vec.size + 1)) else none

/-- What `word_vector.resize(n)` asks for. -/
def needWords (P : Policy) (v : BV) (n : Nat) : Option (Nat × Nat) :=
  if v.vec.size < n ∧ v.vec.cap < n then some (n, P.grow v.vec.cap n) else none

/-- The first statement of `push_back` and `insert(pos, value)`. -/
theorem room_tries (A : Alloc) (P : Policy) (h : Heap w) (v : BV) :
    ∃ u h', v.room P h = .ok (u, h') ∧
      Tries A (h, v) (needOne P w v) (onlyIf (v.vec.size * w = v.length) (wordsPushBack A P 0#w) (h, v))
        (.ok (.ok (), (h', ⟨u, v.length⟩))) := by
  unfold BV.room needOne
  by_cases hc : v.vec.size * w = v.length
  · rw [if_pos hc, onlyIf_pos _ hc]
    obtain ⟨u, h', e⟩ := Vec.pushBack_ok P v.vec 0#w h
    refine ⟨u, h', e, ?_⟩
    unfold wordsPushBack
    rw [run_this]
    have := words_tries (A := A) (v.vec.cap < v.vec.size + 1) (n := v.vec.size + 1) (cap := P.grow v.vec.cap (v.vec.size + 1))
      (p := fun u => u.pushBack P 0#w) (s := (h, v)) e
    simpa only [hc, true_and] using this
  · rw [if_neg hc, onlyIf_neg _ hc, if_neg (fun h => hc h.1)]
    exact ⟨_, _, rfl, .none rfl⟩

theorem wordsResize_tries (A : Alloc) (P : Policy) (h : Heap w) (v : BV) (n : Nat) :
    ∃ u h', v.vec.resize P n h = .ok (u, h') ∧
      Tries A (h, v) (needWords P v n) (wordsResize A P n (h, v)) (.ok (.ok (), (h', ⟨u, v.length⟩))) := by
  obtain ⟨u, h', e⟩ := Vec.resize_ok P v.vec n h
  refine ⟨u, h', e, ?_⟩
  unfold wordsResize
  rw [run_this]
  exact words_tries (v.vec.size < n ∧ v.vec.cap < n) (p := fun u => u.resize P n) (s := (h, v)) e

theorem pushBack_tries (S : ShiftSem w) (A : Alloc) (P : Policy) (h : Heap w) (v : BV) (b : Bool) :
    Tries A (h, v) (needOne P w v) (pushBack S A P b (h, v)) (asUnit (v.pushBack S P b h)) := by
  obtain ⟨u, h', e, ht⟩ := room_tries A P h v
  unfold pushBack BV.pushBack
  rw [run_this, runV_bind_ok e]
  refine ht.bind ?_
  rw [run_this, run_onMemory, runV_onMem]
  dsimp only
  rcases lift (BitIter.index S (BV.begin ⟨u, v.length⟩) (v.length : Int)) h'.mem with e1 | ⟨r, m1⟩
  · rfl
  · dsimp only
    rw [run_onMemory, runV_onMem]
    dsimp only
    rcases r.assignVal ⟨b⟩ m1 with e1 | ⟨_, m2⟩ <;> rfl

theorem insert_tries (S : ShiftSem w) (A : Alloc) (P : Policy) (h : Heap w) (v : BV) (pos : BitIter w) (b : Bool) {d : Int}
    (hd : distance v.begin pos h.mem = .ok (d, h.mem)) :
    Tries A (h, v) (needOne P w v) (insert S A P pos b (h, v)) (asObj (v.insert S P pos b h)) := by
  obtain ⟨u, h', e, ht⟩ := room_tries A P h v
  unfold insert BV.insert
  rw [run_this, run_onMemory, runV_onMem]
  dsimp only
  rw [hd]
  dsimp only
  rw [runV_bind_ok e]
  refine ht.bind ?_
  rw [run_this, run_setLength, run_this, run_onMemory, runV_onMem]
  dsimp only
  generalize shiftRight S _ _ _ h'.mem = x
  rcases x with e1 | ⟨r, m1⟩
  · rfl
  · dsimp only
    rw [run_onMemory, runV_onMem]
    dsimp only
    generalize lift _ m1 = x
    rcases x with e1 | ⟨r, m2⟩
    · rfl
    · dsimp only
      rw [run_onMemory, runV_onMem]
      dsimp only
      rcases r.assignVal ⟨b⟩ m2 with e1 | ⟨_, m2⟩ <;> rfl

/-- What the growing of `insert(pos, count, value)` and `insert(pos, first, last)` asks for. -/
def needGrow (P : Policy) (w : Nat) (v : BV) (count : Nat) : Option (Nat × Nat) :=
  if f32 (v.length + count) > f32 (v.vec.size * w) then
    match floatToU32 (f32 (f32 (v.length + count) - f32 (v.vec.size * w))) with
    | .ok x => needWords P v (v.vec.size + wordCount w x)
    | .error _ => none
  else none

theorem growFor_tries (A : Alloc) (P : Policy) (h : Heap w) (v : BV) (count : Nat) :
    (∃ e, needGrow P w v count = none ∧ v.growFor P count h = .error (.ub e) ∧ growFor A P count (h, v) = .error (.ub e)) ∨
    ∃ u h', v.growFor P count h = .ok (u, h') ∧
      Tries A (h, v) (needGrow P w v count) (growFor A P count (h, v)) (.ok (.ok (), (h', ⟨u, v.length⟩))) := by
  unfold needGrow BV.growFor growFor
  rw [run_this]
  dsimp only
  by_cases hc : f32 (v.length + count) > f32 (v.vec.size * w)
  · rw [if_pos hc, onlyIf_pos _ hc, run_onMemory, if_pos hc, runV_onMem]
    cases hx : floatToU32 (f32 (f32 (v.length + count) - f32 (v.vec.size * w))) with
    | error e => exact .inl ⟨e, rfl, rfl, rfl⟩
    | ok x =>
      right
      obtain ⟨u, h', e, ht⟩ := wordsResize_tries A P h v (v.vec.size + wordCount w x)
      exact ⟨u, h', e, ht⟩
  · rw [if_neg hc, onlyIf_neg _ hc, if_neg hc]
    exact .inr ⟨v.vec, h, rfl, .none rfl⟩

theorem runV_bind_error {x : V w α} {f : α → V w β} {h : Heap w} {e : Stop} (hx : x h = .error e) : (x >>= f) h = .error e := by
  show (Except.bind (x h) fun q => _) = _
  rw [hx]; rfl

theorem insertN_tries (S : ShiftSem w) (A : Alloc) (P : Policy) (h : Heap w) (v : BV) (pos : BitIter w) (count : Nat) (b : Bool) {d : Int}
    (hd : distance v.begin pos h.mem = .ok (d, h.mem)) :
    Tries A (h, v) (if count = 0 then none else needGrow P w v count) (insertN S A P pos count b (h, v))
      (asObj (v.insertN S P pos count b h)) := by
  unfold insertN BV.insertN
  rw [run_this, run_onMemory, runV_onMem]
  dsimp only
  rw [hd]
  dsimp only
  by_cases h0 : count = 0
  · rw [if_pos h0, if_pos h0, if_pos h0]
    exact .none rfl
  rw [if_neg h0, if_neg h0, if_neg h0]
  rcases growFor_tries A P h v count with ⟨e, h1, h2, h3⟩ | ⟨u, h', e, ht⟩
  · rw [h1, runV_bind_error h2]
    refine .none ?_
    rw [run_bind, h3]
    rfl
  rw [runV_bind_ok e]
  refine ht.bind ?_
  rw [run_this, run_setLength, run_this, run_onMemory, runV_onMem]
  dsimp only
  generalize shiftRight S _ _ _ h'.mem = x
  rcases x with e1 | ⟨r, m1⟩
  · rfl
  · dsimp only
    rw [run_onMemory, runV_onMem]
    dsimp only
    generalize fill S _ _ _ m1 = x
    rcases x with e1 | ⟨_, m2⟩ <;> rfl

theorem insertRange_tries (S : ShiftSem w) (A : Alloc) (P : Policy) (h : Heap w) (v : BV) (pos first last : BitIter w) {d c : Int}
    (hd : distance v.begin pos h.mem = .ok (d, h.mem)) (hc : distance first last h.mem = .ok (c, h.mem)) :
    Tries A (h, v) (if toSize c = 0 then none else needGrow P w v (toSize c)) (insertRange S A P pos first last (h, v))
      (asObj (v.insertRange S P pos first last h)) := by
  unfold insertRange BV.insertRange
  rw [run_this, run_onMemory, runV_onMem]
  dsimp only
  rw [hd]
  dsimp only
  rw [run_onMemory, runV_onMem]
  dsimp only
  rw [hc]
  dsimp only
  by_cases h0 : toSize c = 0
  · rw [if_pos h0, if_pos h0, if_pos h0]
    exact .none rfl
  rw [if_neg h0, if_neg h0, if_neg h0]
  rcases growFor_tries A P h v (toSize c) with ⟨e, h1, h2, h3⟩ | ⟨u, h', e, ht⟩
  · rw [h1, runV_bind_error h2]
    refine .none ?_
    rw [run_bind, h3]
    rfl
  rw [runV_bind_ok e]
  refine ht.bind ?_
  rw [run_this, run_setLength, run_this, run_onMemory, runV_onMem]
  dsimp only
  generalize shiftRight S _ _ _ h'.mem = x
  rcases x with e1 | ⟨r, m1⟩
  · rfl
  · dsimp only
    rw [run_onMemory, runV_onMem]
    dsimp only
    generalize copy S _ _ _ m1 = x
    rcases x with e1 | ⟨_, m2⟩ <;> rfl

theorem resize_tries (A : Alloc) (P : Policy) (h : Heap w) (v : BV) (n : Nat) :
    Tries A (h, v) (needWords P v (wordCount w n)) (resize A P n (h, v)) (asUnit (v.resize P n h)) := by
  obtain ⟨u, h', e, ht⟩ := wordsResize_tries A P h v (wordCount w n)
  unfold resize BV.resize
  rw [runV_bind_ok e]
  exact ht.bind rfl

theorem resizeVal_tries (S : ShiftSem w) (A : Alloc) (P : Policy) (h : Heap w) (v : BV) (n : Nat) (b : Bool) :
    Tries A (h, v) (needWords P v (wordCount w n)) (resizeVal S A P n b (h, v)) (asUnit (v.resizeVal S P n b h)) := by
  obtain ⟨u, h', e, ht⟩ := wordsResize_tries A P h v (wordCount w n)
  unfold resizeVal BV.resizeVal
  rw [run_this]
  dsimp only
  rw [runV_bind_ok e]
  refine ht.bind ?_
  rw [run_setLength, run_this]
  dsimp only
  by_cases hc : n > v.length
  · rw [onlyIf_pos _ hc, if_pos hc, runV_onMem]
    unfold onMemory
    dsimp only
    generalize fill S _ _ _ h'.mem = x
    rcases x with e1 | ⟨_, m2⟩ <;> rfl
  · rw [onlyIf_neg _ hc, if_neg hc]
    rfl

theorem reserve_tries (A : Alloc) (P : Policy) (h : Heap w) (v : BV) (n : Nat) :
    Tries A (h, v) (if v.vec.cap < wordCount w n then some (wordCount w n, P.alloc (wordCount w n)) else none) (reserve A P n (h, v))
      (asUnit (v.reserve P n h)) := by
  obtain ⟨u, h', e⟩ := Vec.reserve_ok P v.vec (wordCount w n) h
  unfold reserve wordsReserve BV.reserve
  rw [run_this, runV_bind_ok e]
  exact words_tries (v.vec.cap < wordCount w n) (p := fun u => u.reserve P (wordCount w n)) (s := (h, v)) e

theorem copyAssign_tries (A : Alloc) (P : Policy) (h : Heap w) (v o : BV) :
    Tries A (h, v) (if v.vec.cap < o.vec.size then some (o.vec.size, P.alloc o.vec.size) else none) (copyAssign A P o (h, v))
      (asUnit (v.copyAssign P o h)) := by
  obtain ⟨u, h', e⟩ := Vec.copyAssign_ok P v.vec o.vec h
  have ht := words_tries (A := A) (v.vec.cap < o.vec.size) (n := o.vec.size) (cap := P.alloc o.vec.size) (p := fun u => u.copyAssign P o.vec)
    (s := (h, v)) e
  unfold copyAssign BV.copyAssign
  rw [run_this, runV_bind_ok e]
  have := ht.bind (f := fun _ => setLength o.length) rfl
  rw [bind_assoc] at this
  exact this

/-- `shrink_to_fit` does what it does with a granted request, or nothing; it may report the refusal. -/
theorem shrinkToFit_cases (A : Alloc) (P : Policy) (h : Heap w) (v : BV) :
    shrinkToFit A P (h, v) = asUnit (v.shrinkToFit P h) ∨
      (P.shrink v.vec.size v.vec.cap = true ∧ A.grants h.next v.vec.size = false ∧
        shrinkToFit A P (h, v) = .ok (if A.shrinkThrows then .error .badAlloc else .ok (), (h, v))) := by
  obtain ⟨u, h', e⟩ := Vec.shrinkToFit_ok P v.vec h
  unfold shrinkToFit wordsShrink BV.shrinkToFit
  dsimp only
  rw [runV_bind_ok e]
  by_cases h1 : (P.shrink v.vec.size v.vec.cap && !A.grants h.next v.vec.size) = true
  · right
    rw [if_pos h1]
    simp at h1
    refine ⟨h1.1, h1.2, ?_⟩
    split_ifs <;> rfl
  · left
    rw [if_neg h1]
    unfold words
    dsimp only
    rw [e]
    rfl

/-! ### Members that ask for nothing -/

theorem popBack_eq (h : Heap w) (v : BV) : popBack (h, v) = asUnit (v.popBack h) := by
  unfold popBack BV.popBack BV.dropWord
  rw [run_this, run_setLength, run_this]
  dsimp only
  by_cases hc : subSize v.length 1 % w = 0
  · rw [onlyIf_pos _ hc, if_pos hc]
    unfold words Vec.popBack
    dsimp only
    by_cases h0 : v.vec.size = 0
    · rw [if_pos h0, runV_bind_error rfl]
      rfl
    · rw [if_neg h0]
      rfl
  · rw [onlyIf_neg _ hc, if_neg hc]
    rfl

theorem erase_eq (S : ShiftSem w) (h : Heap w) (v : BV) (pos : BitIter w) : erase S pos (h, v) = asObj (v.erase S pos h) := by
  unfold erase BV.erase BV.dropWord
  rw [run_this, run_onMemory, runV_onMem]
  dsimp only
  generalize shiftLeft S _ _ _ h.mem = x
  rcases x with e1 | ⟨_, m1⟩
  · rfl
  dsimp only
  rw [run_setLength, run_this]
  dsimp only
  by_cases hc : subSize v.length 1 % w = 0
  · rw [onlyIf_pos _ hc, if_pos hc, run_bind]
    unfold words Vec.popBack
    dsimp only
    by_cases h0 : v.vec.size = 0
    · rw [if_pos h0, runV_bind_error rfl]
      rfl
    · rw [if_neg h0]
      rfl
  · rw [onlyIf_neg _ hc, if_neg hc]
    rfl

theorem clear_eq (h : Heap w) (v : BV) : clear (h, v) = asUnit (v.clear h) := rfl

theorem set_eq (S : ShiftSem w) (h : Heap w) (v : BV) (k : Nat) (b : Bool) : set S k b (h, v) = asUnit (v.set S k b h) := by
  unfold set BV.set BV.index
  rw [run_this, run_onMemory, runV_onMem]
  dsimp only
  generalize lift _ h.mem = x
  rcases x with e1 | ⟨r, m1⟩
  · rfl
  dsimp only
  rw [runV_onMem]
  unfold onMemory
  dsimp only
  rcases r.assignVal ⟨b⟩ m1 with e1 | ⟨_, m2⟩ <;> rfl

/-- `erase(first, last)` never needs more words than there are. -/
theorem eraseRange_eq (S : ShiftSem w) (A : Alloc) (P : Policy) (h : Heap w) (v : BV) (first last : BitIter w) (hw : 0 < w)
    (hfit : v.length ≤ v.vec.size * w) {c : Int} (hc : distance first last h.mem = .ok (c, h.mem)) (h0 : 0 ≤ c) (hle : c ≤ (v.length : Int)) :
    eraseRange S A P first last (h, v) = asObj (v.eraseRange S P first last h) := by
  unfold eraseRange BV.eraseRange
  rw [run_this, run_onMemory, runV_onMem]
  dsimp only
  have hd : ∀ (it : BitIter w), (∃ e, distance v.begin it h.mem = .error e) ∨ ∃ d, distance v.begin it h.mem = .ok (d, h.mem) := by
    intro it
    unfold distance assertViable assertM
    split_ifs
    · exact .inr ⟨_, rfl⟩
    · exact .inl ⟨_, rfl⟩
  rcases hd first with ⟨e, hd⟩ | ⟨d, hd⟩
  · rw [hd]; rfl
  rw [hd]
  dsimp only
  rw [run_onMemory, runV_onMem]
  dsimp only
  rw [hc]
  dsimp only
  by_cases hz : c = 0
  · rw [if_pos hz, if_pos hz]; rfl
  rw [if_neg hz, if_neg hz, run_onMemory, runV_onMem]
  dsimp only
  generalize shiftLeft S _ _ _ h.mem = x
  rcases x with e1 | ⟨_, m1⟩
  · rfl
  dsimp only
  rw [run_setLength, run_this]
  dsimp only
  generalize hn : toSize ((v.length : Int) - c) = n
  have hnl : n ≤ v.length := by
    rw [← hn]
    unfold toSize
    rw [if_pos (by omega)]
    omega
  obtain ⟨u, h', e, ht⟩ := wordsResize_tries A P { h with mem := m1 } ⟨v.vec, n⟩ (wordCount w n)
  rw [runV_bind_ok e]
  have hneed : needWords P ⟨v.vec, n⟩ (wordCount w n) = none := by
    unfold needWords
    rw [if_neg]
    rintro ⟨h1, _⟩
    have h2 : wordCount w n * w < n % 2 ^ 32 + w := by
      unfold wordCount
      have h3 := Nat.div_mul_le_self (n % 2 ^ 32 + w - 1) w
      omega
    have h4 : n % 2 ^ 32 ≤ n := Nat.mod_le _ _
    have h5 : (v.vec.size + 1) * w ≤ wordCount w n * w := Nat.mul_le_mul_right w h1
    rw [Nat.add_mul] at h5
    omega
  rw [hneed] at ht
  rcases ht with ⟨_, _, _, h1, _⟩ | ⟨_, h2⟩
  · cases h1
  · rw [run_bind, h2]
    rfl

/-! ### Constructors -/

/-- The result of a constructor from the result of its body. -/
def finish : Except Halt (Except Exn Unit × (Heap w × BV)) → Except Halt (Except Exn BV × Heap w)
  | .error e => .error e
  | .ok (.ok (), (h', v)) => .ok (.ok v, h')
  | .ok (.error e, (h', v)) => .ok (.error e, { h' with mem := h'.mem.place v.vec.ptr v.vec.cap fun _ => none })

theorem construct_eq (p : T w Unit) (h : Heap w) : construct p h = finish (p (h, BV.default)) := rfl

/-- The result of a constructor of `Model/Vector`. -/
def asNew : Except Stop (BV × Heap w) → Except Halt (Except Exn BV × Heap w)
  | .ok (v, h) => .ok (.ok v, h)
  | .error (.ub e) => .error (.ub e)
  | .error (.throw _) => .error .terminate

theorem finish_asUnit (x : Except Stop (BV × Heap w)) : finish (asUnit x) = asNew x := by
  rcases x with (e | e) | ⟨v, h⟩ <;> rfl

theorem place_zero (m : Mem w) (p : Int) (f : Nat → Option (BitVec w)) : m.place p 0 f = m := by
  funext i
  unfold Mem.place
  rw [if_neg (by omega)]

/-- A constructor makes the request `need`, if any: if it is refused the call throws and leaves nothing behind, else it ends in `r`. -/
def NewTries (A : Alloc) (h : Heap w) (need : Option (Nat × Nat)) (res r : Except Halt (Except Exn BV × Heap w)) : Prop :=
  (∃ n cap e, need = some (n, cap) ∧ Refused A h.next n cap e ∧ res = .ok (.error e, h)) ∨
  ((∀ n cap e, need = some (n, cap) → ¬ Refused A h.next n cap e) ∧ res = r)

theorem new_tries {A : Alloc} {h : Heap w} {k : Nat} {need : Option (Nat × Nat)} {res : Except Halt (Except Exn Unit × (Heap w × BV))}
    {x : Except Stop (BV × Heap w)} (ht : Tries A (h, ⟨Vec.empty, k⟩) need res (asUnit x)) : NewTries A h need (finish res) (asNew x) := by
  rcases ht with ⟨n, cap, e, h1, h2, h3⟩ | ⟨h1, h2⟩
  · refine .inl ⟨n, cap, e, h1, h2, ?_⟩
    rw [h3]
    show Except.ok (Except.error e, { h with mem := h.mem.place Vec.empty.ptr 0 _ }) = _
    rw [place_zero]
  · refine .inr ⟨h1, ?_⟩
    rw [h2, finish_asUnit]

/-- What the construction of `n` words asks for. -/
def needNew (P : Policy) (n : Nat) : Option (Nat × Nat) := if 0 < n then some (n, P.alloc n) else none

theorem wordsInit_tries (A : Alloc) (P : Policy) (h : Heap w) (v : BV) (n : Nat) (f : Nat → Option (BitVec w)) :
    ∃ u h', Vec.fresh P n f h = .ok (u, h') ∧ u.size = n ∧
      Tries A (h, v) (needNew P n) (wordsInit A P n f (h, v)) (.ok (.ok (), (h', ⟨u, v.length⟩))) := by
  refine ⟨_, _, rfl, rfl, ?_⟩
  unfold wordsInit needNew
  exact words_tries (0 < n) (p := fun _ => Vec.fresh P n f) (s := (h, v)) rfl

theorem ofCountVal_tries (A : Alloc) (P : Policy) (h : Heap w) (n : Nat) (b : Bool) :
    NewTries A h (needNew P (wordCount w n)) (construct (ofCountVal A P n b) h) (asNew (BV.ofCountVal P n b h)) := by
  rw [construct_eq]
  refine new_tries (k := 0) ?_
  unfold ofCountVal BV.ofCountVal
  obtain ⟨u, h', e, _, ht⟩ := wordsInit_tries A P h BV.default (wordCount w n) fun _ => some (if b then BitVec.allOnes w else 0#w)
  rw [runV_bind_ok e]
  exact ht.bind rfl

theorem ofCount_tries (A : Alloc) (P : Policy) (h : Heap w) (n : Nat) :
    NewTries A h (needNew P (wordCount w n)) (construct (ofCount A P n) h) (asNew (BV.ofCount P n h)) := by
  rw [construct_eq]
  refine new_tries (k := 0) ?_
  unfold ofCount BV.ofCount
  obtain ⟨u, h', e, _, ht⟩ := wordsInit_tries A P h BV.default (wordCount w n) fun _ => some 0#w
  rw [runV_bind_ok e]
  exact ht.bind rfl

theorem ofWords_tries (A : Alloc) (P : Policy) (h : Heap w) (l : List (BitVec w)) :
    NewTries A h (needNew P l.length) (construct (ofWords A P l) h) (asNew (BV.ofWords P l h)) := by
  rw [construct_eq]
  refine new_tries (k := 0) ?_
  unfold ofWords BV.ofWords
  obtain ⟨u, h', e, _, ht⟩ := wordsInit_tries A P h BV.default l.length fun i => l[i]?
  rw [runV_bind_ok e]
  exact ht.bind rfl

theorem distance_cases (a b : BitIter w) :
    (∃ e, ∀ m, distance a b m = .error e) ∨ ∃ d, ∀ m, distance a b m = .ok (d, m) := by
  unfold distance assertViable assertM
  split_ifs
  · exact .inr ⟨_, fun _ => rfl⟩
  · exact .inl ⟨_, fun _ => rfl⟩

theorem ofBits_tries (S : ShiftSem w) (A : Alloc) (P : Policy) (h : Heap w) (first last : BitIter w) {d : Int}
    (hd : distance first last h.mem = .ok (d, h.mem)) :
    NewTries A h (needNew P (toSize d)) (construct (ofBits S A P first last) h) (asNew (BV.ofBits S P first last h)) := by
  have hd : ∀ m, distance first last m = .ok (d, m) := by
    rcases distance_cases first last with ⟨e, h1⟩ | ⟨d', h1⟩
    · rw [h1] at hd; cases hd
    · rw [h1] at hd; cases hd; exact h1
  rw [construct_eq]
  refine new_tries (k := 0) ?_
  unfold ofBits BV.ofBits
  rw [run_onMemory, runV_onMem]
  dsimp only
  rw [hd]
  dsimp only
  obtain ⟨u, h', e, _, ht⟩ := wordsInit_tries A P h BV.default (toSize d) fun _ => some 0#w
  rw [runV_bind_ok e]
  refine ht.bind ?_
  rw [run_onMemory, runV_onMem]
  dsimp only
  rw [hd]
  dsimp only
  rw [run_setLength, run_this, run_onMemory, runV_onMem]
  dsimp only
  generalize copy S _ _ _ h'.mem = x
  rcases x with e1 | ⟨_, m2⟩ <;> rfl

theorem ofBoolRange_tries (S : ShiftSem w) (A : Alloc) (P : Policy) (h : Heap w) (l : List Bool) :
    NewTries A h (needNew P l.length) (construct (ofBoolRange S A P l) h) (asNew (BV.ofBoolRange S P l h)) := by
  rw [construct_eq]
  refine new_tries (k := 0) ?_
  unfold ofBoolRange BV.ofBoolRange
  obtain ⟨u, h', e, _, ht⟩ := wordsInit_tries A P h BV.default l.length fun _ => some 0#w
  rw [runV_bind_ok e]
  refine ht.bind ?_
  rw [run_setLength, run_this]
  dsimp only
  rw [runV_onMem]
  unfold onMemory
  dsimp only
  generalize BV.writeBools S _ _ h'.mem = x
  rcases x with e1 | ⟨_, m2⟩ <;> rfl

theorem ofString_tries (S : ShiftSem w) (A : Alloc) (P : Policy) (h : Heap w) (s : List Char) :
    NewTries A h (needNew P (s.count '0' + s.count '1')) (construct (ofString S A P s) h) (asNew (BV.ofString S P s h)) := by
  rw [construct_eq]
  unfold ofString BV.ofString
  rw [run_setLength, run_this]
  dsimp only
  generalize s.count '0' + s.count '1' = n
  refine new_tries (k := n) ?_
  obtain ⟨u, h', e, _, ht⟩ := wordsInit_tries A P h ⟨Vec.empty, n⟩ n fun _ => some 0#w
  rw [runV_bind_ok e]
  refine ht.bind ?_
  rw [run_this]
  dsimp only
  rw [runV_onMem]
  unfold onMemory
  dsimp only
  generalize BV.writeChars S _ _ _ h'.mem = x
  rcases x with e1 | ⟨_, m2⟩ <;> rfl

theorem copyOf_tries (A : Alloc) (P : Policy) (h : Heap w) (o : BV) :
    NewTries A h (needNew P o.vec.size) (construct (copyOf A P o) h) (asNew (BV.copyOf P o h)) := by
  rw [construct_eq]
  refine new_tries (k := 0) ?_
  have ht := words_tries (A := A) (0 < o.vec.size) (n := o.vec.size) (cap := P.alloc o.vec.size) (p := fun _ => Vec.copyOf P o.vec)
    (s := (h, BV.default)) rfl
  have := ht.bind (f := fun _ => setLength o.length) rfl
  rw [bind_assoc] at this
  exact this

/-- The loop of `push_back`s: it does what it does with granted requests, or stops with a shorter valid vector. -/
theorem ofBoolList_cases (S : ShiftSem w) (A : Alloc) (P : Policy) (hw : 0 < w) : ∀ (l : List Bool) (h : Heap w) (v : BV) (l0 : List Bool),
    h.WF → Rep h v l0 →
    (∃ e h' v' n, n < l.length ∧ ofBoolList S A P l (h, v) = .ok (.error e, (h', v')) ∧ (e = .badAlloc ∨ e = .lengthError) ∧
      VStep h v.vec h' v'.vec ∧ Rep h' v' (l0 ++ l.take n)) ∨
    ofBoolList S A P l (h, v) = asUnit (l.foldlM (fun v b => v.pushBack S P b) v h) := by
  intro l
  induction l with
  | nil => intro h v l0 _ _; exact .inr rfl
  | cons b l ih =>
    intro h v l0 hwf r
    unfold ofBoolList
    rw [run_bind, List.foldlM_cons]
    rcases pushBack_tries S A P h v b with ⟨n, cap, e, h1, h2, h3⟩ | ⟨h1, h2⟩
    · left
      refine ⟨e, h, v, 0, by simp, by rw [h3], ?_, VStep.refl hwf _, by simpa using r⟩
      rcases h2 with ⟨_, h2⟩ | ⟨_, _, h2⟩
      · exact .inr h2
      · exact .inl h2
    · obtain ⟨v1, h1', e1, s1, r1⟩ := wpV_push S hw (P := P) (b := b) (Q := fun v' h' => VStep h v.vec h' v'.vec ∧ Rep h' v' (l0 ++ [b]))
        hwf r fun _ _ s r => ⟨s, r⟩
      rw [h2, runV_bind_ok e1, e1]
      show (∃ e h' v' n, n < _ ∧ ofBoolList S A P l (h1', v1) = _ ∧ _) ∨ ofBoolList S A P l (h1', v1) = _
      rcases ih h1' v1 _ s1.wf r1 with ⟨e, h', v', n, hn, h3, h4, h5, h6⟩ | h3
      · left
        refine ⟨e, h', v', n + 1, by simpa using hn, h3, h4, s1.trans h5, ?_⟩
        simpa using h6
      · exact .inr h3

/-! ### The requests in terms of size and capacity -/

theorem needOne_eq {P : Policy} (hw : 0 < w) {h : Heap w} {v : BV} {l : List Bool} (r : Rep h v l) :
    needOne P w v = if l.length = v.capacity w then some (v.vec.cap + 1, P.grow v.vec.cap (v.vec.cap + 1)) else none := by
  have hc := r.ok.cap
  have hf := r.fit
  rw [r.len] at hf
  unfold needOne BV.capacity
  rw [r.len]
  by_cases h1 : l.length = v.vec.cap * w
  · have h2 : v.vec.size = v.vec.cap := by
      have : v.vec.cap ≤ v.vec.size := Nat.le_of_mul_le_mul_right (by omega) hw
      omega
    rw [if_pos h1, if_pos ⟨by rw [h2]; exact h1.symm, by omega⟩, h2]
  · rw [if_neg h1, if_neg]
    rintro ⟨h2, h3⟩
    have h4 : v.vec.size = v.vec.cap := by omega
    rw [h4] at h2
    exact h1 h2.symm

theorem wordCount_le_iff (hw : 0 < w) {n c : Nat} (hn : n < 2 ^ 32) : wordCount w n ≤ c ↔ n ≤ c * w := by
  have h1 := wordCount_ge hw hn
  have h2 := wordCount_lt hw hn
  constructor
  · intro h
    have := Nat.mul_le_mul_right w h
    omega
  · intro h
    by_contra hc
    have := Nat.mul_le_mul_right w (show c + 1 ≤ wordCount w n by omega)
    rw [Nat.add_mul] at this
    omega

theorem needWords_eq {P : Policy} (hw : 0 < w) {h : Heap w} {v : BV} {l : List Bool} (r : Rep h v l) {n : Nat} (hn : n < 2 ^ 32) :
    needWords P v (wordCount w n) =
      if v.capacity w < n then some (wordCount w n, P.grow v.vec.cap (wordCount w n)) else none := by
  have hc := r.ok.cap
  have h1 := wordCount_le_iff hw (c := v.vec.cap) hn
  unfold needWords BV.capacity
  by_cases h2 : v.vec.cap * w < n
  · rw [if_pos h2, if_pos (by omega)]
  · rw [if_neg h2, if_neg (by omega)]

theorem needGrow_eq {P : Policy} (hw : 0 < w) {h : Heap w} {v : BV} {l : List Bool} (r : Rep h v l) {n : Nat} (hn : l.length + n ≤ 2 ^ 24) :
    needGrow P w v n =
      if v.capacity w < l.length + n then some (wordCount w (l.length + n), P.grow v.vec.cap (wordCount w (l.length + n))) else none := by
  have hc := r.ok.cap
  have hcw := Nat.mul_le_mul_right w hc
  rw [← needWords_eq hw r (by omega)]
  unfold needGrow
  rw [r.len, f32_small hn]
  rcases Nat.lt_or_ge (v.vec.size * w) (2 ^ 24) with h1 | h1
  · rw [f32_small (Nat.le_of_lt h1)]
    by_cases h2 : l.length + n > v.vec.size * w
    · rw [if_pos h2, f32_small (by omega)]
      unfold floatToU32
      rw [if_pos (by omega)]
      dsimp only
      congr 1
      unfold wordCount
      rw [Nat.mod_eq_of_lt (by omega), Nat.mod_eq_of_lt (by omega), Nat.add_comm v.vec.size, ← Nat.add_mul_div_right _ _ hw]
      congr 1
      omega
    · rw [if_neg h2]
      unfold needWords
      rw [if_neg]
      have := (wordCount_le_iff hw (n := l.length + n) (c := v.vec.size) (by omega)).2 (by omega)
      omega
  · have h2 := f32_big h1
    rw [if_neg (by omega)]
    unfold needWords
    rw [if_neg]
    have := (wordCount_le_iff hw (n := l.length + n) (c := v.vec.size) (by omega)).2 (by omega)
    omega

end Obj

theorem Refused.unique {A : Alloc} {next : Int} {n cap : Nat} {e e' : Exn} (h : Refused A next n cap e) (h' : Refused A next n cap e') :
    e = e' := by
  rcases h with ⟨h1, h2⟩ | ⟨h1, h2, h3⟩ <;> rcases h' with ⟨h4, h5⟩ | ⟨h4, h5, h6⟩
  · rw [h2, h5]
  · omega
  · omega
  · rw [h3, h6]

theorem Tries.exact {A : Alloc} {s : Heap w × BV} {c : Prop} [Decidable c] {n cap : Nat}
    {res r : Except Halt (Except Exn α × (Heap w × BV))} (h : Tries A s (if c then some (n, cap) else Option.none) res r) :
    (∀ e, c → Refused A s.1.next n cap e → res = .ok (.error e, s)) ∧ (¬ (c ∧ ∃ e, Refused A s.1.next n cap e) → res = r) := by
  rcases h with ⟨n', cap', e, h1, h2, h3⟩ | ⟨h1, h2⟩
  · by_cases hc : c
    · rw [if_pos hc] at h1
      cases h1
      exact ⟨fun e' _ h4 => by rw [h2.unique h4] at h3; exact h3, fun h4 => absurd ⟨hc, _, h2⟩ h4⟩
    · rw [if_neg hc] at h1
      cases h1
  · refine ⟨fun e hc h4 => ?_, fun _ => h2⟩
    exact absurd h4 (h1 n cap e (if_pos hc))

/-! ### Calls that stay within the capacity keep the storage -/

theorem runV_bind_inv {x : V w α} {f : α → V w β} {h h' : Heap w} {b : β} (he : (x >>= f) h = .ok (b, h')) :
    ∃ a h1, x h = .ok (a, h1) ∧ f a h1 = .ok (b, h') := by
  cases hx : x h with
  | error e => rw [Obj.runV_bind_error hx] at he; cases he
  | ok p => rw [runV_bind_ok hx] at he; exact ⟨_, _, rfl, he⟩

theorem onMem_distance {a b : BitIter w} {h h' : Heap w} {d : Int} (e0 : onMem (distance a b) h = .ok (d, h')) : h' = h := by
  unfold onMem at e0
  rcases Obj.distance_cases (w := w) a b with ⟨e, hd⟩ | ⟨d, hd⟩
  · rw [hd] at e0; cases e0
  · rw [hd] at e0; cases e0; rfl

/-- Same address and same capacity. -/
def Vec.Same (u v : Vec) : Prop := u.ptr = v.ptr ∧ u.cap = v.cap

theorem Vec.pushBack_same {P : Policy} {v u : Vec} {x : BitVec w} {h h' : Heap w} (hc : v.size + 1 ≤ v.cap)
    (he : v.pushBack P x h = .ok (u, h')) : u.Same v := by
  unfold Vec.pushBack Vec.ensure at he
  rw [if_pos hc] at he
  cases he
  exact ⟨rfl, rfl⟩

theorem Vec.resize_same {P : Policy} {v u : Vec} {n : Nat} {h h' : Heap w} (hc : n ≤ v.cap) (he : v.resize P n h = .ok (u, h')) :
    u.Same v := by
  unfold Vec.resize Vec.ensure at he
  rw [if_pos hc] at he
  split_ifs at he
  · cases he; exact ⟨rfl, rfl⟩
  · cases he; exact ⟨rfl, rfl⟩

theorem BV.room_same {P : Policy} (_hw : 0 < w) {h h' : Heap w} {v : BV} {u : Vec} {l : List Bool} (r : Rep h v l)
    (hc : l.length < v.capacity w) (he : v.room P h = .ok (u, h')) : u.Same v.vec := by
  unfold BV.room at he
  unfold BV.capacity at hc
  split_ifs at he with h1
  · refine Vec.pushBack_same ?_ he
    rw [r.len] at h1
    rw [← h1] at hc
    exact Nat.lt_of_mul_lt_mul_right hc
  · cases he; exact ⟨rfl, rfl⟩

theorem BV.growFor_same {P : Policy} (hw : 0 < w) {h h' : Heap w} {v : BV} {u : Vec} {l : List Bool} (r : Rep h v l) {n : Nat}
    (hc : l.length + n ≤ v.capacity w) (hn : l.length + n ≤ 2 ^ 24) (he : v.growFor P n h = .ok (u, h')) : u.Same v.vec := by
  unfold BV.growFor at he
  unfold BV.capacity at hc
  rw [r.len, f32_small hn] at he
  rcases Nat.lt_or_ge (v.vec.size * w) (2 ^ 24) with h1 | h1
  · rw [f32_small (Nat.le_of_lt h1)] at he
    split_ifs at he with h2
    · rw [f32_small (by omega), runV_onMem] at he
      unfold floatToU32 at he
      rw [if_pos (by omega)] at he
      refine Vec.resize_same ?_ he
      have h3 : wordCount w (l.length + n - v.vec.size * w) ≤ v.vec.cap - v.vec.size := by
        refine (Obj.wordCount_le_iff hw (by omega)).2 ?_
        rw [Nat.sub_mul]
        omega
      have := r.ok.cap
      omega
    · cases he; exact ⟨rfl, rfl⟩
  · have h2 := f32_big h1
    rw [if_neg (by omega)] at he
    cases he
    exact ⟨rfl, rfl⟩

theorem BV.pushBack_same {S : ShiftSem w} {P : Policy} (hw : 0 < w) {h h' : Heap w} {v v' : BV} {l : List Bool} {b : Bool} (r : Rep h v l)
    (hc : l.length < v.capacity w) (he : v.pushBack S P b h = .ok (v', h')) : v'.vec.Same v.vec := by
  unfold BV.pushBack at he
  obtain ⟨u, h1, e1, he1⟩ := runV_bind_inv he
  obtain ⟨_, h2, _, he2⟩ := runV_bind_inv he1
  obtain ⟨_, h3, _, he3⟩ := runV_bind_inv he2
  cases he3
  exact BV.room_same hw r hc e1

theorem BV.insert_same {S : ShiftSem w} {P : Policy} (hw : 0 < w) {h h' : Heap w} {v v' : BV} {l : List Bool} {b : Bool} {pos it : BitIter w}
    (r : Rep h v l) (hc : l.length < v.capacity w) (he : v.insert S P pos b h = .ok ((v', it), h')) : v'.vec.Same v.vec := by
  unfold BV.insert at he
  obtain ⟨_, h0, e0, he1⟩ := runV_bind_inv he
  cases onMem_distance e0
  obtain ⟨u, h1, e1, he2⟩ := runV_bind_inv he1
  obtain ⟨_, h2, _, he3⟩ := runV_bind_inv he2
  obtain ⟨_, h3, _, he4⟩ := runV_bind_inv he3
  obtain ⟨_, h4, _, he5⟩ := runV_bind_inv he4
  cases he5
  exact BV.room_same hw r hc e1

theorem BV.insertN_same {S : ShiftSem w} {P : Policy} (hw : 0 < w) {h h' : Heap w} {v v' : BV} {l : List Bool} {b : Bool} {pos it : BitIter w}
    {n : Nat} (r : Rep h v l) (hc : l.length + n ≤ v.capacity w) (hn : l.length + n ≤ 2 ^ 24)
    (he : v.insertN S P pos n b h = .ok ((v', it), h')) : v'.vec.Same v.vec := by
  unfold BV.insertN at he
  obtain ⟨_, h0, e0, he1⟩ := runV_bind_inv he
  cases onMem_distance e0
  split_ifs at he1 with hz
  · cases he1; exact ⟨rfl, rfl⟩
  obtain ⟨u, h1, e1, he2⟩ := runV_bind_inv he1
  obtain ⟨_, h2, _, he3⟩ := runV_bind_inv he2
  obtain ⟨_, h3, _, he4⟩ := runV_bind_inv he3
  cases he4
  exact BV.growFor_same hw r hc hn e1

theorem BV.insertRange_same {S : ShiftSem w} {P : Policy} (hw : 0 < w) {h h' : Heap w} {v v' : BV} {l s : List Bool}
    {pos first last it : BitIter w} (r : Rep h v l) (hs : HoldsSeq h first last s) (hc : l.length + s.length ≤ v.capacity w)
    (hn : l.length + s.length ≤ 2 ^ 24) (he : v.insertRange S P pos first last h = .ok ((v', it), h')) : v'.vec.Same v.vec := by
  unfold BV.insertRange at he
  obtain ⟨_, h0, e0, he1⟩ := runV_bind_inv he
  cases onMem_distance e0
  obtain ⟨c, h0, e0, he2⟩ := runV_bind_inv he1
  have hcs : c = (s.length : Int) ∧ h0 = h := by
    have := wp_distance (w := w) (first := first) (last := last) (m := h.mem) (Q := fun d m => d = (s.length : Int) ∧ m = h.mem)
    have := this.2 ⟨by have := hs.len; omega, by have := hs.len; omega, rfl⟩
    obtain ⟨d, m, hd, h1, h2⟩ := this
    unfold onMem at e0
    rw [hd] at e0
    cases e0
    exact ⟨h1, by rw [h2]⟩
  obtain ⟨rfl, rfl⟩ := hcs
  rw [toSize_nat] at he2
  dsimp only at he2
  split_ifs at he2 with hz
  · cases he2; exact ⟨rfl, rfl⟩
  obtain ⟨u, h1, e1, he3⟩ := runV_bind_inv he2
  obtain ⟨_, h2, _, he4⟩ := runV_bind_inv he3
  obtain ⟨_, h3, _, he5⟩ := runV_bind_inv he4
  cases he5
  exact BV.growFor_same hw r hc hn e1

theorem BV.resize_same {P : Policy} (hw : 0 < w) {h h' : Heap w} {v v' : BV} {n : Nat} (hc : n ≤ v.capacity w) (hn : n < 2 ^ 32)
    (he : v.resize P n h = .ok (v', h')) : v'.vec.Same v.vec := by
  unfold BV.resize at he
  obtain ⟨u, h1, e1, he1⟩ := runV_bind_inv he
  cases he1
  exact Vec.resize_same ((Obj.wordCount_le_iff hw hn).2 hc) e1

theorem BV.reserve_same {P : Policy} (hw : 0 < w) {h h' : Heap w} {v v' : BV} {n : Nat} (hc : n ≤ v.capacity w) (hn : n < 2 ^ 32)
    (he : v.reserve P n h = .ok (v', h')) : v' = v ∧ h' = h := by
  unfold BV.reserve Vec.reserve at he
  rw [if_pos ((Obj.wordCount_le_iff hw hn).2 hc)] at he
  cases he
  exact ⟨rfl, rfl⟩

theorem BV.dropWord_same {h h' : Heap w} {v u : Vec} {n : Nat} (he : BV.dropWord v n h = .ok (u, h')) : u.Same v := by
  unfold BV.dropWord Vec.popBack at he
  split_ifs at he
  all_goals first | (cases he; exact ⟨rfl, rfl⟩) | cases he

theorem BV.popBack_same {h h' : Heap w} {v v' : BV} (he : v.popBack h = .ok (v', h')) : v'.vec.Same v.vec := by
  unfold BV.popBack at he
  obtain ⟨u, h1, e1, he1⟩ := runV_bind_inv he
  cases he1
  exact BV.dropWord_same e1

theorem BV.erase_same {S : ShiftSem w} {h h' : Heap w} {v v' : BV} {pos it : BitIter w} (he : v.erase S pos h = .ok ((v', it), h')) :
    v'.vec.Same v.vec := by
  unfold BV.erase at he
  obtain ⟨_, h0, _, he1⟩ := runV_bind_inv he
  obtain ⟨u, h1, e1, he2⟩ := runV_bind_inv he1
  cases he2
  exact BV.dropWord_same e1

theorem BV.eraseRange_same {S : ShiftSem w} {P : Policy} (hw : 0 < w) {h h' : Heap w} {v v' : BV} {l : List Bool} {first last it : BitIter w}
    {a b : Nat} (r : Rep h v l) (hp : IsPos v first a) (hq : IsPos v last b) (hab : a ≤ b) (hb : b ≤ l.length)
    (he : v.eraseRange S P first last h = .ok ((v', it), h')) : v'.vec.Same v.vec := by
  unfold BV.eraseRange at he
  obtain ⟨_, h0, e0, he1⟩ := runV_bind_inv he
  cases onMem_distance e0
  obtain ⟨c, h0, e0, he2⟩ := runV_bind_inv he1
  have hcs : c = ((b - a : Nat) : Int) ∧ h0 = h := by
    have := wp_distance (w := w) (first := first) (last := last) (m := h.mem) (Q := fun d m => d = ((b - a : Nat) : Int) ∧ m = h.mem)
    have := this.2 ⟨by have := hp.2; have := hq.2; omega, by have := hp.2; have := hq.2; omega, rfl⟩
    obtain ⟨d, m, hd, h1, h2⟩ := this
    unfold onMem at e0
    rw [hd] at e0
    cases e0
    exact ⟨h1, by rw [h2]⟩
  obtain ⟨rfl, rfl⟩ := hcs
  split_ifs at he2 with hz
  · cases he2; exact ⟨rfl, rfl⟩
  obtain ⟨_, h1, _, he3⟩ := runV_bind_inv he2
  obtain ⟨u, h2, e2, he4⟩ := runV_bind_inv he3
  cases he4
  refine Vec.resize_same ?_ e2
  have hl := r.len
  have hf := r.fit
  have hcap := r.ok.cap
  rw [show ((v.length : Int) - ((b - a : Nat) : Int)) = ((v.length - (b - a) : Nat) : Int) by omega, toSize_nat]
  have : wordCount w (v.length - (b - a)) ≤ v.vec.size := by
    unfold wordCount
    have h3 := Nat.mod_le (v.length - (b - a)) (2 ^ 32)
    rw [← Nat.lt_succ_iff, Nat.div_lt_iff_lt_mul hw, Nat.succ_mul]
    omega
  omega

theorem BV.clear_same {h h' : Heap w} {v v' : BV} (he : v.clear h = .ok (v', h')) : v'.vec.Same v.vec := by
  cases he
  exact ⟨rfl, rfl⟩

end BitLib
