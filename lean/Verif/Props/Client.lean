import Verif.Lemmas.Client
import Verif.Lemmas.BVecAlg
import Verif.Props.Vector
/-
C89: code that uses bit iterators, references and pointers only through their operations works as on bits that can be addressed one by one.
-/
namespace BitLib
variable {w : Nat}

/-- C89: a program on the library and the same program on a tape that holds exactly the bits of the memory: both end with the same result, in
related states, or both stop with the same error. -/
theorem C89_exact {α : Type} (S : ShiftSem w) (bi : Bool) (c : Client α) (o : Int) (m : Mem w) (s : Slots (BitIter w) (BitRef w) (BitPtr w))
    (t : Slots Int Int Int) (hs : SlotsAt o s t) :
    match c.ideal t (fun p => bitAt m (o + p)) with
    | .ok ((x, t'), tape) => ∃ s' m', c.code S bi s m = .ok ((x, s'), m') ∧ SlotsAt o s' t' ∧ TapeIs o m' tape
    | .error e => c.code S bi s m = .error e := by
  have h := sim_client (F := True) S bi c hs m (fun p => bitAt m (o + p)) ⟨fun _ _ h => h, fun _ _ => rfl⟩
  revert h
  rcases c.ideal t (fun p => bitAt m (o + p)) with e | ⟨⟨x, t'⟩, tape⟩
  · exact fun h => h trivial
  · rintro ⟨⟨a, s'⟩, m', h1, ⟨rfl, h2⟩, h3, _⟩
    exact ⟨s', m', h1, h2, h3.2 trivial⟩

/-- C89: a program on a part of the memory. If it runs on the tape, it runs on the library with the same result; no bit outside the tape
changes. -/
theorem C89_part {α : Type} (S : ShiftSem w) (bi : Bool) (c : Client α) (o : Int) (m : Mem w) (tape tape' : Tape)
    (s : Slots (BitIter w) (BitRef w) (BitPtr w)) (t t' : Slots Int Int Int) (x : α) (hs : SlotsAt o s t) (hm : TapeIn o m tape)
    (hi : c.ideal t tape = .ok ((x, t'), tape')) :
    ∃ s' m', c.code S bi s m = .ok ((x, s'), m') ∧ SlotsAt o s' t' ∧ TapeIn o m' tape' ∧
      (∀ p, tape p = none → bitAt m' (o + p) = bitAt m (o + p)) ∧ ∀ p, (tape' p).isSome = (tape p).isSome := by
  have h := sim_client (F := False) S bi c hs m tape ⟨hm, fun hf => hf.elim⟩
  rw [hi] at h
  obtain ⟨⟨a, s'⟩, m', h1, ⟨rfl, h2⟩, h3, h4⟩ := h
  exact ⟨s', m', h1, h2, h3.1, h4.1, h4.2⟩

/-- C89: the result of a program does not depend on the word type, on where in a word the bits begin, on the compiler builtins, or on shifts by
the width of the word: two memories that hold the same bits give the same result and hold the same bits afterwards. -/
theorem C89_independent {α : Type} {w₁ w₂ : Nat} (S₁ : ShiftSem w₁) (S₂ : ShiftSem w₂) (b₁ b₂ : Bool) (c : Client α) (o₁ o₂ : Int) (m₁ : Mem w₁)
    (m₂ : Mem w₂) (s₁ : Slots (BitIter w₁) (BitRef w₁) (BitPtr w₁)) (s₂ : Slots (BitIter w₂) (BitRef w₂) (BitPtr w₂)) (t : Slots Int Int Int)
    (hs₁ : SlotsAt o₁ s₁ t) (hs₂ : SlotsAt o₂ s₂ t) (hm : ∀ p, bitAt m₁ (o₁ + p) = bitAt m₂ (o₂ + p)) :
    (∃ x s₁' s₂' m₁' m₂' t', c.code S₁ b₁ s₁ m₁ = .ok ((x, s₁'), m₁') ∧ c.code S₂ b₂ s₂ m₂ = .ok ((x, s₂'), m₂') ∧
      SlotsAt o₁ s₁' t' ∧ SlotsAt o₂ s₂' t' ∧ ∀ p, bitAt m₁' (o₁ + p) = bitAt m₂' (o₂ + p)) ∨
    ∃ e, c.code S₁ b₁ s₁ m₁ = .error e ∧ c.code S₂ b₂ s₂ m₂ = .error e := by
  have h1 := C89_exact S₁ b₁ c o₁ m₁ s₁ t hs₁
  have h2 := C89_exact S₂ b₂ c o₂ m₂ s₂ t hs₂
  rw [← show (fun p => bitAt m₁ (o₁ + p)) = fun p => bitAt m₂ (o₂ + p) from funext hm] at h2
  revert h1 h2
  rcases c.ideal t (fun p => bitAt m₁ (o₁ + p)) with e | ⟨⟨x, t'⟩, tape⟩
  · exact fun h1 h2 => .inr ⟨e, h1, h2⟩
  · rintro ⟨s₁', m₁', h1, h2, h3⟩ ⟨s₂', m₂', h4, h5, h6⟩
    exact .inl ⟨x, s₁', s₂', m₁', m₂', t', h1, h4, h2, h5, fun p => (h3 p).symm.trans (h6 p)⟩

/-- C89: a program on the elements of a vector. If it runs on the list of elements (without touching a position outside of it), it runs on the
vector; the elements afterwards are those of the list, and nothing outside the vector changes. -/
theorem C89_vector {α : Type} (S : ShiftSem w) (bi : Bool) (c : Client α) (h : Heap w) (v : BV) (l : List Bool) (tape : Tape)
    (s : Slots (BitIter w) (BitRef w) (BitPtr w)) (t t' : Slots Int Int Int) (x : α) (hwf : h.WF) (hr : Rep h v l)
    (hs : SlotsAt (v.vec.ptr * (w : Int)) s t) (hi : c.ideal t (listTape l) = .ok ((x, t'), tape)) :
    ∃ s' h' l', onMem (c.code S bi s) h = .ok ((x, s'), h') ∧ SlotsAt (v.vec.ptr * (w : Int)) s' t' ∧ VStep h v.vec h' v.vec ∧ Rep h' v l' ∧
      l'.length = l.length ∧ tape = listTape l' := by
  have hin : TapeIn (v.vec.ptr * (w : Int)) h.mem (listTape l) := by
    intro p b hp
    unfold listTape at hp
    by_cases h0 : 0 ≤ p
    · rw [if_pos h0] at hp
      rw [hr.bit h0 (by have := (List.getElem?_eq_some_iff.1 hp).1; omega)]
      exact hp
    · rw [if_neg h0] at hp; exact absurd hp (by simp)
  obtain ⟨s', m', h1, h2, h3, h4, h5⟩ := C89_part S bi c _ h.mem _ _ s t t' x hs hin hi
  have hsome : ∀ i : Nat, i < l.length → ∃ b, tape (i : Int) = some b := by
    intro i hi'
    have := h5 (i : Int)
    unfold listTape at this
    rw [if_pos (by omega), Int.toNat_natCast, List.getElem?_eq_getElem hi'] at this
    exact Option.isSome_iff_exists.1 this
  have hnone : ∀ p : Int, ¬ (0 ≤ p ∧ p < l.length) → listTape l p = none := by
    intro p hp
    unfold listTape
    by_cases h0 : 0 ≤ p
    · rw [if_pos h0, List.getElem?_eq_none_iff]; omega
    · rw [if_neg h0]
  let l' := (List.range l.length).map fun i : Nat => (tape (i : Int)).getD false
  have hl' : ∀ i : Nat, i < l.length → l'[i]? = tape (i : Int) := by
    intro i hi'
    obtain ⟨b, hb⟩ := hsome i hi'
    show ((List.range l.length).map fun i : Nat => (tape (i : Int)).getD false)[i]? = _
    rw [List.getElem?_map, List.getElem?_range hi', hb]
    show some ((tape (i : Int)).getD false) = _
    rw [hb]; rfl
  have hlen : l'.length = l.length := by
    show ((List.range l.length).map _).length = _
    simp
  have hup := hr.update (m' := m') (l' := l') hwf hlen (fun i hi' => by
      have := h4 (i - v.vec.ptr * (w : Int)) (hnone _ (by omega))
      rw [show v.vec.ptr * (w : Int) + (i - v.vec.ptr * (w : Int)) = i by omega] at this
      exact this) (fun j hj => by
      rw [hl' j (by omega)]
      obtain ⟨b, hb⟩ := hsome j (by omega)
      rw [hb]; exact h3 _ _ hb)
  refine ⟨s', { h with mem := m' }, l', ?_, h2, hup.1, hup.2, hlen, ?_⟩
  · unfold onMem; rw [h1]
  · funext p
    unfold listTape
    by_cases h0 : 0 ≤ p
    · rw [if_pos h0]
      by_cases h6 : p < l.length
      · rw [hl' p.toNat (by omega)]; congr 1; omega
      · rw [List.getElem?_eq_none_iff.2 (by omega)]
        have := h5 p
        rw [hnone p (by omega)] at this
        simpa using this
    · rw [if_neg h0]
      have := h5 p
      rw [hnone p (by omega)] at this
      simpa using this

/-- C89: iterators `begin() + a` and `begin() + b` of a vector stand for the positions `a` and `b`. -/
theorem C89_start (v : BV) (first last : BitIter w) (a b : Nat) (hf : IsPos v first a) (hl : IsPos v last b) :
    SlotsAt (v.vec.ptr * (w : Int)) (rangeSlots first last) (rangeSlots (a : Int) (b : Int)) := by
  refine ⟨fun k => ?_, fun k => .inl ⟨rfl, rfl⟩, fun k => .inl ⟨rfl, rfl⟩⟩
  unfold rangeSlots putSlot
  dsimp only
  by_cases h1 : k = 1
  · rw [if_pos h1, if_pos h1]; exact .inr ⟨_, _, rfl, rfl, hl⟩
  · rw [if_neg h1, if_neg h1]
    by_cases h0 : k = 0
    · rw [if_pos h0, if_pos h0]; exact .inr ⟨_, _, rfl, rfl, hf⟩
    · rw [if_neg h0, if_neg h0]; exact .inl ⟨rfl, rfl⟩

/-- A program: flip `*first`, exchange it with `first[2]`, and tell whether a pointer to it is less than one to the last element of the range. -/
def exClient : Client (List IAns) :=
  .call (.derefIt 0 0) fun _ => .call (.upd .flip 0) fun _ => .call (.indexIt 1 0 2) fun _ => .call (.swap 0 1) fun _ =>
  .call (.decIt 1) fun _ => .call (.arrowIt 0 1) fun _ => .call (.addressOf 1 0) fun _ => .call (.cmpPtr .lt 1 0) fun a =>
  .call (.read 1) fun b => .done [a, b]

example : exH.WF ∧ Rep exH exV exL ∧ SlotsAt (w := 8) (exV.vec.ptr * ((8 : Nat) : Int)) (rangeSlots (exV.begin.add 5) (exV.begin.add 11))
    (rangeSlots ((5 : Nat) : Int) ((11 : Nat) : Int)) :=
  ⟨exH_wf, exRep, C89_start exV _ _ 5 11 (IsPos.begin_add (by decide) exV 5) (IsPos.begin_add (by decide) exV 11)⟩

/-- On the tape: the result and the elements 5 to 7. With too short a range the program leaves the tape. -/
example : ((exClient.ideal (rangeSlots 5 11) (listTape exL)).map fun r => (r.1.1, r.2 5, r.2 6, r.2 7)).toOption =
      some ([.bool true, .bool false], some true, some false, some false) ∧
    ((exClient.ideal (rangeSlots 9 11) (listTape exL)).map fun r => r.1.1) = .error .outOfBounds := by
  constructor <;> decide +kernel

end BitLib
