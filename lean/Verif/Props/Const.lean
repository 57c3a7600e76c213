import Verif.Lemmas.Const
import Verif.Props.Trace
/-
C97: what can be done through iterators, references and pointers to `const` words, and which calls compile.
-/
namespace BitLib
variable {w : Nat} {α : Type}

/-! ### Read-only access -/

/-- Example: copies the bit at a `const std::uint8_t*` to a vector, and moves both iterators on. -/
def exCopyBit : TClient Unit :=
  .call (.op (.derefIt 0 0)) fun _ => .call (.op (.derefIt 1 1)) fun _ => .call (.op (.assign 1 0)) fun _ =>
  .call (.op (.incIt 0)) fun _ => .call (.op (.incIt 1)) fun _ => .done ()

/-- Example: the types of its two iterators. -/
def exCopyTys : Tys := ⟨fun k => if k = 0 then some ⟨.ptr true, false⟩ else if k = 1 then some vecIt else none, fun _ => none, fun _ => none⟩

/-- Example: they point to the second bit of the word at 0, in block 0, and to the third of the word at 1, in block 1. -/
def exCopySlots : BlockSlots 8 :=
  ⟨fun k => if k = 0 then some ⟨0, 0, 1⟩ else if k = 1 then some ⟨1, 1, 2⟩ else none, fun _ => none, fun _ => none⟩

theorem exCopy_compiles : exCopyBit.Compiles exCopyTys := ⟨_, rfl, fun _ => ⟨_, rfl, fun _ => ⟨_, rfl, fun _ => ⟨_, rfl, fun _ => ⟨_, rfl, fun _ => trivial⟩⟩⟩⟩⟩

theorem exCopy_readOnly : ReadOnly 0 exCopyTys exCopySlots := by
  refine ⟨fun k x e h => ?_, fun k x e => (nomatch e), fun k x e => (nomatch e)⟩
  simp only [exCopySlots] at e
  split at e
  · rename_i hk; subst hk; exact ⟨_, rfl, rfl⟩
  · split at e
    · cases e; exact nomatch h
    · exact nomatch e

/-- C97: a program that compiles and that can reach a block of memory only through iterators, references and pointers to `const` words does not
change the block, whatever else it changes. `own` divides the memory in any way, and comparisons between blocks may yield anything. -/
theorem C97_const (S : ShiftSem w) (bi : Bool) (own : Int → Nat) (foreign : Foreign w) (c : TClient α) (Γ : Tys) (s s' : BlockSlots w) (m m' : Mem w)
    (x : α) (b : Nat) (hc : c.Compiles Γ) (hb : ReadOnly b Γ s) (h : c.erase.blocks S bi own foreign s m = .ok ((x, s'), m')) :
    ∀ a, own a = b → m' a = m a := (c.keeps hc hb m _ m' h).2

/- The program runs, changes block 1 and not block 0. -/
example : exCopyBit.Compiles exCopyTys ∧ ReadOnly 0 exCopyTys exCopySlots ∧
    ∃ s' m', exCopyBit.erase.blocks S8 true Int.toNat (.flat true) exCopySlots (memOf [0x0A#8, 0x30#8]) = .ok (((), s'), m') ∧
      m' 0 = some 0x0A#8 ∧ m' 1 = some 0x34#8 :=
  ⟨exCopy_compiles, exCopy_readOnly, _, _, rfl, by decide, by decide⟩
/- It does not if the bit is copied the other way. -/
example : ¬ (TClient.call (.op (.derefIt 0 0)) fun _ => .call (.op (.derefIt 1 1)) fun _ => .call (.op (.assign 0 1)) fun _ => .done () : TClient Unit).Compiles exCopyTys := by
  rintro ⟨_, h1, h⟩
  cases h1
  obtain ⟨_, h1, h⟩ := h .unit
  cases h1
  obtain ⟨_, h, _⟩ := h .unit
  exact nomatch h

/-- C97: the program on a memory divided into blocks computes what it does on plain addresses, when comparisons are those of the addresses. -/
theorem C97_blocks (S : ShiftSem w) (bi : Bool) (own : Int → Nat) (c : Client α) (s s' : BlockSlots w) (m m' : Mem w) (x : α)
    (h : c.blocks S bi own (.flat bi) s m = .ok ((x, s'), m')) : c.code S bi s.forget m = .ok ((x, s'.forget), m') :=
  ((Mirrors.client (b := 0) (full := False) c (fun h => h.elim) m).1 (x, s') m' h).2

example : ∃ s' m', exCopyBit.erase.blocks S8 true Int.toNat (.flat true) exCopySlots (memOf [0x0A#8, 0x30#8]) = .ok (((), s'), m') := ⟨_, _, rfl⟩
/- In a divided memory an access outside the block is undefined, in the other one it is not. -/
example : (Client.call (.addIt 0 0 8) fun _ => .call (.derefIt 0 0) fun _ => .call (.read 0) fun a => .done a : Client IAns).blocks S8 true Int.toNat (.flat true)
      exCopySlots (memOf [0x0A#8, 0x30#8]) = .error .outOfBounds ∧
    ((Client.call (.addIt 0 0 8) fun _ => .call (.derefIt 0 0) fun _ => .call (.read 0) fun a => .done a : Client IAns).code S8 true
      exCopySlots.forget (memOf [0x0A#8, 0x30#8])).isOk = true := ⟨rfl, rfl⟩

/-- C97: if there is one block, dividing the memory changes nothing: the program is also undefined for the same memories. -/
theorem C97_one_block (S : ShiftSem w) (bi : Bool) (b : Nat) (c : Client α) (s : BlockSlots w) (m : Mem w) (hs : s.AllIn b) :
    c.code S bi s.forget m = match c.blocks S bi (fun _ => b) (.flat bi) s m with
      | .ok ((x, s'), m') => .ok ((x, s'.forget), m')
      | .error e => .error e := by
  have hm := Mirrors.client (S := S) (bi := bi) (own := fun _ => b) (b := b) (s := s) (full := True) c (fun _ => ⟨fun _ => rfl, hs⟩) m
  cases h : c.blocks S bi (fun _ => b) (.flat bi) s m with
  | error e => exact hm.2 trivial e h
  | ok p => exact (hm.1 p.1 p.2 h).2

example : BlockSlots.AllIn 3 (⟨fun k => if k = 0 then some ⟨3, 0, 1⟩ else none, fun _ => none, fun _ => none⟩ : BlockSlots 8) :=
  ⟨fun k x e => by simp only at e; split at e <;> cases e; rfl, fun k x e => (nomatch e), fun k x e => (nomatch e)⟩

/-- C97: read-only access on plain addresses. If all iterators, references and pointers have types for `const` words, no word changes. -/
theorem C97_const_all (S : ShiftSem w) (bi : Bool) (c : TClient α) (Γ : Tys) (s s' : Slots (BitIter w) (BitRef w) (BitPtr w)) (m m' : Mem w) (x : α)
    (hc : c.Compiles Γ) (hi : ∀ k y, s.it k = some y → ∃ t, Γ.it k = some t ∧ t.it.const = true)
    (hr : ∀ k y, s.ref k = some y → ∃ t, Γ.ref k = some t ∧ t.word = true) (hp : ∀ k y, s.ptr k = some y → Γ.ptr k = some true)
    (h : c.erase.code S bi s m = .ok ((x, s'), m')) : m' = m := by
  let t : BlockSlots w := ⟨fun k => (s.it k).map (InBlock.mk 0), fun k => (s.ref k).map (InBlock.mk 0), fun k => (s.ptr k).map (InBlock.mk 0)⟩
  have ht : t.forget = s := by
    have e1 : (fun k => (t.it k).map InBlock.val) = s.it := funext fun k => by cases hk : s.it k <;> simp [t, hk]
    have e2 : (fun k => (t.ref k).map InBlock.val) = s.ref := funext fun k => by cases hk : s.ref k <;> simp [t, hk]
    have e3 : (fun k => (t.ptr k).map InBlock.val) = s.ptr := funext fun k => by cases hk : s.ptr k <;> simp [t, hk]
    unfold BlockSlots.forget
    rw [e1, e2, e3]
  have ha : t.AllIn 0 := by
    refine ⟨fun k y e => ?_, fun k y e => ?_, fun k y e => ?_⟩ <;>
    · simp only [t, Option.map_eq_some_iff] at e
      obtain ⟨_, _, rfl⟩ := e
      rfl
  have hb : ReadOnly 0 Γ t := by
    refine ⟨fun k y e _ => ?_, fun k y e _ => ?_, fun k y e _ => ?_⟩ <;> simp only [t, Option.map_eq_some_iff] at e <;> obtain ⟨z, hz, rfl⟩ := e
    · exact hi k z hz
    · exact hr k z hz
    · exact hp k z hz
  have h1 := C97_one_block S bi 0 c.erase t m ha
  rw [ht, h] at h1
  cases hx : c.erase.blocks S bi (fun _ => 0) (.flat bi) t m with
  | error e => rw [hx] at h1; exact nomatch h1
  | ok p =>
    rw [hx] at h1
    obtain ⟨_, rfl⟩ := Prod.mk.inj (Except.ok.inj h1)
    exact funext fun a => C97_const S bi (fun _ => 0) (.flat bi) c Γ t _ m _ _ 0 hc hb hx a rfl

/- A program that looks for the first set bit at or after an iterator to a `const` word, at most two bits on. -/
example : (TClient.call (.op (.derefIt 0 0)) fun _ => .call (.op (.read 0)) fun a => if a = .bool true then .done 0 else
      .call (.op (.incIt 0)) fun _ => .call (.op (.derefIt 0 0)) fun _ => .call (.op (.read 0)) fun a => if a = .bool true then .done 1 else .done 2 : TClient Nat).Compiles exCopyTys := by
  refine ⟨_, rfl, fun _ => ⟨_, rfl, fun a => ?_⟩⟩
  beta_reduce
  split
  · trivial
  · refine ⟨_, rfl, fun _ => ⟨_, rfl, fun _ => ⟨_, rfl, fun a => ?_⟩⟩⟩
    beta_reduce
    split <;> trivial

/-- C97: a program that compiles also compiles with the types for `const` words if, and only if, it calls no operation that changes a bit. -/
theorem C97_reads (c : TClient α) (Γ : Tys) (hc : c.Compiles Γ) : c.toConst.Compiles Γ.toConst ↔ c.Reads := by
  induction c generalizing Γ with
  | done x => exact ⟨fun _ => trivial, fun _ => trivial⟩
  | call op next ih =>
    obtain ⟨Γ', h1, h2⟩ := hc
    constructor
    · rintro ⟨Δ, h3, h4⟩
      have ho : ¬ op.Changes := fun ho => by
        rw [op.check_toConst_none ho] at h3; exact nomatch h3
      rw [op.check_toConst h1 ho] at h3
      cases h3
      exact ⟨ho, fun a => (ih a Γ' (h2 a)).1 (h4 a)⟩
    · rintro ⟨ho, h3⟩
      exact ⟨Γ'.toConst, op.check_toConst h1 ho, fun a => (ih a Γ' (h2 a)).2 (h3 a)⟩

example : exCopyBit.Compiles exCopyTys ∧ ¬ exCopyBit.Reads ∧ ¬ exCopyBit.toConst.Compiles exCopyTys.toConst :=
  ⟨exCopy_compiles, fun h => ((h.2 .unit).2 .unit).1 trivial, fun h => (((C97_reads _ _ exCopy_compiles).1 h).2 .unit |>.2 .unit).1 trivial⟩
example : (TClient.call (.op (.derefIt 0 1)) fun _ => .call (.op (.read 0)) fun a => .done a : TClient IAns).Reads := ⟨id, fun _ => ⟨id, fun _ => trivial⟩⟩

/-- C97: and it is the same program then. -/
theorem C97_same (c : TClient α) : c.toConst.erase = c.erase := by
  induction c with
  | done x => rfl
  | call op next ih =>
    have : op.toConst.erase = op.erase := by cases op <;> rfl
    simp only [TClient.toConst, TClient.erase, this, ih]

/-- C97: `bit_iterator<const It>`, as in `bit_vector::const_iterator`: a program compiles with it exactly if it compiles with `bit_iterator<It>` and
changes no iterator in place: no `++`, `--`, `+=` or `-=`. -/
theorem C97_const_iterator (c : Client α) (Γ : Tys) : c.typed.Compiles (Γ.withTop true) ↔ c.typed.Compiles (Γ.withTop false) ∧ c.MovesNothing := by
  induction c generalizing Γ with
  | done x => exact ⟨fun _ => ⟨trivial, trivial⟩, fun _ => trivial⟩
  | call op next ih =>
    rcases op.check_top Γ with ⟨Γ', h1, h2, h3⟩ | ⟨h1, h2⟩
    · by_cases ho : op.Moves
      · constructor
        · rintro ⟨Δ, h4, _⟩
          have h4 : op.check _ = some Δ := h4
          rw [h3 ho] at h4; exact nomatch h4
        · exact fun h => (h.2.1 ho).elim
      · constructor
        · rintro ⟨Δ, h4, h5⟩
          have h4 : op.check _ = some Δ := h4
          rw [h2 ho] at h4; cases h4
          exact ⟨⟨_, h1, fun a => ((ih a Γ').1 (h5 a)).1⟩, ho, fun a => ((ih a Γ').1 (h5 a)).2⟩
        · rintro ⟨⟨Δ, h4, h5⟩, _, h6⟩
          have h4 : op.check _ = some Δ := h4
          rw [h1] at h4; cases h4
          exact ⟨_, h2 ho, fun a => (ih a Γ').2 ⟨h5 a, h6 a⟩⟩
    · constructor
      · rintro ⟨Δ, h4, _⟩
        have h4 : op.check _ = some Δ := h4
        rw [h2] at h4; exact nomatch h4
      · rintro ⟨⟨Δ, h4, _⟩, _⟩
        have h4 : op.check _ = some Δ := h4
        rw [h1] at h4; exact nomatch h4

/- `it + 1` compiles, `++it` does not. -/
example : (Client.call (.addIt 1 1 1) fun _ => .call (.derefIt 0 1) fun _ => .done () : Client Unit).typed.Compiles (exCopyTys.withTop true) :=
  ⟨_, rfl, fun _ => ⟨_, rfl, fun _ => trivial⟩⟩
example : ¬ (Client.call (.incIt 1) fun _ => .done () : Client Unit).typed.Compiles (exCopyTys.withTop true) := fun ⟨_, h, _⟩ => nomatch h

/-! ### `bit_vector` -/

/-- C97: of the members of a `const` `bit_vector` that give access to elements, those that return iterators compile and those that return a
reference do not. -/
theorem C97_const_members (f : ConstMember) : f.compiles = true ↔ f = .begin ∨ f = .end ∨ f = .cbegin ∨ f = .cend := by
  cases f <;> simp [ConstMember.compiles, TOp.check, withTy, demand, vecConstIt, ItTy.const, WordIt.const, WordIt.converts]

example : ConstMember.cbegin.compiles = true ∧ ConstMember.index.compiles = false := ⟨rfl, rfl⟩

/-- C97: the loop `for (auto x : v)` compiles for a modifiable vector and not for a `const` one: `++` does not. -/
theorem C97_range_for :
    (∀ op ∈ rangeForOps, (op.check ⟨fun _ => some vecIt, fun _ => none, fun _ => none⟩).isSome = true) ∧
    (∃ op ∈ rangeForOps, (op.check ⟨fun _ => some vecConstIt, fun _ => none, fun _ => none⟩).isSome = false) :=
  ⟨by decide, .op (.incIt 0), by simp [rangeForOps], rfl⟩

/-- C97: `bit_vector(first, last)` compiles with iterators over modifiable words that are not `const` inside, and with no others: not with
`bit_vector::const_iterator`. -/
theorem C97_range_constructor (t : ItTy) : rangeConstructorOk t = true ↔ t.it.const = false ∧ t.top = false := by
  obtain ⟨i, p⟩ := t
  cases p <;> simp [rangeConstructorOk, Alg2.compiles, vecIt, ItTy.const, getWordOk, advanceOk, WordIt.const]

example : rangeConstructorOk vecIt = true ∧ rangeConstructorOk vecConstIt = false ∧ rangeConstructorOk ⟨.ptr false, false⟩ = true := ⟨rfl, rfl, rfl⟩

/-- C97: `bit_vector::const_reference` does not protect the bit. A copy of it is a reference that can be written through: this program compiles, and
flips the bit. -/
theorem C97_const_reference (S : ShiftSem w) (bi : Bool) (r : BitRef w) (m : Mem w) (x : BitVec w) (hx : m r.ptr = some x) (s : Slots (BitIter w) (BitRef w) (BitPtr w)) (Γ : Tys)
    (hs : s.ref 0 = some r) (hΓ : Γ.ref 0 = some vecConstRef) :
    let c : TClient Unit := .call (.op (.copyRef 1 0)) fun _ => .call (.op (.upd .flip 1)) fun _ => .done ()
    c.Compiles Γ ∧ ∃ s', c.erase.code S bi s m = .ok (((), s'), m.set r.ptr (x ^^^ r.mask)) := by
  refine ⟨⟨Γ.putRef 1 ⟨false, false⟩, by simp [TOp.check, IOp.check, hΓ, withTy, vecConstRef], fun _ =>
    ⟨Γ.putRef 1 ⟨false, false⟩, by simp [TOp.check, IOp.check, withTy, Tys.putRef, putSlot, demand], fun _ => trivial⟩⟩, s.putRef 1 r, ?_⟩
  unfold Client.code
  simp only [TClient.erase, TOp.erase, Client.run, IOp.run, useSlot, hs, pure_bind]
  simp only [Slots.putRef, putSlot, if_true, codeIface, BitRef.upd]
  unfold BitRef.flip
  simp only [bind_assoc]
  rw [run_bind_ok' (a := x) (m' := m) (by unfold load; rw [hx])]
  rw [run_bind_ok' (a := ()) (m' := m.set r.ptr (x ^^^ r.mask)) (by unfold store; rw [hx])]
  rfl

example : (memOf [0x0A#8]) (BitRef.mk 0 2#8).ptr = some 0x0A#8 ∧
    (⟨fun _ => none, fun k => if k = 0 then some vecConstRef else none, fun _ => none⟩ : Tys).ref 0 = some vecConstRef := ⟨by decide, rfl⟩

/-- C97: writing through the `const_reference` itself does not compile, but swapping does, as its operands are copied. -/
theorem C97_const_reference_ops (Γ : Tys) (hΓ : Γ.ref 0 = some vecConstRef) (u : Upd) (b : Bool) :
    (TOp.op (.upd u 0)).check Γ = none ∧ (TOp.op (.assign 0 0)).check Γ = none ∧ (TOp.op (.swapVal 0 b)).check Γ = some Γ ∧
    (TOp.op (.swap 0 0)).check Γ = some Γ ∧ (TOp.op (.read 0)).check Γ = some Γ := by
  simp [TOp.check, IOp.check, hΓ, withTy, demand, vecConstRef]

/-! ### Conversions -/

/-- C97: an iterator, reference or pointer to modifiable words converts to one to `const` words, never the other way; pointers and iterators of vectors
do not mix, and a pointer cannot be `const` inside a `bit_iterator`. -/
theorem C97_conversions (Γ : Tys) (d i : Nat) (t u : ItTy) (r r' : RefTy) (c c' : Bool) (hi : Γ.it i = some t) (hr : Γ.ref i = some r) (hp : Γ.ptr i = some c) :
    ((TOp.convIt d i u).check Γ ≠ none ↔ (t.it.const = true → u.it.const = true) ∧ t.it.isPtr = u.it.isPtr ∧ (u.it.isPtr = true → u.top = false)) ∧
    ((TOp.convRef d i r').check Γ ≠ none ↔ (r.word = true → r'.word = true)) ∧ ((TOp.convPtr d i c').check Γ ≠ none ↔ (c = true → c' = true)) := by
  refine ⟨?_, ?_, ?_⟩
  · obtain ⟨a, p⟩ := t
    obtain ⟨b, q⟩ := u
    simp only [TOp.check, hi, withTy, Option.bind_some, demand]
    cases a <;> cases b <;> cases q <;> (try rename_i x y; cases x <;> cases y) <;> (try rename_i x; cases x) <;>
      simp [ItTy.wf, WordIt.converts, WordIt.const, WordIt.isPtr]
  · simp only [TOp.check, hr, withTy, Option.bind_some, demand]
    cases r.word <;> cases r'.word <;> simp
  · simp only [TOp.check, hp, withTy, Option.bind_some, demand]
    cases c <;> cases c' <;> simp

/-- C97: `bit_vector::iterator` converts to `bit_vector::const_iterator`; assigning it to a variable of that type does not compile, nor does
any assignment between iterators or between pointers of different types. -/
theorem C97_assignments (Γ : Tys) (d i : Nat) (t u : ItTy) (c c' : Bool) (hd : Γ.it d = some t) (hi : Γ.it i = some u) (hp : Γ.ptr d = some c) (hq : Γ.ptr i = some c') :
    ((TOp.assignIt d i).check Γ ≠ none ↔ u = t ∧ t.top = false) ∧ ((TOp.assignPtr d i).check Γ ≠ none ↔ c' = c) := by
  constructor
  · simp only [TOp.check, hd, hi, withTy, Option.bind_some, demand]
    by_cases h : u = t <;> cases ht : t.top <;> simp [h]
  · simp only [TOp.check, hp, hq, withTy, Option.bind_some, demand]
    cases c <;> cases c' <;> simp

example : ((TOp.convIt 2 0 vecConstIt).check ⟨fun _ => some vecIt, fun _ => none, fun _ => none⟩).isSome = true ∧
    ((TOp.assignIt 2 0).check ⟨fun k => if k = 0 then some vecIt else some ⟨.cvec, false⟩, fun _ => none, fun _ => none⟩).isSome = false := ⟨rfl, rfl⟩

/-! ### Algorithms -/

/-- C97: which algorithms on one type of iterator compile. Those that store demand modifiable words. `fill` and `reverse` accept
`bit_iterator<const It>`, the others do not. Before C++20 the algorithms that shift words do not accept pointers. -/
theorem C97_algorithms (cpp20 : Bool) (t : ItTy) (a : Alg1) : a.compiles cpp20 t = true ↔
    (t.it.const = true → a = .count ∨ a = .find) ∧ (t.top = true → a = .fill ∨ a = .reverse) ∧
    (t.it.isPtr = true → a = .reverse ∨ a = .shiftLeft ∨ a = .shiftRight ∨ a = .rotate → cpp20 = true) := by
  obtain ⟨i, p⟩ := t
  cases a <;> cases i <;> cases p <;> cases cpp20 <;> (try rename_i c; cases c) <;> decide

example : Alg1.count.compiles false ⟨.ptr true, false⟩ = true ∧ Alg1.rotate.compiles false ⟨.ptr false, false⟩ = false ∧
    Alg1.rotate.compiles true ⟨.ptr false, false⟩ = true ∧ Alg1.rotate.compiles false vecIt = true := ⟨rfl, rfl, rfl, rfl⟩

/-- C97: which algorithms on two types of iterators compile: the words of both ranges have to be modifiable, also if the algorithm stores to none or to
one of them, and the first type must not be `const` inside. `swap_ranges` demands that the types are the same. -/
theorem C97_algorithms2 (t u : ItTy) (a : Alg2) : a.compiles t u = true ↔
    t.it.const = false ∧ u.it.const = false ∧ t.top = false ∧ (a = .swapRanges → t = u) := by
  obtain ⟨i, p⟩ := t
  obtain ⟨j, q⟩ := u
  cases a <;> cases i <;> cases p <;> cases j <;> cases q <;> (try rename_i c d; cases c <;> cases d) <;> (try rename_i c; cases c) <;> decide

example : Alg2.copy.compiles ⟨.ptr false, false⟩ vecIt = true ∧ Alg2.equal.compiles ⟨.ptr true, false⟩ ⟨.ptr true, false⟩ = false := ⟨rfl, rfl⟩

/-- C97: there is no algorithm for a range of `const` words but `count` and `find`: none that copies from it, none that compares it. -/
theorem C97_no_const_source (t u : ItTy) (a : Alg2) (ht : t.it.const = true) : a.compiles t u = false ∧ a.compiles u t = false := by
  constructor <;>
  · rw [← Bool.not_eq_true, C97_algorithms2]
    simp [ht]

/-- C97: with `bit_vector::const_iterator` no algorithm compiles. -/
theorem C97_no_algorithm (cpp20 : Bool) (a : Alg1) (b : Alg2) (u : ItTy) :
    a.compiles cpp20 vecConstIt = false ∧ b.compiles vecConstIt u = false ∧ b.compiles u vecConstIt = false :=
  ⟨by cases a <;> cases cpp20 <;> rfl, C97_no_const_source _ u b rfl⟩

/-- C97: the algorithms that compile with `const` words, `count` and `find`, leave every word as it is. -/
theorem C97_readers (S : ShiftSem w) (first last : BitIter w) (v : Bool) (m m' : Mem w) :
    (∀ n, count S first last v m = .ok (n, m') → m' = m) ∧ (∀ it, find S first last v m = .ok (it, m') → m' = m) := by
  constructor
  · intro n h
    rw [← Gen.r_count] at h
    exact funext fun a => Code.run_unstored _ m n m' h (C82_text_read S first last first v ⟨0, 0⟩ a).2.2.1
  · intro it h
    rw [← Gen.r_find] at h
    exact funext fun a => Code.run_unstored _ m it m' h (C82_text_read S first last first v ⟨0, 0⟩ a).1

example : (count S8 ⟨0, 1⟩ ⟨1, 3⟩ true (memOf [0x0A#8, 0x35#8])).isOk = true := rfl

/-! ### `binary_digits` and the traits -/

/-- C97: `binary_digits` exists for the unsigned integer types other than `bool` and `char`, with any qualifiers, and is their number of bits. -/
theorem C97_binary_digits (cu : Bool) (q : QTy) (n : Nat) : binaryDigits cu q = some n ↔ q.t = .uint n := by
  obtain ⟨c, v, t⟩ := q
  cases c <;> cases v <;> cases t <;> cases cu <;>
    simp [binaryDigits, QTy.digitsAsserts, QTy.isIntegral, QTy.isUnsigned, CTy.digits]

example : binaryDigits true ⟨true, true, .uint 16⟩ = some 16 ∧ binaryDigits true ⟨true, false, .bool⟩ = none ∧ binaryDigits true ⟨false, true, .char⟩ = none :=
  ⟨rfl, rfl, rfl⟩

/-- C97: each kind of iterator is one of the weaker kinds: random access, bidirectional, forward, input; and every iterator is an iterator. -/
theorem C97_traits (tags : Nat → Option Tag) (q : QTy) :
    (isIteratorOf tags .randomAccess q = true → isIteratorOf tags .bidirectional q = true) ∧
    (isIteratorOf tags .bidirectional q = true → isIteratorOf tags .forward q = true) ∧
    (isIteratorOf tags .forward q = true → isIteratorOf tags .input q = true) ∧
    (isIterator tags q = true ↔ isIteratorOf tags .input q = true ∨ isIteratorOf tags .output q = true) ∧
    ¬ (isIteratorOf tags .input q = true ∧ isIteratorOf tags .output q = true) := by
  unfold isIteratorOf isIterator
  cases q.category tags with
  | none => simp
  | some c => cases c <;> simp [Tag.isBaseOf, Tag.parent]

/-- C97: `is_output_iterator` asks for the output iterator tag, which no other tag is derived from: it is false for pointers, and for all forward
iterators, though one can write through them. -/
theorem C97_output (tags : Nat → Option Tag) (q : QTy) : isIteratorOf tags .output q = true ↔ q.category tags = some .output := by
  unfold isIteratorOf
  cases q.category tags with
  | none => simp
  | some c => cases c <;> simp [Tag.isBaseOf, Tag.parent]

example : isIteratorOf (fun _ => none) .output ⟨false, false, .ptr false false (.uint 8)⟩ = false ∧
    isIteratorOf (fun _ => none) .randomAccess ⟨false, false, .ptr false false (.uint 8)⟩ = true := ⟨rfl, rfl⟩

/-- C97: a `bit_iterator` is of the kinds its iterator is of. -/
theorem C97_bit_iterator_traits (tags : Nat → Option Tag) (tag : Tag) (q : QTy) (c v : Bool) :
    isIteratorOf tags tag ⟨c, v, .bitIter q.c q.v q.t⟩ = isIteratorOf tags tag q ∧ isIterator tags ⟨c, v, .bitIter q.c q.v q.t⟩ = isIterator tags q :=
  ⟨rfl, rfl⟩

/-- C97: `is_bit` holds for `bit`, `bit_value` and `bit_reference`, and for none of them with a qualifier. -/
theorem C97_is_bit (q : QTy) : isBit q = true ↔ q.c = false ∧ q.v = false ∧ (q.t = .bit ∨ q.t = .bitValue ∨ ∃ c v t, q.t = .bitRef c v t) := by
  obtain ⟨c, v, t⟩ := q
  cases c <;> cases v <;> cases t <;> simp [isBit]

example : isBit ⟨false, false, .bitRef true false (.uint 8)⟩ = true ∧ isBit ⟨true, false, .bit⟩ = false := ⟨rfl, rfl⟩

end BitLib
