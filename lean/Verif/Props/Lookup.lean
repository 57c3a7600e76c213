import Verif.Lemmas.Lookup
import Verif.Lemmas.LookupRun
import Verif.Lemmas.LookupTypes
import Verif.SpecLookup
import Verif.Props.StdAlg
import Verif.Props.Const
/-
C102: which function an unqualified call such as `copy(first, last, d)` reaches, in the code of a user and in the headers themselves, and what difference it makes.
-/
namespace BitLib
open Lookup
variable {w : Nat}

/-- C102: the function that is called, for every form of the call and all lists of arguments; there is none exactly if neither namespace is reached. -/
theorem C102_callee (cpp20 : Bool) (form : Form) (f : Name) (args : List Arg) (n : Ns) :
    (∃ g, callee cpp20 form f args = some g ∧ g.ns = n) ↔ Reaches cpp20 form f args n := callee_reaches cpp20 form f args n

/-- `copy` of a range of a vector to a back inserter, in code that has no `using`: `std::copy`, as `std` is associated with the iterators. -/
example : Reaches false (.plain []) .copy [⟨.it vecIt, .rvalue⟩, ⟨.it vecIt, .rvalue⟩, ⟨.iter true 0, .rvalue⟩] .std :=
  ⟨Or.inr ⟨_, List.mem_cons_self, Or.inl ⟨vecIt, rfl, Or.inl rfl⟩⟩, ⟨_, _, rfl⟩, Or.inl (by rintro ⟨_, t, u, h⟩; simp at h)⟩

/-- With an iterator and a `const_iterator` of a vector for the range nothing is reached, not even with `using namespace std`. -/
example : ∀ n, ¬ Reaches true (.plain [.bit, .std]) .find [⟨.it vecConstIt, .rvalue⟩, ⟨.it vecIt, .rvalue⟩, ⟨.value, .rvalue⟩] n := by
  rintro (_ | _) h
  · obtain ⟨_, ⟨t, x, h, _⟩, _⟩ := h
    simp at h; rw [← h.1] at h; exact absurd h.2.1 (by decide)
  · obtain ⟨_, ⟨t, x, h⟩, _⟩ := h
    simp at h; rw [← h.1] at h; exact absurd h.2.1 (by decide)

/-- C102: no function, or more than one that is as good. -/
theorem C102_none (cpp20 : Bool) (form : Form) (f : Name) (args : List Arg) :
    callee cpp20 form f args = none ↔ ∀ n, ¬ Reaches cpp20 form f args n := by
  constructor
  · rintro h n hr
    obtain ⟨g, hg, _⟩ := (C102_callee cpp20 form f args n).2 hr
    rw [h] at hg; cases hg
  · intro h
    rcases hc : callee cpp20 form f args with _ | g
    · rfl
    · exact absurd ((C102_callee cpp20 form f args g.ns).1 ⟨g, hc, rfl⟩) (h g.ns)

theorem Lookup.sees_bit {f : Name} {args : List Arg} (h : BitTakes f args) (visible : List Ns) : (Form.plain visible).Sees args .bit := by
  have key : ∀ (t : ItTy) (l : List Ty), args.map Arg.ty = .it t :: l → (Form.plain visible).Sees args .bit := by
    intro t l e
    rcases args with _ | ⟨a, as⟩
    · cases e
    · simp at e
      exact Or.inr ⟨a, List.mem_cons_self, Or.inl ⟨t, e.1⟩⟩
  cases f
  case swap =>
    obtain ⟨a, b, rfl, ⟨h, _⟩ | ⟨h, _⟩⟩ := h
    · exact Or.inr ⟨a, List.mem_cons_self, Or.inr (Or.inr h)⟩
    · exact Or.inr ⟨a, List.mem_cons_self, Or.inr (Or.inl (by rw [h]))⟩
  case advance =>
    obtain ⟨t, x, rfl⟩ := h
    exact Or.inr ⟨_, List.mem_cons_self, Or.inl ⟨t, rfl⟩⟩
  case transform =>
    obtain ⟨t, x, h | h⟩ := h <;> exact key _ _ h
  case fill => obtain ⟨t, x, h, _⟩ := h; exact key _ _ h
  case find => obtain ⟨t, x, h, _⟩ := h; exact key _ _ h
  case count => obtain ⟨t, x, h, _⟩ := h; exact key _ _ h
  case reverse => obtain ⟨t, h⟩ := h; exact key _ _ h
  case distance => obtain ⟨t, h⟩ := h; exact key _ _ h
  case rotate => obtain ⟨t, h⟩ := h; exact key _ _ h
  all_goals (obtain ⟨t, u, h⟩ := h; exact key _ _ h)

/-- C102: an unqualified call with bit iterators that a function of the library takes reaches it, whatever else is visible; the exceptions are `swap` and a
value that is a `bit_reference`. -/
theorem C102_plain (cpp20 : Bool) (visible : List Ns) (f : Name) (args : List Arg) (h : BitTakes f args) (hs : f ≠ .swap) (hv : ¬ ValueIsRef f args) :
    ∃ g, callee cpp20 (.plain visible) f args = some g ∧ g.ns = .bit :=
  (C102_callee _ _ _ _ _).2 ⟨sees_bit h visible, h, fun ⟨_, _, h⟩ => h.elim hs hv⟩

example : BitTakes .equal [⟨.it vecIt, .lvalue⟩, ⟨.it vecIt, .rvalue⟩, ⟨.it ⟨.ptr true, false⟩, .const⟩] ∧
    ¬ ValueIsRef .equal [⟨.it vecIt, .lvalue⟩, ⟨.it vecIt, .rvalue⟩, ⟨.it ⟨.ptr true, false⟩, .const⟩] :=
  ⟨⟨_, _, rfl⟩, fun h => by have := h.1; simp at this⟩

/-- C102: every unqualified call in the headers with bit iterators reaches the library's function, for all types of iterators and numbers. -/
theorem C102_library (cpp20 : Bool) (t : ItTy) (n : Expr.ATy) (c : Name × List Ty) (hc : c ∈ ownCalls t n) (args : List Arg) (ha : args.map Arg.ty = c.2)
    (hl : c.1 = .advance → ∀ a ∈ args.head?, a.cat = .lvalue) :
    ∃ g, callee cpp20 (.plain [.bit]) c.1 args = some g ∧ g.ns = .bit := by
  have hnr : ¬ ValueIsRef c.1 args := by
    rintro ⟨hf, a, b, x, rfl, y, hx⟩
    simp only [ownCalls, List.mem_cons, List.mem_nil_iff, or_false] at hc
    rcases hc with rfl | rfl | rfl | rfl | rfl | rfl | rfl | rfl | rfl | rfl | rfl | rfl | rfl | rfl | rfl <;> simp_all
  simp only [ownCalls, List.mem_cons, List.mem_nil_iff, or_false] at hc
  refine C102_plain cpp20 _ _ _ ?_ ?_ hnr
  · rcases hc with rfl | rfl | rfl | rfl | rfl | rfl | rfl | rfl | rfl | rfl | rfl | rfl | rfl | rfl | rfl
    case inr.inr.inr.inr.inr.inr.inr.inr.inl =>
      rcases args with _ | ⟨⟨a, ca⟩, _ | ⟨x, _ | ⟨y, l⟩⟩⟩ <;> simp at ha
      have := hl rfl ⟨a, ca⟩ rfl
      simp at this
      exact ⟨t, x, by rw [ha.1, this]⟩
    all_goals first | exact ⟨_, ha⟩ | exact ⟨_, _, ha⟩ | exact ⟨_, _, ha, Or.inl rfl⟩
  · rcases hc with rfl | rfl | rfl | rfl | rfl | rfl | rfl | rfl | rfl | rfl | rfl | rfl | rfl | rfl | rfl <;> simp

example : (Name.fill, [Ty.it vecIt, Ty.it vecIt, Ty.value]) ∈ ownCalls ⟨.ptr false, false⟩ (.num true 32) ∧
    [Arg.mk (.it vecIt) .rvalue, ⟨.it vecIt, .rvalue⟩, ⟨.value, .const⟩].map Arg.ty = [Ty.it vecIt, Ty.it vecIt, Ty.value] := by decide

/-- C102: `distance(first, last)` on iterators over words (bit_algorithm_details.hpp:286, 302) reaches `std::distance` for iterators of a vector and nothing for
pointers, as the headers have no `using std::distance`. -/
theorem C102_words (cpp20 : Bool) (i : WordIt) (ca cb : Cat) :
    (callee cpp20 (.plain [.bit]) .distance [⟨.word i, ca⟩, ⟨.word i, cb⟩]).map Tmpl.ns = if i.isPtr then none else some .std := by
  cases i <;> cases ca <;> cases cb <;> decide +revert

/-- C102: `fill`, `find` and `count` with a value such as `v[0]` or `*it`: the library's function is reached if the iterators are pointers and `std` is not
visible, otherwise the one of `std`. -/
theorem C102_value_is_ref (cpp20 : Bool) (visible : List Ns) (f : Name) (hf : f = .fill ∨ f = .find ∨ f = .count) (t : ItTy) (ca cb cx : Cat) (word : Bool) :
    (callee cpp20 (.plain visible) f [⟨.it t, ca⟩, ⟨.it t, cb⟩, ⟨.ref word, cx⟩]).map Tmpl.ns =
      some (if t.it.isPtr = true ∧ .std ∉ visible then .bit else .std) := by
  have hv : ValueIsRef f [⟨.it t, ca⟩, ⟨.it t, cb⟩, ⟨.ref word, cx⟩] := ⟨hf, _, _, _, rfl, word, rfl⟩
  have hb : BitTakes f [⟨.it t, ca⟩, ⟨.it t, cb⟩, ⟨.ref word, cx⟩] := by
    rcases hf with rfl | rfl | rfl <;> exact ⟨t, _, rfl, Or.inr ⟨word, rfl⟩⟩
  have hst : StdTakes cpp20 f [⟨.it t, ca⟩, ⟨.it t, cb⟩, ⟨.ref word, cx⟩] := by
    rcases hf with rfl | rfl | rfl
    · exact ⟨_, _, rfl⟩
    · exact ⟨_, _, rfl⟩
    · exact ⟨_, _, rfl, Or.inl ⟨t, rfl⟩⟩
  by_cases hs : (Form.plain visible).Sees [⟨.it t, ca⟩, ⟨.it t, cb⟩, ⟨.ref word, cx⟩] .std
  · obtain ⟨g, h, h'⟩ := (C102_callee cpp20 (.plain visible) f _ .std).2 ⟨hs, hst, Or.inr hv⟩
    rw [h, if_neg]
    · simp [h']
    · rintro ⟨h1, h2⟩
      rcases hs with hs | ⟨a, ha, hs⟩
      · exact h2 hs
      · simp at ha
        rcases ha with rfl | rfl | rfl <;> simp [Ty.Belongs] at hs <;> rcases hs with hs | hs <;> rw [hs] at h1 <;> cases h1
  · obtain ⟨g, h, h'⟩ := (C102_callee cpp20 (.plain visible) f _ .bit).2 ⟨sees_bit hb visible, hb, fun ⟨h, _⟩ => hs h⟩
    rw [h, if_pos]
    · simp [h']
    · refine ⟨?_, fun h => hs (Or.inl h)⟩
      rcases hi : t.it with c | _ | _
      · rfl
      · exact absurd (Or.inr ⟨_, List.mem_cons_self, Or.inl ⟨t, rfl, Or.inl hi⟩⟩) hs
      · exact absurd (Or.inr ⟨_, List.mem_cons_self, Or.inl ⟨t, rfl, Or.inr hi⟩⟩) hs

/-- `fill(v.begin(), v.end(), v[0])` and the same with iterators over an array. -/
example : (callee false (.plain []) .fill [⟨.it vecIt, .rvalue⟩, ⟨.it vecIt, .rvalue⟩, ⟨.ref false, .rvalue⟩]).map Tmpl.ns = some .std ∧
    (callee false (.plain []) .fill [⟨.it ⟨.ptr false, false⟩, .rvalue⟩, ⟨.it ⟨.ptr false, false⟩, .rvalue⟩, ⟨.ref false, .rvalue⟩]).map Tmpl.ns = some .bit := by
  decide

/-- C102: `using std::swap; swap(r, q)` on two named references of the same type is ambiguous; without the `using`, and in `std::iter_swap`, where `*a` and `*b` are
temporary, it reaches the library's `swap`. -/
theorem C102_swap (cpp20 : Bool) (visible : List Ns) (word : Bool) :
    (callee cpp20 (.plain visible) .swap [⟨.ref word, .lvalue⟩, ⟨.ref word, .lvalue⟩]).map Tmpl.ns = (if .std ∈ visible then none else some .bit) ∧
    ∀ (c d : Cat) (word' : Bool), c ≠ .lvalue ∨ d ≠ .lvalue ∨ word ≠ word' →
      (callee cpp20 (.plain visible) .swap [⟨.ref word, c⟩, ⟨.ref word', d⟩]).map Tmpl.ns = some .bit := by
  have hb : ∀ (c d : Cat) (word' : Bool), BitTakes .swap [⟨.ref word, c⟩, ⟨.ref word', d⟩] :=
    fun c d word' => ⟨_, _, rfl, Or.inl ⟨⟨word, rfl⟩, Or.inl ⟨word', rfl⟩⟩⟩
  have hsees : ∀ (c d : Cat) (word' : Bool), (Form.plain visible).Sees [⟨.ref word, c⟩, ⟨.ref word', d⟩] .std ↔ .std ∈ visible := by
    intro c d word'
    simp [Form.Sees, Ty.Belongs]
  constructor
  · by_cases hs : Ns.std ∈ visible
    · rw [if_pos hs]
      have := (C102_none cpp20 (.plain visible) .swap [⟨.ref word, .lvalue⟩, ⟨.ref word, .lvalue⟩]).2 (by
        have hst : StdTakes cpp20 .swap [⟨.ref word, .lvalue⟩, ⟨.ref word, .lvalue⟩] := ⟨_, rfl, by intro u h; cases h⟩
        rintro (_ | _) h
        · exact h.2.2 ⟨(hsees _ _ _).2 hs, hst, Or.inl rfl⟩
        · exact h.2.2.elim (fun h => h ⟨sees_bit (hb _ _ _) visible, hb _ _ _⟩) fun h => by have := h.1; simp at this)
      rw [this]; rfl
    · rw [if_neg hs]
      obtain ⟨g, h, h'⟩ := (C102_callee cpp20 (.plain visible) .swap [⟨.ref word, .lvalue⟩, ⟨.ref word, .lvalue⟩] .bit).2
        ⟨sees_bit (hb _ _ _) visible, hb _ _ _, fun ⟨h, _⟩ => hs ((hsees _ _ _).1 h)⟩
      rw [h, ← h']; rfl
  · intro c d word' hd
    obtain ⟨g, h, h'⟩ := (C102_callee cpp20 (.plain visible) .swap [⟨.ref word, c⟩, ⟨.ref word', d⟩] .bit).2
      ⟨sees_bit (hb _ _ _) visible, hb _ _ _, fun ⟨_, ⟨t, h, _⟩, _⟩ => by
        simp at h
        obtain ⟨⟨rfl, rfl⟩, h, rfl⟩ := h
        cases h
        simp at hd⟩
    rw [h, ← h']; rfl

/-- `std::iter_swap`. -/
example : (callee false (.plain [.std]) .swap [⟨.ref false, .rvalue⟩, ⟨.ref false, .rvalue⟩]).map Tmpl.ns = some .bit := by decide

/-- C102: `transform` to iterators of another type is not taken by the library: the call reaches `std::transform` if `std` is visible or associated, or nothing. -/
theorem C102_transform (cpp20 : Bool) (visible : List Ns) (t u : ItTy) (htu : t ≠ u) (ca cb cu cf : Cat) (s : Bool) (k : Nat) :
    (callee cpp20 (.plain visible) .transform [⟨.it t, ca⟩, ⟨.it t, cb⟩, ⟨.it u, cu⟩, ⟨.fn s k, cf⟩]).map Tmpl.ns =
      if .std ∈ visible ∨ t.it.isPtr = false ∨ u.it.isPtr = false ∨ s = true then some .std else none := by
  have hb : ¬ BitTakes .transform [⟨.it t, ca⟩, ⟨.it t, cb⟩, ⟨.it u, cu⟩, ⟨.fn s k, cf⟩] := by
    rintro ⟨t', x, h | h⟩
    · simp at h; exact htu (h.1.trans h.2.1.symm)
    · simp at h
  have hst : StdTakes cpp20 .transform [⟨.it t, ca⟩, ⟨.it t, cb⟩, ⟨.it u, cu⟩, ⟨.fn s k, cf⟩] := ⟨_, _, _, .value, Or.inl rfl⟩
  have hsees : (Form.plain visible).Sees [⟨.it t, ca⟩, ⟨.it t, cb⟩, ⟨.it u, cu⟩, ⟨.fn s k, cf⟩] .std ↔
      (.std ∈ visible ∨ t.it.isPtr = false ∨ u.it.isPtr = false ∨ s = true) := by
    have hp : ∀ i : WordIt, (i = .vec ∨ i = .cvec) ↔ i.isPtr = false := by intro i; cases i <;> simp [WordIt.isPtr]
    simp [Form.Sees, Ty.Belongs, hp]
  by_cases hs : (Form.plain visible).Sees [⟨.it t, ca⟩, ⟨.it t, cb⟩, ⟨.it u, cu⟩, ⟨.fn s k, cf⟩] .std
  · obtain ⟨g, h, h'⟩ := (C102_callee cpp20 (.plain visible) .transform _ .std).2 ⟨hs, hst, Or.inl fun h => hb h.2⟩
    rw [h, if_pos (hsees.1 hs), ← h']; rfl
  · rw [if_neg fun h => hs (hsees.2 h), (C102_none _ _ _ _).2]
    · rfl
    · rintro (_ | _) h
      · exact hb h.2.1
      · exact hs h.1

example : vecIt ≠ ⟨.ptr false, false⟩ ∧ (callee false (.plain []) .transform
    [⟨.it ⟨.ptr true, false⟩, .rvalue⟩, ⟨.it ⟨.ptr true, false⟩, .rvalue⟩, ⟨.it ⟨.ptr false, false⟩, .rvalue⟩, ⟨.fn false 0, .rvalue⟩]) = none := by decide

/-! ### A reference as the value: what both functions do -/

theorem Lookup.start_at {first last : BitIter w} {r : BitRef w} {a : Int} (h1 : first.Valid) (h2 : last.Valid) (h3 : r.At a) :
    SlotsAt 0 (Lookup.start first last r) (Lookup.start first.addr last.addr a) := by
  refine ⟨fun k => ?_, fun k => ?_, fun k => .inl ⟨rfl, rfl⟩⟩
  · match k with
    | 0 => exact .inr ⟨_, _, rfl, rfl, h1, by omega⟩
    | 1 => exact .inr ⟨_, _, rfl, rfl, h2, by omega⟩
    | _+2 => exact .inl ⟨rfl, rfl⟩
  · by_cases h : k = 2
    · subst h
      exact .inr ⟨_, _, rfl, rfl, by simpa using h3⟩
    · exact .inl ⟨if_neg h, if_neg h⟩

theorem Lookup.transfer {α : Type} (S : ShiftSem w) (bi : Bool) {c : Client α} {m : Mem w} {first last : BitIter w} {r : BitRef w} {a : Int} (h1 : first.Valid)
    (h2 : last.Valid) (h3 : r.At a) {x : α} {t' : Slots Int Int Int} {tape : Tape}
    (h : c.ideal (Lookup.start first.addr last.addr a) (bitAt m) = .ok ((x, t'), tape)) :
    ∃ s' m', c.code S bi (Lookup.start first last r) m = .ok ((x, s'), m') ∧ (∀ i, bitAt m' i = tape i) ∧
      ∀ k p, t'.it k = some p → ∃ it, s'.it k = some it ∧ it.Valid ∧ it.addr = p := by
  have := C89_exact S bi c 0 m _ _ (Lookup.start_at h1 h2 h3)
  rw [show (fun p => bitAt m (0 + p)) = bitAt m from funext fun p => by rw [Int.zero_add], h] at this
  obtain ⟨s', m', e1, e2, e3⟩ := this
  refine ⟨s', m', e1, fun i => ?_, fun k p hk => ?_⟩
  · rw [e3 i, Int.zero_add]
  · rcases e2.it k with ⟨_, hn⟩ | ⟨a, b, ha, hb, hv, hab⟩
    · rw [hk] at hn; cases hn
    · rw [hk] at hb; cases hb
      exact ⟨a, ha, hv, by omega⟩

theorem Lookup.read_ok {r : BitRef w} {a : Int} {m : Mem w} {v : Bool} (hr : r.At a) (hv : bitAt m a = some v) : r.toBool m = .ok (v, m) := by
  obtain ⟨b, m', h, rfl, rfl⟩ := wp_refRead (Q := fun b m' => b = v ∧ m' = m) hr hv ⟨rfl, rfl⟩
  exact h

/-- C102: `fill` with a reference as the value: whichever function is reached, the memory is the same afterwards, even if the bit of the value lies in the range,
where the loop of `std` writes it and reads it again. -/
theorem C102_fill (S : ShiftSem w) (bi : Bool) (m : Mem w) (first last : BitIter w) (r : BitRef w) (a : Int) (k : Nat) (hr : Range m first last)
    (hk : len first last < k) (ha : r.At a) (hm : (bitAt m a).isSome) :
    ∃ s' m', (fillRef k).code S bi (Lookup.start first last r) m = .ok ((some (), s'), m') ∧ fillVal S first last r m = .ok ((), m') ∧
      ∀ i, bitAt m' i = if first.addr ≤ i ∧ i < last.addr then bitAt m a else bitAt m i := by
  have hw : 0 < w := Nat.lt_of_le_of_lt (Nat.zero_le _) hr.1
  have hl := Std.of_range hr
  have hn : ((len first last).toNat : Int) = len first last := by have := hr.le; unfold len; omega
  obtain ⟨v, hv⟩ := Option.isSome_iff_exists.1 hm
  obtain ⟨t', h1⟩ := fillRef_ideal v a (len first last).toNat k (Lookup.start first.addr last.addr a) (bitAt m) first.addr (by omega) rfl
    (by rw [← hl]; rfl) rfl hv (fun i a b => hr.mapped i a (by omega))
  obtain ⟨s', m', e1, e2, _⟩ := Lookup.transfer S bi hr.1 hr.2 ha h1
  obtain ⟨m2, f1, f2⟩ := C10_fill S m first last v hr
  have hm : m2 = m' := mem_ext_bitAt hw fun i => by rw [f2 i, e2 i, ← hl]; rfl
  refine ⟨s', m', e1, ?_, fun i => by rw [← hm, f2 i, hv]⟩
  unfold fillVal
  rw [M.bind_ok' (Lookup.read_ok ha hv), f1, hm]

/-- The value is a bit of the range. -/
example : Range (memOf [0xa5#8, 0x3c#8]) ⟨0, 2⟩ ⟨1, 5⟩ ∧ (⟨0, 0x40#8⟩ : BitRef 8).At 6 ∧ (bitAt (memOf [0xa5#8, 0x3c#8]) 6).isSome ∧
    len (⟨0, 2⟩ : BitIter 8) ⟨1, 5⟩ < (12 : Nat) :=
  ⟨range_memOf (by decide) (by decide) (by decide) (by decide) (by decide), ⟨6, by decide, rfl, by decide⟩, by decide, by decide⟩

example : ((runOn ((fillRef 12).code S8 true (Lookup.start ⟨0, 2⟩ ⟨1, 5⟩ ⟨0, 0x40#8⟩)) [0xa5#8, 0x3c#8]).map fun r => r.2) =
    ((runOn (fillVal S8 ⟨0, 2⟩ ⟨1, 5⟩ ⟨0, 0x40#8⟩) [0xa5#8, 0x3c#8]).map fun r => r.2) := by decide +kernel

/-- C102: `find`. -/
theorem C102_find (S : ShiftSem w) (bi : Bool) (m : Mem w) (first last : BitIter w) (r : BitRef w) (a : Int) (k : Nat) (hr : Range m first last)
    (hk : len first last < k) (hne : first.addr < last.addr ∨ first.pos = 0 ∨ (bitAt m first.addr).isSome) (ha : r.At a) (hm : (bitAt m a).isSome) :
    ∃ s' it, (findRef k).code S bi (Lookup.start first last r) m = .ok ((some (), s'), m) ∧ s'.it 0 = some it ∧
      findVal S first last r m = .ok (it, m) := by
  have hw : 0 < w := Nat.lt_of_le_of_lt (Nat.zero_le _) hr.1
  have hl := Std.of_range hr
  have hn : ((len first last).toNat : Int) = len first last := by have := hr.le; unfold len; omega
  obtain ⟨v, hv⟩ := Option.isSome_iff_exists.1 hm
  obtain ⟨t', p, h1, h2, h3, h4, h5, h6⟩ := findRef_ideal (tp := bitAt m) v a hv (len first last).toNat k
    (Lookup.start first.addr last.addr a) first.addr (by omega) rfl (by rw [← hl]; rfl) rfl
    (fun i a b => hr.mapped i a (by omega))
  obtain ⟨s', m', e1, e2, e3⟩ := Lookup.transfer S bi hr.1 hr.2 ha h1
  obtain ⟨it, e4, e5, e6⟩ := e3 0 p h2
  obtain ⟨q, f1, f2, f3⟩ := C11_find S m first last v hr hne
  have hm : m' = m := mem_ext_bitAt hw e2
  rw [hm] at e1
  have : it = q := by
    refine BitIter.addr_inj e5 f2 ?_
    rw [← e6] at h3 h4 h5 h6
    rw [← hl] at h4 h6
    obtain ⟨g1, g2, g3, g4⟩ := f3
    rcases Int.lt_trichotomy it.addr q.addr with hlt | heq | hgt
    · have a1 := g3 it.addr h3 hlt
      have a2 := h6 (by omega)
      rw [a2] at a1; cases v <;> cases a1
    · exact heq
    · have a1 := h5 q.addr g1 hgt
      have a2 := g4 (by omega)
      rw [a2] at a1; cases v <;> cases a1
  refine ⟨s', it, e1, e4, ?_⟩
  unfold findVal
  rw [M.bind_ok' (Lookup.read_ok ha hv), f1, this]

example : ((runOn ((findRef 12).code S8 true (Lookup.start ⟨0, 3⟩ ⟨1, 5⟩ ⟨0, 0x20#8⟩)) [0xa5#8, 0x3c#8]).map fun r => (r.1.2.it 0, r.2)) =
    ((runOn (findVal S8 ⟨0, 3⟩ ⟨1, 5⟩ ⟨0, 0x20#8⟩) [0xa5#8, 0x3c#8]).map fun r => (some r.1, r.2)) := by decide +kernel

/-- C102: `count`, on ranges that are not empty. -/
theorem C102_count (S : ShiftSem w) (bi : Bool) (m : Mem w) (first last : BitIter w) (r : BitRef w) (a : Int) (k : Nat) (hr : Range m first last)
    (hk : len first last < k) (hne : first.addr < last.addr) (ha : r.At a) (hm : (bitAt m a).isSome) :
    ∃ s' n, (countRef k 0).code S bi (Lookup.start first last r) m = .ok ((some n, s'), m) ∧ countVal S first last r m = .ok (n, m) := by
  have hw : 0 < w := Nat.lt_of_le_of_lt (Nat.zero_le _) hr.1
  have hl := Std.of_range hr
  have hn : ((len first last).toNat : Int) = len first last := by have := hr.le; unfold len; omega
  obtain ⟨v, hv⟩ := Option.isSome_iff_exists.1 hm
  obtain ⟨t', h1⟩ := countRef_ideal (tp := bitAt m) v a hv (len first last).toNat k
    (Lookup.start first.addr last.addr a) first.addr 0 (by omega) rfl (by rw [← hl]; rfl) rfl
    (fun i a b => hr.mapped i a (by omega))
  obtain ⟨s', m', e1, e2, _⟩ := Lookup.transfer S bi hr.1 hr.2 ha h1
  have hm : m' = m := mem_ext_bitAt hw e2
  rw [hm] at e1
  refine ⟨s', _, e1, ?_⟩
  unfold countVal
  rw [M.bind_ok' (Lookup.read_ok ha hv), C13_count S m first last v hr hne, Int.zero_add]
  rfl

example : ((runOn ((countRef 12 0).code S8 true (Lookup.start ⟨0, 3⟩ ⟨1, 5⟩ ⟨0, 0x20#8⟩)) [0xa5#8, 0x3c#8]).map fun r => (r.1.1, r.2)) =
    ((runOn (countVal S8 ⟨0, 3⟩ ⟨1, 5⟩ ⟨0, 0x20#8⟩) [0xa5#8, 0x3c#8]).map fun r => (some r.1, r.2)) := by decide +kernel

/-- C102: on an empty range it matters which function is reached: at the end of an array `count` of `std` yields 0, and that of the library accesses a word that does
not exist. -/
theorem C102_count_refuted (x : BitVec 8) :
    (∃ s', (countRef 1 0).code S8 true (Lookup.start ⟨1, 0⟩ ⟨1, 0⟩ ⟨0, 1#8⟩) (memOf [x]) = .ok ((some 0, s'), memOf [x])) ∧
    countVal S8 ⟨1, 0⟩ ⟨1, 0⟩ ⟨0, 1#8⟩ (memOf [x]) = .error .outOfBounds := ⟨⟨_, rfl⟩, rfl⟩

/-! ### What then compiles -/

/-- C102: with which iterators the loops of `std` compile: what is moved must not be `const` inside, what is stored to must not be `const`; that is all. -/
theorem C102_std_bodies (k : Nat) (v : Bool) (f : Bool → Bool) (g : Bool → Bool → Bool) (t u x : ItTy) :
    (Std.copy.typed.Compiles (scope t u x) ↔ t.top = false ∧ u.top = false ∧ u.const = false) ∧
    (Std.copyBackward.typed.Compiles (scope t u x) ↔ t.top = false ∧ u.top = false ∧ u.const = false) ∧
    ((Std.equal (k + 1)).typed.Compiles (scope t u x) ↔ t.top = false ∧ u.top = false) ∧
    ((Std.find v (k + 1)).typed.Compiles (scope t u x) ↔ t.top = false) ∧
    ((Std.count v (k + 1) 0).typed.Compiles (scope t u x) ↔ t.top = false) ∧
    ((Std.fill v (k + 1)).typed.Compiles (scope t u x) ↔ t.top = false ∧ t.const = false) ∧
    ((Std.reverse (k + 1)).typed.Compiles (scope t u x) ↔ t.top = false ∧ t.const = false) ∧
    ((Std.swapRanges (k + 1)).typed.Compiles (scope t u x) ↔ t.top = false ∧ u.top = false ∧ t.const = false ∧ u.const = false) ∧
    ((Std.transform f (k + 1)).typed.Compiles (scope t u x) ↔ t.top = false ∧ u.top = false ∧ u.const = false) ∧
    ((Std.transform2 g (k + 1)).typed.Compiles (scope t u x) ↔ t.top = false ∧ u.top = false ∧ x.top = false ∧ x.const = false) := by
  refine ⟨?_, ?_, equal_types k t u _ rfl rfl rfl, find_types v k t _ rfl rfl, count_types v k t _ 0 rfl rfl, fill_types v k t _ rfl rfl, ?_,
    swapRanges_types k t u _ rfl rfl rfl, transform_types f k t u _ rfl rfl rfl, transform2_types g k t u x _ rfl rfl rfl rfl⟩
  · unfold Std.copy
    rw [compiles_askNum]
    constructor
    · rintro ⟨Γ, h, h'⟩
      have := h' 1
      have e : Γ = scope t u x := by simp [IOp.check, withTy, scope, comparable_self, demand] at h; exact h.symm
      rw [e] at this
      exact (copyLoop_types 0 t u _ rfl rfl rfl).1 this
    · intro h
      refine ⟨scope t u x, by simp [IOp.check, withTy, scope, comparable_self, demand], fun n => ?_⟩
      rcases n.toNat with _ | j
      · exact trivial
      · exact (copyLoop_types j t u _ rfl rfl rfl).2 h
  · unfold Std.copyBackward
    rw [compiles_askNum]
    constructor
    · rintro ⟨Γ, h, h'⟩
      have := h' 1
      have e : Γ = scope t u x := by simp [IOp.check, withTy, scope, comparable_self, demand] at h; exact h.symm
      rw [e] at this
      exact (copyBackwardLoop_types 0 t u _ rfl rfl rfl).1 this
    · intro h
      refine ⟨scope t u x, by simp [IOp.check, withTy, scope, comparable_self, demand], fun n => ?_⟩
      rcases n.toNat with _ | j
      · exact trivial
      · exact (copyBackwardLoop_types j t u _ rfl rfl rfl).2 h
  · unfold Std.reverse
    rw [compiles_ask]
    have hc : (IOp.cmpIt .eq 0 1).check (scope t u x) = some (scope t u x) := by simp [IOp.check, withTy, scope, comparable_self, demand]
    constructor
    · rintro ⟨Γ, h, h'⟩
      rw [hc] at h; cases h
      have := h' false
      rw [if_neg (by decide), compiles_run] at this
      obtain ⟨Γ, h1, h2⟩ := this
      have e : Γ = scope t u x := by
        simp [IOp.check, withTy, scope, demand] at h1; exact h1.2.symm
      rw [e] at h2
      exact (reverseLoop_types k t _ rfl rfl).1 h2
    · intro h
      refine ⟨_, hc, fun b => ?_⟩
      cases b
      · rw [if_neg (by decide), compiles_run]
        exact ⟨scope t u x, by simp [IOp.check, withTy, scope, demand, h.1], (reverseLoop_types k t _ rfl rfl).2 h⟩
      · exact trivial

/-- C102: copying from `const` words and comparing them: the unqualified call always reaches the library, whose function does not compile, although that of `std` does.
A `using std::copy` does not help. -/
theorem C102_const_source (cpp20 : Bool) (word : Nat → Bool) (visible : List Ns) (t u x : ItTy) (ca cb cu : Cat) (k : Nat) (ht : t.it.const = true)
    (htt : t.top = false) (hut : u.top = false) (hu : u.it.const = false) (f : Name) (hf : f = .copy ∨ f = .copyBackward ∨ f = .move ∨ f = .equal) :
    (callee cpp20 (.plain visible) f [⟨.it t, ca⟩, ⟨.it t, cb⟩, ⟨.it u, cu⟩]).map Tmpl.ns = some .bit ∧
    bitBody cpp20 word f [.it t, .it t, .it u] = false ∧
    (callee cpp20 (.qualified .std) f [⟨.it t, ca⟩, ⟨.it t, cb⟩, ⟨.it u, cu⟩]).map Tmpl.ns = some .std ∧
    Std.copy.typed.Compiles (scope t u x) ∧ Std.copyBackward.typed.Compiles (scope t u x) ∧ (Std.equal (k + 1)).typed.Compiles (scope t u x) := by
  have hb : BitTakes f [⟨.it t, ca⟩, ⟨.it t, cb⟩, ⟨.it u, cu⟩] := by rcases hf with rfl | rfl | rfl | rfl <;> exact ⟨t, u, rfl⟩
  have hst : StdTakes cpp20 f [⟨.it t, ca⟩, ⟨.it t, cb⟩, ⟨.it u, cu⟩] := by
    rcases hf with rfl | rfl | rfl | rfl
    · exact ⟨_, _, rfl⟩
    · exact ⟨_, _, rfl⟩
    · exact ⟨_, _, rfl⟩
    · exact ⟨_, _, .value, Or.inl rfl⟩
  obtain ⟨g, h, h'⟩ := C102_plain cpp20 visible f _ hb (by rcases hf with rfl | rfl | rfl | rfl <;> simp)
    (fun h => by have := h.1; rcases hf with rfl | rfl | rfl | rfl <;> simp at this)
  obtain ⟨g2, h2, h2'⟩ := (C102_callee cpp20 (.qualified .std) f [⟨.it t, ca⟩, ⟨.it t, cb⟩, ⟨.it u, cu⟩] .std).2
    ⟨rfl, hst, Or.inl fun h => by have := h.1; simp [Form.Sees] at this⟩
  obtain ⟨c1, c2, c3, _⟩ := C102_std_bodies k true id and t u x
  refine ⟨by rw [h, ← h']; rfl, ?_, by rw [h2, ← h2']; rfl, c1.2 ⟨htt, hut, hu⟩, c2.2 ⟨htt, hut, hu⟩, c3.2 ⟨htt, hut⟩⟩
  rcases hf with rfl | rfl | rfl | rfl
  · exact (C97_no_const_source t u .copy ht).1
  · exact (C97_no_const_source t u .copyBackward ht).1
  · exact (C97_no_const_source t u .move ht).1
  · exact (C97_no_const_source t u .equal ht).1

example : (⟨.cvec, false⟩ : ItTy).it.const = true ∧ (⟨.cvec, false⟩ : ItTy).top = false ∧ vecIt.top = false ∧ vecIt.it.const = false := by decide

end BitLib
