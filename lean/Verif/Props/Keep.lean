import Verif.Lemmas.Keep
/-
C91: programs that keep iterators, references and pointers while they work on their vectors.
-/
namespace BitLib
variable {w : Nat}

/-- C91, one step: a valid step within the limits has no undefined behaviour and answers what it answers on lists and positions. Afterwards the
vectors hold the lists, and every iterator, reference and pointer that is still valid by the rules of `std::vector` designates its position. -/
theorem C91_step (hw : 0 < w) (S : ShiftSem w) (P : Policy) (bi : Bool) (h : Heap w) (vs : List BV) (s : CodeSlots w) (st st' : KState)
    (k : KStep w) (a : KAns) (ok : KeepOk h vs s st) (hk : k.Spec S st st' a) :
    ∃ vs' s' h', k.exec S P bi vs s h = .ok (((vs', s'), a), h') ∧ KeepOk h' vs' s' st' := by
  obtain ⟨e, hc, t, hs, hl⟩ := ok
  cases hk with
  | @iter k i n hi =>
    obtain ⟨v, hv, _, r⟩ := e.get hi
    have hp := IsPos.begin_add hw v n
    refine ⟨vs, _, h, ?_, e, hc, t.putIt k (v.vec.ptr * (w : Int) + (n : Int)), hs.putIt k ⟨hp.1, by rw [hp.2, Int.zero_add]⟩, hl.putIt k ⟨v, hv, rfl⟩⟩
    unfold KStep.exec withVec
    dsimp only
    rw [hv]
    rfl
  | @op o l a ls ho =>
    obtain ⟨⟨t', a'⟩, tape, h1, ⟨h2, rfl⟩, h3⟩ := simL_op e o hl st.ls _ _ _ (TapeEnv.ofEnv e) ho
    have h4 := sim_op (F := True) S bi o hs h.mem (fun p => bitAt h.mem (0 + p)) ⟨fun _ _ hh => hh, fun _ _ => rfl⟩
    rw [h1] at h4
    obtain ⟨⟨s', a''⟩, m', h5, ⟨h6, rfl⟩, h7, _⟩ := h4
    have h8 : onMem (o.run (ub .badRange) (codeIface S bi) s) h = .ok ((s', a''), { h with mem := m' }) := by unfold onMem; rw [h5]
    refine ⟨vs, s', { h with mem := m' }, ?_, h3.toEnv e (h7.2 trivial), hc, t', h6, h2⟩
    unfold KStep.exec
    dsimp only
    rw [runV_bind_ok h8]
    rfl
  | @call c ls a hpre hlim hsp =>
    obtain ⟨vs', a', h', ls', e1, s1, ok1⟩ := C65_step_partial hw S P h vs st.ls c e hpre hlim
    obtain ⟨rfl, rfl⟩ := hsp.unique s1
    have hf := follows_call hw e hc hpre hlim e1
    refine ⟨vs', s, h', ?_, ok1, hf.1, t, hs, hl.move hf⟩
    unfold KStep.exec
    dsimp only
    rw [runV_bind_ok e1]
    rfl
  | @atCall x c r ls a his hpre hlim hsp =>
    obtain ⟨vs', a', h', ls', e1, s1, ok1⟩ := C65_step_partial hw S P h vs st.ls c e hpre hlim
    obtain ⟨rfl, rfl⟩ := hsp.unique s1
    have hf := follows_call hw e hc hpre hlim e1
    obtain ⟨vs2, h2, a2, s', x1, x2, x3⟩ := at_exec (P := P) hw e hs hl his hpre hlim
    rw [e1] at x2
    cases x2
    have hx : (KStep.atCall x).exec S P bi vs s h = .ok (((vs', s'), .call a.seen), h') := by
      unfold KStep.exec
      dsimp only
      rw [runV_bind_ok x1]
      rfl
    refine ⟨vs', s', h', hx, ok1, hf.1, ?_⟩
    have hm := hl.move hf
    cases r with
    | none => cases x3; exact ⟨t, hs, hm⟩
    | answer r i =>
      obtain ⟨n, v, y, rfl, hv, hy, hya, rfl⟩ := x3
      exact ⟨t.putIt r (v.vec.ptr * (w : Int) + n), hs.putIt r ⟨hy, by rw [hya, Int.zero_add]⟩, hm.putIt r ⟨v, hv, rfl⟩⟩
    | pos r i d =>
      obtain ⟨v, y, hv, hy, rfl⟩ := x3
      exact ⟨t.putIt r (v.vec.ptr * (w : Int) + (d : Int)), hs.putIt r ⟨hy.1, by rw [hy.2, Int.zero_add]⟩, hm.putIt r ⟨v, hv, rfl⟩⟩

/-- C91: a program that makes valid steps within the limits has no undefined behaviour, and its result is the one on lists and positions. -/
theorem C91_program {α : Type} (hw : 0 < w) (S : ShiftSem w) (P : Policy) (bi : Bool) (h : Heap w) (vs : List BV) (s : CodeSlots w)
    (st st' : KState) (p : Keeper w α) (x : α) (ok : KeepOk h vs s st) (hr : p.Run S st st' x) :
    ∃ vs' s' h', p.exec S P bi vs s h = .ok ((x, vs', s'), h') ∧ KeepOk h' vs' s' st' := by
  induction hr generalizing h vs s with
  | done => exact ⟨vs, s, h, rfl, ok⟩
  | step hk _ ih =>
    obtain ⟨vs1, s1, h1, e1, ok1⟩ := C91_step hw S P bi h vs s _ _ _ _ ok hk
    obtain ⟨vs2, s2, h2, e2, ok2⟩ := ih h1 vs1 s1 ok1
    refine ⟨vs2, s2, h2, ?_, ok2⟩
    unfold Keeper.exec
    rw [runV_bind_ok e1]
    exact e2

/-- No variable holds anything. -/
def noSlots {I R P : Type} : Slots I R P := ⟨fun _ => none, fun _ => none, fun _ => none⟩

/-- C91: the start of a program without vectors, iterators, references and pointers. -/
theorem C91_start (h : Heap w) (hwf : h.WF) : KeepOk h [] noSlots ⟨[], [], noSlots⟩ :=
  ⟨EnvOk.nil hwf, ⟨rfl, by simp⟩, noSlots, ⟨fun _ => .inl ⟨rfl, rfl⟩, fun _ => .inl ⟨rfl, rfl⟩, fun _ => .inl ⟨rfl, rfl⟩⟩,
    ⟨fun _ _ hh => (by cases hh), fun _ _ hh => (by cases hh), fun _ _ hh => (by cases hh)⟩⟩

/-! ### Uniqueness -/

theorem AtCall.Is.unique {t : Slots Loc Loc Loc} {x : AtCall w} {c c' : Call w} {r r' : Res} (h1 : x.Is t c r) (h2 : x.Is t c' r') : c = c' ∧ r = r' := by
  have key : ∀ {o : Option Loc} {i i' d d' : Nat}, o = some (i, (d : Int)) → o = some (i', (d' : Int)) → i = i' ∧ d = d' := by
    intro o i i' d d' a b
    rw [a] at b
    simp only [Option.some.injEq, Prod.mk.injEq, Int.natCast_inj] at b
    exact b
  cases h1 <;> cases h2
  case copyBackward.copyBackward f l d r i j a b c a1 a2 a3 i' j' a' b' c' b1 b2 b3 =>
    obtain ⟨rfl, rfl⟩ := key a1 b1
    obtain ⟨_, rfl⟩ := key a2 b2
    obtain ⟨rfl, h3⟩ := key a3 b3
    rw [Nat.add_right_cancel h3]
    exact ⟨rfl, rfl⟩
  all_goals simp_all

theorem KStep.Spec.unique {S S2 : ShiftSem w} {st st1 st2 : KState} {k : KStep w} {a1 a2 : KAns} (h1 : k.Spec S st st1 a1) (h2 : k.Spec S2 st st2 a2) :
    st1 = st2 ∧ a1 = a2 := by
  cases h1 with
  | iter => cases h2; exact ⟨rfl, rfl⟩
  | op ho =>
    cases h2 with
    | op ho2 =>
      rw [ho] at ho2
      cases ho2
      exact ⟨rfl, rfl⟩
  | call _ _ hs =>
    cases h2 with
    | call _ _ hs2 =>
      obtain ⟨rfl, rfl⟩ := hs.unique hs2
      exact ⟨rfl, rfl⟩
  | atCall hi _ _ hs =>
    cases h2 with
    | atCall hi2 _ _ hs2 =>
      obtain ⟨rfl, rfl⟩ := hi.unique hi2
      obtain ⟨rfl, rfl⟩ := hs.unique hs2
      exact ⟨rfl, rfl⟩

/-- C91: the lists, positions and result of a program are determined. -/
theorem C91_unique {α : Type} {S S2 : ShiftSem w} {st st1 st2 : KState} {p : Keeper w α} {x1 x2 : α} (h1 : p.Run S st st1 x1) (h2 : p.Run S2 st st2 x2) :
    st1 = st2 ∧ x1 = x2 := by
  induction h1 with
  | done => cases h2; exact ⟨rfl, rfl⟩
  | step hk _ ih =>
    cases h2 with
    | step hk2 hr2 =>
      obtain ⟨rfl, rfl⟩ := hk.unique hk2
      exact ih hr2

/-- C91: the result does not depend on the compiler's shifts, on the builtins used, on the growth of the storage, on where the vectors lie and on
how much room they have. -/
theorem C91_independent {α : Type} (hw : 0 < w) (S S2 : ShiftSem w) (P P2 : Policy) (bi bi2 : Bool) (h h2 : Heap w) (vs vs2 : List BV)
    (s s2 : CodeSlots w) (st : KState) (p : Keeper w α) (ok : KeepOk h vs s st) (ok2 : KeepOk h2 vs2 s2 st) (hr : ∃ st' x, p.Run S st st' x)
    (hr2 : ∃ st' x, p.Run S2 st st' x) :
    ∃ x vs' s' h' vs2' s2' h2', p.exec S P bi vs s h = .ok ((x, vs', s'), h') ∧ p.exec S2 P2 bi2 vs2 s2 h2 = .ok ((x, vs2', s2'), h2') := by
  obtain ⟨st', x, r⟩ := hr
  obtain ⟨st2', x2, r2⟩ := hr2
  obtain ⟨rfl, rfl⟩ := C91_unique r r2
  obtain ⟨vs', s', h', e, _⟩ := C91_program hw S P bi h vs s st st' p x ok r
  obtain ⟨vs2', s2', h2', e2, _⟩ := C91_program hw S2 P2 bi2 h2 vs2 s2 st st' p x ok2 r2
  exact ⟨x, vs', s', h', vs2', s2', h2', e, e2⟩

/-! ### The rules cannot be relaxed -/

/-- C91: after the vector is destroyed, after `reserve` beyond its capacity, and after `push_back` at full capacity, reading or writing through a
reference to one of its elements is undefined. -/
theorem C91_dangling (hw : 0 < w) (S : ShiftSem w) (P : Policy) (bi : Bool) (h : Heap w) (vs : List BV) (s : CodeSlots w) (st : KState)
    (ok : KeepOk h vs s st) (k i d : Nat) (v : BV) (l : List Bool) (hv : vs[i]? = some v) (hl : st.ls[i]? = some l)
    (hk : st.slots.ref k = some (i, (d : Int))) (hd : d < l.length) (op : Op w)
    (hop : op = .destroy i ∨ (∃ n, n < 2 ^ 32 ∧ v.capacity w < n ∧ op = .reserve i n) ∨ (∃ b, l.length = v.capacity w ∧ op = .push i b)) :
    ∃ vs' h', (KStep.call (.vec op)).exec S P bi vs s h = .ok (((vs', s), .call .unit), h') ∧
      (KStep.op (.read k)).exec S P bi vs' s h' = .error (.ub .outOfBounds) ∧
      ∀ u, (KStep.op (.upd u k)).exec S P bi vs' s h' = .error (.ub .outOfBounds) := by
  obtain ⟨e, _, t, hs, hsl⟩ := ok
  obtain ⟨v', l', hv', hl', r⟩ : ∃ v' l', vs[i]? = some v' ∧ some l = some l' ∧ Rep h v' l' := by
    obtain ⟨v', a, _, r⟩ := e.get (List.getElem?_eq_some_iff.1 hl).1
    unfold Op.at' at r
    rw [hl] at r
    exact ⟨v', l, a, rfl, r⟩
  rw [hv] at hv'
  cases hv'
  cases hl'
  have hstep : ∃ v' h', (op.exec S P vs h = .ok (vs.set i v', h')) ∧ Gone v.vec h' := by
    rcases hop with rfl | ⟨n, hn, hc, rfl⟩ | ⟨b, hc, rfl⟩
    · obtain ⟨h', e1, g⟩ := destroy_gone hw v h
      refine ⟨BV.default, h', ?_, g⟩
      unfold Op.exec onVec
      dsimp only
      rw [hv]
      dsimp only
      rw [bind_assoc, runV_bind_ok e1]
      rfl
    · obtain ⟨v', h', e1, g⟩ := reserve_gone hw P r hn hc
      refine ⟨v', h', ?_, g⟩
      unfold Op.exec onVec
      dsimp only
      rw [hv]
      dsimp only
      rw [runV_bind_ok e1]
      rfl
    · obtain ⟨v', h', e1, g⟩ := push_gone hw S P b e.wf r hc
      refine ⟨v', h', ?_, g⟩
      unfold Op.exec onVec
      dsimp only
      rw [hv]
      dsimp only
      rw [runV_bind_ok e1]
      rfl
  obtain ⟨v', h', e1, g⟩ := hstep
  obtain ⟨a, ha, v2, hv2, rfl⟩ := hsl.ref k _ hk
  dsimp only at hv2
  rw [hv] at hv2
  cases hv2
  obtain ⟨x, hx, hat⟩ : ∃ x, s.ref k = some x ∧ x.At (0 + (v.vec.ptr * (w : Int) + (d : Int))) := by
    rcases hs.ref k with ⟨_, h2⟩ | ⟨x, y, h1, h2, h3⟩
    · rw [ha] at h2; cases h2
    · rw [ha] at h2
      cases h2
      exact ⟨x, h1, h3⟩
  have hnone : bitAt h'.mem (0 + (v.vec.ptr * (w : Int) + (d : Int))) = none := by
    have hf := r.fit
    have hlen := r.len
    have hc := nat_mul_cast_le (w := w) r.ok.cap
    have hfi : (v.length : Int) ≤ (v.vec.size : Int) * (w : Int) := by exact_mod_cast hf
    exact g _ (by omega) (by omega)
  have hrel : TapeRel True 0 h'.mem (fun p => bitAt h'.mem (0 + p)) := ⟨fun _ _ hh => hh, fun _ _ => rfl⟩
  have key : ∀ o : IOp, (o.run (fun _ => .error .badRange) idealIface t : TapeM _) (fun p => bitAt h'.mem (0 + p)) = .error .outOfBounds →
      (KStep.op o).exec S P bi (vs.set i v') s h' = .error (.ub .outOfBounds) := by
    intro o ho
    have h1 := sim_op (F := True) S bi o hs h'.mem _ hrel
    rw [ho] at h1
    have h2 : onMem (o.run (ub .badRange) (codeIface S bi) s) h' = .error (.ub .outOfBounds) := by unfold onMem; rw [h1 trivial]
    unfold KStep.exec
    dsimp only
    show (onMem (o.run (ub .badRange) (codeIface S bi) s) h' >>= _) = _
    rw [h2]
    rfl
  have hget : (Tape.get (v.vec.ptr * (w : Int) + (d : Int))) (fun p => bitAt h'.mem (0 + p)) = .error .outOfBounds := Tape.get_none hnone
  refine ⟨vs.set i v', h', ?_, key _ ?_, fun u => key _ ?_⟩
  · unfold KStep.exec Call.exec
    dsimp only
    rw [bind_assoc, runV_bind_ok e1]
    rfl
  · unfold IOp.run useSlot
    dsimp only
    rw [ha]
    exact TapeM.bind_error hget
  · unfold IOp.run useSlot
    dsimp only
    rw [ha]
    exact TapeM.bind_error (TapeM.bind_error hget)

/-! ### A program -/

/-- The steps in order; the result is the list of answers. -/
def Keeper.ofSteps : List (KStep w) → List KAns → Keeper w (List KAns)
  | [], acc => .done acc.reverse
  | k :: ks, acc => .step k fun a => ofSteps ks (a :: acc)

/-- A vector `0110`, room for 100 elements, an iterator and a reference to element 2. Then ten elements are put in before element 1, the first
`1` from the kept iterator on is found, the reference is read, and element 2 is flipped through it. -/
def keepProg : Keeper 8 (List KAns) := .ofSteps
  [.call (.vec (.newString "0110".toList)), .call (.vec (.reserve 0 100)), .iter 0 0 2, .op (.derefIt 0 0), .op (.read 0), .iter 1 0 1,
   .atCall (.insertN 0 1 10 false 2), .op (.read 0), .iter 3 0 14, .atCall (.find 0 3 true 4), .op (.diffIt 4 0), .op (.upd .flip 0),
   .call (.debugString 0)] []

theorem run_step {α : Type} {S : ShiftSem w} {st st1 : KState} {k : KStep w} {next : KAns → Keeper w α} {a : KAns} {x : α} (hk : k.Spec S st st1 a)
    (hr : ∃ st', (next a).Run S st1 st' x) : ∃ st', (Keeper.step k next).Run S st st' x := by
  obtain ⟨st', r⟩ := hr
  exact ⟨st', .step hk r⟩

/-- The answers: the reference to element 2 first reads `1`, after the insertion it reads the new element 2; the first `1` behind the iterator is 9
elements away. -/
theorem keepProg_run (S : ShiftSem 8) : ∃ st', keepProg.Run S ⟨[], [], noSlots⟩ st'
    [.call .unit, .call .unit, .it .unit, .it .unit, .it (.bool true), .it .unit, .call .unit, .it (.bool false), .it .unit, .call .unit, .it (.num 9),
      .it .unit, .call (.text "00100000 000110".toList)] := by
  have lim : ∀ n : Nat, n < 100 → n < 2 ^ 31 ∧ n ≤ 2 ^ 24 := fun n hn => by omega
  unfold keepProg
  refine run_step (.call trivial ⟨trivial, .inl trivial⟩ ⟨rfl, rfl⟩) ?_
  refine run_step (.call (c := .vec (.reserve 0 100)) (by show _ < _; decide) ⟨trivial, .inl trivial⟩ ⟨rfl, rfl⟩) ?_
  refine run_step (.iter (by decide)) ?_
  refine run_step (.op rfl) ?_
  refine run_step (.op rfl) ?_
  refine run_step (.iter (by decide)) ?_
  refine run_step (.atCall (.insertN rfl) ⟨by decide, by decide⟩ ⟨(lim _ (by decide)).2, .inl (by show ¬ _; decide)⟩ ⟨rfl, rfl⟩) ?_
  refine run_step (.op rfl) ?_
  refine run_step (.iter (by decide)) ?_
  refine run_step (.atCall (.find rfl rfl) ⟨by decide, by decide, by decide⟩ trivial ⟨rfl, rfl⟩) ?_
  refine run_step (.op rfl) ?_
  refine run_step (.op rfl) ?_
  refine run_step (.call (c := .debugString 0) (by show _ < _; decide) (lim _ (by decide)).1 ⟨rfl, rfl⟩) ?_
  exact ⟨_, .done⟩

/-- C91: this program has this result with every compiler and every allocation policy. -/
theorem C91_keepProg (S : ShiftSem 8) (P : Policy) (bi : Bool) :
    ∃ vs' s' h', keepProg.exec S P bi [] noSlots (emptyHeap : Heap 8) = .ok (([.call .unit, .call .unit, .it .unit, .it .unit, .it (.bool true), .it .unit,
      .call .unit, .it (.bool false), .it .unit, .call .unit, .it (.num 9), .it .unit, .call (.text "00100000 000110".toList)], vs', s'), h') := by
  obtain ⟨st', r⟩ := keepProg_run S
  obtain ⟨vs', s', h', e, _⟩ := C91_program (by decide) S P bi emptyHeap [] noSlots _ st' keepProg _ (C91_start emptyHeap emptyHeap_wf) r
  exact ⟨vs', s', h', e⟩

/-- The vector of the examples, and a reference to its element 10. -/
theorem exKeep : KeepOk exH [exV] (noSlots.putRef 0 ⟨1, 1#8 <<< 2⟩) ⟨[exL], [16], noSlots.putRef 0 (0, ((10 : Nat) : Int))⟩ := by
  have e : EnvOk exH [exV] [exL] := by
    refine ⟨exH_wf, rfl, ?_, ?_⟩
    · intro i v l hv hl
      obtain rfl : i = 0 := by have := (List.getElem?_eq_some_iff.1 hv).1; simp at this; exact this
      cases hv
      cases hl
      exact exRep
    · intro i j v o hv ho hij
      have h1 := (List.getElem?_eq_some_iff.1 hv).1
      have h2 := (List.getElem?_eq_some_iff.1 ho).1
      simp at h1 h2
      omega
  refine ⟨e, ⟨rfl, ?_⟩, noSlots.putRef 0 10, SlotsAt.putRef ⟨fun _ => .inl ⟨rfl, rfl⟩, fun _ => .inl ⟨rfl, rfl⟩, fun _ => .inl ⟨rfl, rfl⟩⟩ 0
    ⟨2, by decide, rfl, rfl⟩, SlotsLoc.putRef ⟨fun _ _ hh => (by cases hh), fun _ _ hh => (by cases hh), fun _ _ hh => (by cases hh)⟩ 0 ⟨exV, rfl, rfl⟩⟩
  intro i v c hv hc
  obtain rfl : i = 0 := by have := (List.getElem?_eq_some_iff.1 hv).1; simp at this; exact this
  cases hv
  cases hc
  decide

/-- The reference is read after more room was asked for. -/
example (S : ShiftSem 8) (P : Policy) (bi : Bool) : ∃ vs' h', (KStep.call (.vec (.reserve 0 17))).exec S P bi [exV] (noSlots.putRef 0 ⟨1, 1#8 <<< 2⟩) exH =
      .ok (((vs', noSlots.putRef 0 ⟨1, 1#8 <<< 2⟩), .call .unit), h') ∧
    (KStep.op (.read 0)).exec S P bi vs' (noSlots.putRef 0 ⟨1, 1#8 <<< 2⟩) h' = .error (.ub .outOfBounds) := by
  obtain ⟨vs', h', e1, e2, _⟩ := C91_dangling (by decide) S P bi exH [exV] _ _ exKeep 0 0 10 exV exL rfl rfl rfl (by decide) (.reserve 0 17)
    (.inr (.inl ⟨17, by omega, by decide, rfl⟩))
  exact ⟨vs', h', e1, e2⟩

end BitLib
