import Verif.Lemmas.ExprOrder
/-
C101: expressions that mix bits, `bool` and numbers.
-/
namespace BitLib.Expr
variable {w : Nat}

/-- An expression compiles if and only if the table of types has an entry for it, and the entry is its type and value category. -/
theorem C101_compiles (A : Arith) (Γ : Scope) (e : E) (t : ETy) : (∃ c, e.elab A Γ = some (c, t)) ↔ e.type A Γ = some t := by
  rw [← E.elab_type]
  constructor
  · rintro ⟨c, h⟩
    rw [h]
    rfl
  · intro h
    cases he : e.elab A Γ with
    | none => rw [he] at h; cases h
    | some x =>
      obtain ⟨c, u⟩ := x
      rw [he] at h
      cases h
      exact ⟨c, rfl⟩

/-- The overloads, conversions and members that the compiler has chosen compute what is meant: the same result, the same bits in memory and in objects; and
an assertion fails if and only if a position does not exist, which takes a call `assign(y, p)` or `bit_value(y, p)`. Nothing else happens. -/
theorem C101_runs (hw : 0 < w) (A : Arith) (S : ∀ k, ShiftSem k) (Γ : Scope) (refs : Nat → BitRef w) (addrs : Nat → Int) (e : E) (c : Core) (t : ETy)
    (s : State) (o : List BitVal) (m : Mem w) (he : e.elab A Γ = some (c, t)) (hs : InScope Γ refs addrs s)
    (hm : bitAt m = s.bits) (ho : o.map BitVal.value = s.objs) :
    match e.value A Γ w addrs s with
    | some (v, s') => ∃ x o' m', c.eval A S refs o m = .ok ((x, o'), m') ∧ x.Is v ∧ bitAt m' = s'.bits ∧ o'.map BitVal.value = s'.objs
    | none => e.HasPos ∧ c.eval A S refs o m = .error .assertFail := by
  have h := sim_main hw A S e (fun h => h) c t he s hs o m ⟨hm, ho⟩
  cases hv : e.value A Γ w addrs s with
  | none => rw [hv] at h; exact h
  | some x =>
    obtain ⟨v, s'⟩ := x
    rw [hv] at h
    obtain ⟨x, o', m', h1, h2, h3, _⟩ := h
    exact ⟨x, o', m', h1, h3.is, h2.bits, h2.objs⟩

/-! ### What does not compile -/

/-- A bit and a number do not mix: no operator, assignment, initialisation or choice takes one of each. -/
theorem C101_no_mixing (A : Arith) (Γ : Scope) (x n z : E) (tx tn : ETy) (hx : x.type A Γ = some tx) (hn : n.type A Γ = some tn)
    (bx : tx.isBit = true) (bn : tn.isNum = true) :
    (∀ o lr, (E.bin o lr x n).elab A Γ = none ∧ (E.bin o lr n x).elab A Γ = none) ∧
    (∀ o late, (E.asg o late x n).elab A Γ = none ∧ (E.asg o late n x).elab A Γ = none) ∧
    (E.initVal n).elab A Γ = none ∧ (E.initBool x).elab A Γ = none ∧
    (E.setTo z x).elab A Γ = none ∧ (E.assign z x).elab A Γ = none ∧ (E.cond z x n).elab A Γ = none ∧ (E.cond z n x).elab A Γ = none := by
  obtain ⟨a, rfl⟩ := isNum_arith bn
  refine ⟨fun o lr => ⟨?_, ?_⟩, fun o late => ⟨?_, ?_⟩, ?_, ?_, ?_, ?_, ?_, ?_⟩ <;> apply none_of_type <;> simp only [E.type, hx, hn, Option.bind_some]
  · cases tx <;> first | rfl | cases bx
  · cases tx <;> first | rfl | cases bx
  · cases tx <;> simp [when, ETy.isBit]
  · rfl
  · rfl
  · cases tx <;> first | rfl | cases bx
  · cases z.type A Γ with
    | none => rfl
    | some tz => cases tx <;> first | (simp [when, ETy.isNum]; done) | cases bx
  · cases z.type A Γ with
    | none => rfl
    | some tz => cases tx <;> first | (simp [when, ETy.isNum, ETy.isUnsigned]; done) | cases bx
  · cases z.type A Γ with
    | none => rfl
    | some tz => cases tx <;> first | (cases tz <;> rfl) | cases bx
  · cases z.type A Γ with
    | none => rfl
    | some tz => cases tx <;> first | (cases tz <;> rfl) | cases bx

/-- A comparison yields a `bool`, so that comparisons do not chain: `x == y == z` and `x == !y` do not compile, whatever the bits. -/
theorem C101_no_chain (A : Arith) (Γ : Scope) (x y z : E) (tx ty tz : ETy) (hx : x.type A Γ = some tx) (hy : y.type A Γ = some ty) (hz : z.type A Γ = some tz)
    (bx : tx.isBit = true) (by' : ty.isBit = true) (bz : tz.isBit = true) (o o' : Cmp) (lr lr' : Bool) :
    (E.bin (.cmp o) lr (.bin (.cmp o') lr' x y) z).elab A Γ = none ∧ (E.bin (.cmp o) lr x (.not y)).elab A Γ = none ∧
      (E.bin (.cmp o) lr x (.compl y)).type A Γ = some boolTy := by
  have h1 : (E.bin (.cmp o') lr' x y).type A Γ = some boolTy := by
    simp only [E.type, hx, hy, Option.bind_some]
    cases tx <;> cases ty <;> first | rfl | (cases bx; done) | (cases by'; done)
  have h2 : (E.not y).type A Γ = some boolTy := by
    simp only [E.type, hy, Option.bind_some]
    cases ty <;> first | rfl | cases by'
  refine ⟨((C101_no_mixing A Γ z _ x tz boolTy hz h1 bz rfl).1 _ _).2, ((C101_no_mixing A Γ x _ x tx boolTy hx h2 bx rfl).1 _ _).1, ?_⟩
  simp only [E.type, hx, hy, Option.bind_some]
  cases tx <;> cases ty <;> first | rfl | (cases bx; done) | (cases by'; done)

/-- `bit_value(n)` does not compile for numbers of signed types and characters, nor does `x.assign(n)` for a `bit_value`; for a reference it does. -/
theorem C101_no_signed (A : Arith) (Γ : Scope) (x n : E) (tx : ETy) (a : ATy) (hn : n.type A Γ = some (.arith a)) (hx : x.type A Γ = some tx)
    (ha : a = .char ∨ ∃ k, a = .num true k) :
    (E.toVal n).elab A Γ = none ∧ (∀ p lr, (E.toValPos lr n p).elab A Γ = none) ∧ (tx.isVal = true → (E.assign x n).elab A Γ = none) ∧
      (tx.isRef = true → tx.modifiable = true → (E.assign x n).type A Γ = some tx.named) := by
  refine ⟨?_, fun p lr => ?_, fun hv => ?_, fun hr hm => ?_⟩
  · apply none_of_type
    simp only [E.type, hn, Option.bind_some]
    rcases ha with rfl | ⟨k, rfl⟩ <;> rfl
  · apply none_of_type
    simp only [E.type, hn, Option.bind_some]
    cases p.type A Γ with
    | none => rfl
    | some tp => rcases ha with rfl | ⟨k, rfl⟩ <;> rfl
  · apply none_of_type
    simp only [E.type, hn, hx, Option.bind_some, hv, if_true]
    rcases ha with rfl | ⟨k, rfl⟩ <;> simp [when, ETy.isUnsigned]
  · simp only [E.type, hn, hx, Option.bind_some, hm]
    cases tx with
    | ref c u l => rfl
    | _ => cases hr

/-- What cannot be changed: a `const` object, a bit of a `const` word; and `bit_value::swap(bit_reference)` and a choice between a `bit_reference<W>` and a
`bit_reference<const W>` never compile. -/
theorem C101_no_change (A : Arith) (Γ : Scope) (x y z : E) (tx ty : ETy) (hx : x.type A Γ = some tx) (hy : y.type A Γ = some ty) :
    (tx.modifiable = false → (∀ o late, (E.asg o late x y).elab A Γ = none) ∧ (∀ f, (E.call f x).elab A Γ = none) ∧ (E.setTo x y).elab A Γ = none ∧
      (E.assign x y).elab A Γ = none ∧ (∀ lr, (E.assignPos lr x y z).elab A Γ = none) ∧ (E.swapWith x y).elab A Γ = none ∧
      (∀ lr, (E.stdSwap lr x y).elab A Γ = none)) ∧
    (tx.isVal = true → ty.isAnyRef = true → (E.swapWith x y).elab A Γ = none) ∧
    (tx.isAnyRef = true → ty.isAnyRef = true → tx.isRef ≠ ty.isRef → (E.cond z x y).elab A Γ = none) := by
  refine ⟨fun hm => ⟨fun o late => ?_, fun f => ?_, ?_, ?_, fun lr => ?_, ?_, fun lr => ?_⟩, fun h1 h2 => ?_, fun h1 h2 h3 => ?_⟩ <;> apply none_of_type <;>
    simp only [E.type, hx, hy, Option.bind_some]
  · rw [hm]; rfl
  · rw [hm]; rfl
  · rw [hm]; rfl
  · rw [hm]; rfl
  · cases z.type A Γ with
    | none => rfl
    | some tz => rw [Option.bind_some, hm]; rfl
  · rw [hm]; rfl
  · rw [hm]; rfl
  · cases tx with
    | val c l => cases ty with
      | ref d v m => cases c <;> rfl
      | _ => cases h2
    | _ => cases h1
  · cases z.type A Γ with
    | none => rfl
    | some tz => cases tx with
      | ref c u l => cases ty with
        | ref d v m => cases tz <;> cases u <;> cases v <;> first | rfl | exact absurd rfl h3
        | _ => cases h2
      | _ => cases h1

/-! ### Exchanges -/

/-- `swap(x, y)` and `x.swap(y)` exchange two bits that references designate; `std::swap(x, y)` copies the second bit to the first, whose value is lost. -/
theorem C101_std_swap_refuted (hw : 0 < w) (A : Arith) (S : ∀ k, ShiftSem k) (Γ : Scope) (refs : Nat → BitRef w) (addrs : Nat → Int) (i j : Nat)
    (s : State) (o : List BitVal) (m : Mem w) (hs : InScope Γ refs addrs s) (hm : bitAt m = s.bits) (ho : o.map BitVal.value = s.objs)
    (hi : Γ.ref i = some (false, false, true)) (hj : Γ.ref j = some (false, false, true)) (a b : Bool) (ha : bitAt m (addrs i) = some a) (hb : bitAt m (addrs j) = some b)
    (lr : Bool) :
    (∃ c m', (E.stdSwap lr (.ref i) (.ref j)).elab A Γ = some (c, .void) ∧ c.eval A S refs o m = .ok ((.unit, o), m') ∧
      bitAt m' (addrs i) = some b ∧ bitAt m' (addrs j) = some b) ∧
    (∀ e, e = E.swap lr (.ref i) (.ref j) ∨ e = E.swapWith (.ref i) (.ref j) → ∃ c m', e.elab A Γ = some (c, .void) ∧ c.eval A S refs o m = .ok ((.unit, o), m') ∧
      bitAt m' (addrs i) = some b ∧ bitAt m' (addrs j) = some a) := by
  have ti : (E.ref i).type A Γ = some (.ref false false true) := by simp only [E.type, hi, Option.bind_some]
  have tj : (E.ref j).type A Γ = some (.ref false false true) := by simp only [E.type, hj, Option.bind_some]
  have ga : (Val.ref (addrs i)).get s = some (a, s) := get_ref (by rw [← hm]; exact ha)
  have gb : (Val.ref (addrs j)).get s = some (b, s) := get_ref (by rw [← hm]; exact hb)
  have key : ∀ (e : E) (d : Bool), e.type A Γ = some .void →
      e.value A Γ w addrs s = some (.unit, (s.setBit (addrs i) b).setBit (addrs j) d) →
      (addrs i = addrs j → d = b) →
      ∃ c m', e.elab A Γ = some (c, .void) ∧ c.eval A S refs o m = .ok ((.unit, o), m') ∧ bitAt m' (addrs i) = some b ∧ bitAt m' (addrs j) = some d := by
    intro e d ht hv hd
    obtain ⟨c, hc⟩ := (C101_compiles A Γ e .void).2 ht
    have h := C101_runs hw A S Γ refs addrs e c .void s o m hc hs hm ho
    rw [hv] at h
    obtain ⟨x, o', m', h1, h2, h3, h4⟩ := h
    have hx : x = .unit := by cases x <;> first | rfl | exact h2.elim
    have ho' : o' = o := by
      have : o'.map BitVal.value = o.map BitVal.value := by rw [h4, ho]; rfl
      exact List.map_injective_iff.2 (fun x y h => by cases x; cases y; cases h; rfl) this
    subst hx
    subst ho'
    refine ⟨c, m', hc, h1, ?_, ?_⟩
    · rw [h3]
      show (if addrs i = addrs j then some d else if addrs i = addrs i then some b else s.bits (addrs i)) = some b
      by_cases e : addrs i = addrs j
      · rw [if_pos e, hd e]
      · rw [if_neg e, if_pos rfl]
    · rw [h3]
      show (if addrs j = addrs j then some d else _) = some d
      rw [if_pos rfl]
  have hab : addrs i = addrs j → a = b := by
    intro e
    rw [e, hb] at ha
    exact (Option.some.inj ha).symm
  refine ⟨key _ b ?_ ?_ (fun _ => rfl), ?_⟩
  · simp only [E.type, hi, hj, Option.bind_some]
    rfl
  · have e : (E.stdSwap lr (.ref i) (.ref j)).value A Γ w addrs = stdSwapVals false (.ref (addrs i)) (.ref (addrs j)) := by
      cases lr <;> simp [E.value, ti, stdSwapVals, ETy.isVal]
    rw [e]
    show ((Val.ref (addrs i)).get s).bind (fun x => (((Val.ref (addrs j)).get x.2).bind fun y => _)) = _
    rw [ga]
    show ((Val.ref (addrs j)).get s).bind _ = _
    rw [gb]
    rfl
  · rintro e (rfl | rfl)
    · refine key _ a ?_ ?_ hab
      · simp only [E.type, hi, hj, Option.bind_some]
        rfl
      · have e : (E.swap lr (.ref i) (.ref j)).value A Γ w addrs = swapVals (.ref (addrs i)) (.ref (addrs j)) := by
          cases lr <;> simp [E.value, swapVals]
        rw [e, swapVals_run ga gb]
        rfl
    · refine key _ a ?_ ?_ hab
      · simp only [E.type, hi, hj, Option.bind_some]
        rfl
      · have e : (E.swapWith (.ref i) (.ref j)).value A Γ w addrs = swapVals (.ref (addrs i)) (.ref (addrs j)) := by
          simp [E.value, swapVals, Val.place]
        rw [e, swapVals_run ga gb]
        rfl

/-! ### Order -/

/-- An expression whose operands have no side effects yields the same in every order of evaluation, and changes nothing. -/
theorem C101_order (hw : 0 < w) (A : Arith) (S : ∀ k, ShiftSem k) (Γ : Scope) (refs : Nat → BitRef w) (addrs : Nat → Int) (e : E) (f : Bool → Bool) (c : Core)
    (t : ETy) (s : State) (o : List BitVal) (m : Mem w) (h : e.Pure) (he : e.elab A Γ = some (c, t))
    (hs : InScope Γ refs addrs s) (hm : bitAt m = s.bits) (ho : o.map BitVal.value = s.objs) :
    ∃ d, (e.ordered f).elab A Γ = some (d, t) ∧ ((∃ v x y o' o'' m' m'', c.eval A S refs o m = .ok ((x, o'), m') ∧ d.eval A S refs o m = .ok ((y, o''), m'') ∧ x.Is v ∧ y.Is v ∧
      o' = o ∧ o'' = o ∧ bitAt m' = bitAt m ∧ bitAt m'' = bitAt m) ∨
    (c.eval A S refs o m = .error .assertFail ∧ d.eval A S refs o m = .error .assertFail)) := by
  obtain ⟨d, hd⟩ := (C101_compiles A Γ (e.ordered f) t).2 (by rw [ordered_type]; exact (C101_compiles A Γ e t).1 ⟨c, he⟩)
  refine ⟨d, hd, ?_⟩
  have h1 := C101_runs hw A S Γ refs addrs e c t s o m he hs hm ho
  have h2 := C101_runs hw A S Γ refs addrs (e.ordered f) d t s o m hd hs hm ho
  rw [ordered_value A Γ addrs f e h] at h2
  cases hv : e.value A Γ w addrs s with
  | none =>
    rw [hv] at h1 h2
    exact Or.inr ⟨h1.2, h2.2⟩
  | some x =>
    obtain ⟨v, s'⟩ := x
    have := reads_pure A Γ addrs e h _ _ _ hv
    subst this
    rw [hv] at h1 h2
    obtain ⟨x, o', m', e1, i1, b1, l1⟩ := h1
    obtain ⟨y, o'', m'', e2, i2, b2, l2⟩ := h2
    have inj : ∀ p q : List BitVal, p.map BitVal.value = q.map BitVal.value → p = q := fun p q h =>
      List.map_injective_iff.2 (fun x y h => by cases x; cases y; cases h; rfl) h
    exact Or.inl ⟨v, x, y, o', o'', m', m'', e1, e2, i1, i2, inj _ _ (by rw [l1, ho]), inj _ _ (by rw [l2, ho]), by rw [b1, hm], by rw [b2, hm]⟩

/-- With side effects the order matters: `r.flip() == r` is true if the operands are evaluated from left to right, and false from right to left;
`r.flip() &= r` clears the bit if the right operand is converted before the left one is evaluated, and flips it otherwise. -/
theorem C101_order_matters (hw : 0 < w) (A : Arith) (S : ∀ k, ShiftSem k) (Γ : Scope) (refs : Nat → BitRef w) (addrs : Nat → Int) (i : Nat)
    (s : State) (o : List BitVal) (m : Mem w) (hs : InScope Γ refs addrs s) (hm : bitAt m = s.bits) (ho : o.map BitVal.value = s.objs)
    (hi : Γ.ref i = some (false, false, true)) (b : Bool) (hb : bitAt m (addrs i) = some b) :
    (∀ lr, ∃ c m', (E.bin (.cmp .eq) lr (.call .flip (.ref i)) (.ref i)).elab A Γ = some (c, .arith .bool) ∧
      c.eval A S refs o m = .ok ((.num .bool (if lr then 1 else 0), o), m') ∧ bitAt m' (addrs i) = some !b) ∧
    (∀ late, ∃ c r m', (E.asg .and late (.call .flip (.ref i)) (.ref i)).elab A Γ = some (c, .ref false false true) ∧
      c.eval A S refs o m = .ok ((.ref r, o), m') ∧ r.At (addrs i) ∧ bitAt m' (addrs i) = some (late && !b)) := by
  have hb' : s.bits (addrs i) = some b := by rw [← hm]; exact hb
  have inj : ∀ p q : List BitVal, p.map BitVal.value = q.map BitVal.value → p = q := fun p q h =>
    List.map_injective_iff.2 (fun x y h => by cases x; cases y; cases h; rfl) h
  constructor
  · intro lr
    obtain ⟨c, hc⟩ := (C101_compiles A Γ (.bin (.cmp .eq) lr (.call .flip (.ref i)) (.ref i)) (.arith .bool)).2 (by
      simp [E.type, hi, ETy.modifiable, when, ETy.named, binType, ETy.isBit, boolTy])
    have h := C101_runs hw A S Γ refs addrs _ c _ s o m hc hs hm ho
    have hv : (E.bin (.cmp .eq) lr (.call .flip (.ref i)) (.ref i)).value A Γ w addrs s = some (.num .bool (if lr then 1 else 0), s.setBit (addrs i) !b) := by
      cases lr <;> cases b <;> simp [E.value, bind, StateT.bind, Val.place, Val.get, Val.put, Val.value, hb', pure, StateT.pure, SetOp.apply, binVal, cmpBits, ofTruth, State.setBit]
    rw [hv] at h
    obtain ⟨x, o', m', h1, h2, h3, h4⟩ := h
    have e := inj o' o (by rw [h4, ho]; rfl)
    subst e
    cases x with
    | num t n =>
      obtain ⟨rfl, rfl⟩ := h2
      refine ⟨c, m', hc, h1, ?_⟩
      rw [h3]
      simp [State.setBit]
    | _ => exact h2.elim
  · intro late
    obtain ⟨c, hc⟩ := (C101_compiles A Γ (.asg .and late (.call .flip (.ref i)) (.ref i)) (.ref false false true)).2 (by
      simp [E.type, hi, ETy.modifiable, when, ETy.named, ETy.isBit])
    have h := C101_runs hw A S Γ refs addrs _ c _ s o m hc hs hm ho
    have hv : (E.asg .and late (.call .flip (.ref i)) (.ref i)).value A Γ w addrs s =
        some (.ref (addrs i), (s.setBit (addrs i) !b).setBit (addrs i) (late && !b)) := by
      cases late <;> cases b <;>
        simp [E.value, bind, StateT.bind, Val.place, Val.get, Val.put, Val.value, hb', pure, StateT.pure, SetOp.apply, AOp.apply, early, State.setBit]
    rw [hv] at h
    obtain ⟨x, o', m', h1, h2, h3, h4⟩ := h
    have e := inj o' o (by rw [h4, ho]; rfl)
    subst e
    cases x with
    | ref r =>
      refine ⟨c, r, m', hc, h1, h2, ?_⟩
      rw [h3]
      simp [State.setBit]
    | _ => exact h2.elim

/-- A number becomes a bit in two ways: `bit_value(n)` and `r.assign(n)` take its lowest bit, `bit_value(bool(n))` and `r.set(n)` ask whether it is zero.
They differ for every even number but zero. -/
theorem C101_low_bit (hw : 0 < w) (A : Arith) (S : ∀ k, ShiftSem k) (Γ : Scope) (refs : Nat → BitRef w) (addrs : Nat → Int) (i : Nat) (k : Nat) (n : Int)
    (s : State) (o : List BitVal) (m : Mem w) (hs : InScope Γ refs addrs s) (hm : bitAt m = s.bits) (ho : o.map BitVal.value = s.objs)
    (hi : Γ.ref i = some (false, false, true)) (b : Bool) (hb : bitAt m (addrs i) = some b) :
    (∃ c m', (E.toVal (.lit (.num false (k + 1)) n)).elab A Γ = some (c, .val false false) ∧
      c.eval A S refs o m = .ok ((.bit ⟨decide (n % 2 = 1)⟩, o), m') ∧ bitAt m' = bitAt m) ∧
    (∃ c m', (E.toVal (.toBool (.lit (.num false (k + 1)) n))).elab A Γ = some (c, .val false false) ∧
      c.eval A S refs o m = .ok ((.bit ⟨decide (n ≠ 0)⟩, o), m') ∧ bitAt m' = bitAt m) ∧
    (∃ c r m', (E.assign (.ref i) (.lit (.num false (k + 1)) n)).elab A Γ = some (c, .ref false false true) ∧ c.eval A S refs o m = .ok ((.ref r, o), m') ∧
      ∀ j, bitAt m' j = if j = addrs i then some (decide (n % 2 = 1)) else bitAt m j) ∧
    (∃ c r m', (E.setTo (.ref i) (.lit (.num false (k + 1)) n)).elab A Γ = some (c, .ref false false true) ∧ c.eval A S refs o m = .ok ((.ref r, o), m') ∧
      ∀ j, bitAt m' j = if j = addrs i then some (decide (n ≠ 0)) else bitAt m j) := by
  have inj : ∀ p q : List BitVal, p.map BitVal.value = q.map BitVal.value → p = q := fun p q h =>
    List.map_injective_iff.2 (fun x y h => by cases x; cases y; cases h; rfl) h
  have low : intBit n 0 = decide (n % 2 = 1) := by
    unfold intBit
    rw [Int.pow_zero, Int.ediv_one]
    exact Bool.eq_iff_iff.2 (by rw [beq_iff_eq, decide_eq_true_iff])
  have tr : (n != 0) = decide (n ≠ 0) := by by_cases h : n = 0 <;> simp [h]
  have hb' : s.bits (addrs i) = some b := by rw [← hm]; exact hb
  have val : ∀ (e : E) (d : Bool), e.type A Γ = some (.val false false) → e.value A Γ w addrs s = some (.bit d, s) →
      ∃ c m', e.elab A Γ = some (c, .val false false) ∧ c.eval A S refs o m = .ok ((.bit ⟨d⟩, o), m') ∧ bitAt m' = bitAt m := by
    intro e d ht hv
    obtain ⟨c, hc⟩ := (C101_compiles A Γ e _).2 ht
    have h := C101_runs hw A S Γ refs addrs _ c _ s o m hc hs hm ho
    rw [hv] at h
    obtain ⟨x, o', m', h1, h2, h3, h4⟩ := h
    have e := inj o' o (by rw [h4, ho])
    subst e
    cases x with
    | bit v =>
      obtain ⟨v⟩ := v
      cases h2
      exact ⟨c, m', hc, h1, by rw [h3, hm]⟩
    | _ => exact h2.elim
  have ref : ∀ (e : E) (d : Bool), e.type A Γ = some (.ref false false true) → e.value A Γ w addrs s = some (.ref (addrs i), s.setBit (addrs i) d) →
      ∃ c r m', e.elab A Γ = some (c, .ref false false true) ∧ c.eval A S refs o m = .ok ((.ref r, o), m') ∧
        ∀ j, bitAt m' j = if j = addrs i then some d else bitAt m j := by
    intro e d ht hv
    obtain ⟨c, hc⟩ := (C101_compiles A Γ e _).2 ht
    have h := C101_runs hw A S Γ refs addrs _ c _ s o m hc hs hm ho
    rw [hv] at h
    obtain ⟨x, o', m', h1, h2, h3, h4⟩ := h
    have e := inj o' o (by rw [h4, ho]; rfl)
    subst e
    cases x with
    | ref r => exact ⟨c, r, m', hc, h1, fun j => by rw [h3, hm]; rfl⟩
    | _ => exact h2.elim
  refine ⟨val _ _ rfl ?_, val _ _ rfl ?_, ref _ _ ?_ ?_, ref _ _ ?_ ?_⟩
  · rw [← low]
    rfl
  · rw [← tr]
    cases h : n != 0 <;>
      simp [E.value, E.type, bind, StateT.bind, Val.get, ofTruth, pure, StateT.pure, h, when, boolTy, ETy.isVoid, ETy.isBit, ETy.isNum]
  · simp [E.type, hi, ETy.modifiable, when, ETy.named, ETy.isVal, ETy.isNum]
  · rw [← low]
    rfl
  · simp [E.type, hi, ETy.modifiable, when, ETy.named, ETy.isNum]
  · rw [← tr]
    rfl

/-! ### Cases that meet the hypotheses -/

/-- `bool` from comparisons, `int` from the other operators. -/
def exArith : Arith where
  binTy o _ _ := match o with
    | .cmp _ => .bool
    | _ => .num true 31
  bin o _ _ m n := match o with
    | .cmp .eq => if m = n then 1 else 0
    | _ => 0
  complTy _ := .num true 31
  compl _ n := -n - 1
  commonTy a b := if a = b then a else .num true 31
  conv _ _ n := n

/-- One variable `b`, two references `r0`, `r1` to bits 0 and 1 of a word, and a reference `q` to bit 2 of the word as `const`. -/
def exScope : Scope where
  val k := if k = 0 then some false else none
  ref k := match k with
    | 0 => some (false, false, true)
    | 1 => some (false, false, true)
    | 2 => some (false, true, true)
    | _ => none

def exRefs (k : Nat) : BitRef 8 := ⟨0, BitVec.ofNat 8 (2 ^ k)⟩
def exAddrs (k : Nat) : Int := k
def exMem : Mem 8 := fun a => if a = 0 then some 0x06#8 else none
/-- Shifts by too much are undefined. -/
def exShift (k : Nat) : ShiftSem k := ⟨k, Nat.le_refl k, fun _ _ => .error .overshift, fun _ _ => .error .overshift⟩
def exState : State := ⟨bitAt exMem, [true]⟩

theorem exInScope : InScope exScope exRefs exAddrs exState := by
  refine ⟨fun k t h => ?_, fun k c h => ?_⟩
  · match k, h with
    | 0, _ => exact ⟨⟨0, by decide, by decide, by decide⟩, by decide⟩
    | 1, _ => exact ⟨⟨1, by decide, by decide, by decide⟩, by decide⟩
    | 2, _ => exact ⟨⟨2, by decide, by decide, by decide⟩, by decide⟩
    | k + 3, h => cases h
  · have : k = 0 := by
      by_cases e : k = 0
      · exact e
      · simp [exScope, e] at h
    subst this
    decide

-- `r0 = r1 & ~b`, with bits 0, 1, 1 in the word and `b` one: compiles, and leaves bit 0 zero
example : (E.asg .set false (.ref 0) (.bin .and true (.ref 1) (.compl (.var 0)))).type exArith exScope = some (.ref false false true) := rfl
example : ∃ c x o m, (E.asg .set false (.ref 0) (.bin .and true (.ref 1) (.compl (.var 0)))).elab exArith exScope = some (c, .ref false false true) ∧
    c.eval exArith exShift exRefs [⟨true⟩] exMem = .ok ((x, o), m) ∧ bitAt m 0 = some false ∧ bitAt m 1 = some true := by
  obtain ⟨c, hc⟩ := (C101_compiles exArith exScope (E.asg .set false (.ref 0) (.bin .and true (.ref 1) (.compl (.var 0)))) (.ref false false true)).2 rfl
  have h := C101_runs (by decide) exArith exShift exScope exRefs exAddrs _ c _ exState [⟨true⟩] exMem hc exInScope rfl rfl
  obtain ⟨x, o, m, h1, _, h3, _⟩ := h
  exact ⟨c, x, o, m, hc, h1, by rw [h3]; rfl, by rw [h3]; rfl⟩
-- `r0 == 1`, `r0 & true`, `bit_value b = true`, `r0 ? r1 : q`, `b.swap(r0)` and `q = b` do not compile
example : (E.bin (.cmp .eq) true (.ref 0) (.lit (.num true 31) 1)).elab exArith exScope = none :=
  ((C101_no_mixing exArith exScope (.ref 0) (.lit (.num true 31) 1) (.ref 0) (.ref false false true) _ rfl rfl rfl rfl).1 _ _).1
example : (E.bin .and true (.ref 0) (.lit .bool 1)).elab exArith exScope = none ∧ (E.initVal (.lit .bool 1)).elab exArith exScope = none ∧
    (E.cond (.ref 0) (.ref 1) (.ref 2)).elab exArith exScope = none ∧ (E.swapWith (.var 0) (.ref 0)).elab exArith exScope = none ∧
    (E.asg .set false (.ref 2) (.var 0)).elab exArith exScope = none := ⟨rfl, rfl, rfl, rfl, rfl⟩
example : (E.toVal (.lit (.num true 31) 1)).elab exArith exScope = none :=
  (C101_no_signed exArith exScope (.ref 0) (.lit (.num true 31) 1) (.ref false false true) _ rfl rfl (Or.inr ⟨31, rfl⟩)).1
-- `r0 == !r1` does not compile, `r0 == ~r1` does
example : (E.bin (.cmp .eq) true (.ref 0) (.not (.ref 1))).elab exArith exScope = none ∧ (E.bin (.cmp .eq) true (.ref 0) (.compl (.ref 1))).type exArith exScope = some boolTy :=
  (C101_no_chain exArith exScope (.ref 0) (.ref 1) (.ref 2) (.ref false false true) (.ref false false true) (.ref false true true) rfl rfl rfl rfl rfl rfl .eq .eq true true).2
-- `std::swap(r0, r1)` of a zero and a one leaves two ones
example : ∃ c m', (E.stdSwap true (.ref 0) (.ref 1)).elab exArith exScope = some (c, .void) ∧
    c.eval exArith exShift exRefs [⟨true⟩] exMem = .ok ((.unit, [⟨true⟩]), m') ∧ bitAt m' 0 = some true ∧ bitAt m' 1 = some true :=
  (C101_std_swap_refuted (by decide) exArith exShift exScope exRefs exAddrs 0 1 exState [⟨true⟩] exMem exInScope rfl rfl rfl rfl false true rfl rfl true).1
-- a position outside the word: the assertion of bit_reference.hpp:232
example : ∃ c, (E.assignPos true (.ref 0) (.lit (.num false 32) 5) (.lit (.num true 31) 8)).elab exArith exScope = some (c, .ref false false true) ∧
    c.eval exArith exShift exRefs [⟨true⟩] exMem = .error .assertFail := by
  obtain ⟨c, hc⟩ := (C101_compiles exArith exScope (.assignPos true (.ref 0) (.lit (.num false 32) 5) (.lit (.num true 31) 8)) (.ref false false true)).2 rfl
  exact ⟨c, hc, C101_runs (by decide) exArith exShift exScope exRefs exAddrs _ c _ exState [⟨true⟩] exMem hc exInScope rfl rfl |>.2⟩
-- an expression without side effects
example : (E.bin (.cmp .le) true (.ref 0) (.cond (.var 0) (.ref 1) (.ref 0))).Pure := ⟨trivial, trivial, trivial, trivial⟩

end BitLib.Expr
