import Verif.Lemmas.ExprMain
/- The main induction: an expression that compiles computes what is meant. -/
namespace BitLib.Expr
variable {w : Nat} {T : Prop} {Γ : Scope} {refs : Nat → BitRef w} {addrs : Nat → Int}

theorem value_bit {t : ETy} {x : Res w} {v : Val} {s : State} (hb : t.isBit = true) (h : Rel t x v s) : v.value = v.get >>= fun b => Pure.pure (Val.bit b) := by
  cases t with
  | arith a => cases hb
  | void => cases hb
  | val c l =>
    cases l with
    | true => obtain ⟨k, rfl, rfl, hk⟩ := h; rfl
    | false => obtain ⟨b, rfl, rfl⟩ := h; rfl
  | ref c u l => obtain ⟨r, a, rfl, rfl, _⟩ := h; rfl

theorem sim_copy {c l : Bool} {x : Res w} {v : Val} {s : State} (h : Rel (.val c l) x v s) :
    Sim T s (asVal x >>= fun a => (Pure.pure (Res.bit a) : X w (Res w))) (v.get >>= fun b => Pure.pure (Val.bit b)) (Rel bitTy) := by
  refine Sim.bind (sim_asVal h) ?_
  rintro ⟨a⟩ b s' _ ⟨rfl, _⟩
  exact Sim.pure ⟨a, rfl, rfl⟩

theorem sim_ofRef (A : Arith) {c u l : Bool} {x : Res w} {v : Val} {s : State} (h : Rel (.ref c u l) x v s) :
    Sim T s (run1 A .ctorRef x) (v.get >>= fun b => Pure.pure (Val.bit b)) (Rel bitTy) := by
  have := sim_bitConv (T := T) A (t := .ref c u l) rfl h
  rw [value_bit (t := .ref c u l) rfl h] at this
  obtain ⟨r, a, rfl, rfl, _⟩ := h
  exact this

/-- The constructor of `bit_value` from a bit. -/
def initFn : ETy → Fn
  | .ref _ _ _ => .ctorRef
  | .val false false => .ctorMove
  | _ => .ctorCopy

/-- The constructors of `bit_value` from a bit. -/
theorem sim_init (A : Arith) {t : ETy} {f : Fn} {x : Res w} {v : Val} {s : State} (ht : t.isBit = true)
    (hf : f = initFn t) (h : Rel t x v s) :
    Sim T s (run1 A f x) (v.get >>= fun b => Pure.pure (Val.bit b)) (Rel bitTy) := by
  cases t with
  | arith a => cases ht
  | void => cases ht
  | val c l =>
    have e : run1 A f x = (asVal x >>= fun a => (Pure.pure (Res.bit a) : X w (Res w))) := by
      subst hf
      cases c <;> cases l <;> cases x <;> rfl
    rw [e]
    exact sim_copy h
  | ref c u l =>
    subst hf
    exact sim_ofRef A h

theorem rel_bool (b : Bool) (s : State) : Rel (w := w) boolTy (ofBool b) (ofTruth b) s := by
  cases b <;> exact ⟨_, rfl, rfl⟩

theorem condition_void {t : ETy} (h : t.condition = true) : t.isVoid = false := by
  cases t <;> first | rfl | cases h

theorem sim_truth {t : ETy} {x : Res w} {v : Val} {s : State} (ht : t.isVoid = false) (g : Bool → Bool) (h : Rel t x v s) :
    Sim T s (asBool x >>= fun b => (Pure.pure (ofBool (g b)) : X w (Res w))) (v.get >>= fun b => Pure.pure (ofTruth (g b))) (Rel boolTy) := by
  refine Sim.bind (sim_asBool ht h) ?_
  rintro a b s' _ rfl
  exact Sim.pure (rel_bool _ _)

/-- What a `condTy` chooses is what is meant. -/
theorem sim_cond (A : Arith) {t u v : ETy} {d e : Conv} (h : condTy A t u = some (d, e, v)) {s : State} {x : Res w} {p : Val} :
    (Rel t x p s → Sim T s (d.apply A x) (p.as A (some v)) (Rel v)) ∧ (Rel u x p s → Sim T s (e.apply A x) (p.as A (some v)) (Rel v)) := by
  have none' : ∀ {t : ETy} {v : ETy}, (Rel t x p s → Rel v x p s) → (Rel t x p s → p.as A (some v) = Pure.pure p) →
      (Rel t x p s → Sim T s (Conv.none.apply A x) (p.as A (some v)) (Rel v)) := by
    intro t v h1 h2 h3
    rw [h2 h3]
    exact sim_none A (h1 h3)
  have bit' : ∀ {t : ETy} {c : Bool}, t.isBit = true → (Rel t x p s → Sim T s ((bitConv t).apply A x) (p.as A (some (.val c false))) (Rel (.val c false))) := by
    intro t c h1 h2
    have := sim_bitConv (T := T) A h1 h2
    have e : p.as A (some (.val c false)) = p.value := by cases p <;> rfl
    rw [e]
    exact this
  cases t with
  | arith a =>
    cases u with
    | arith b =>
      cases h
      refine ⟨?_, ?_⟩
      · rintro ⟨n, rfl, rfl⟩
        exact Sim.pure ⟨_, rfl, rfl⟩
      · rintro ⟨n, rfl, rfl⟩
        exact Sim.pure ⟨_, rfl, rfl⟩
    | _ => cases h
  | val c l =>
    cases u with
    | arith b => cases l <;> cases h
    | void => cases l <;> cases h
    | val c' l' =>
      cases l with
      | true =>
        cases l' with
        | true =>
          cases h
          exact ⟨none' (fun h => h) (fun h => by obtain ⟨k, rfl, rfl, _⟩ := h; rfl), none' (fun h => h) (fun h => by obtain ⟨k, rfl, rfl, _⟩ := h; rfl)⟩
        | false =>
          cases h
          exact ⟨bit' (t := .val c true) rfl, bit' (t := .val c' false) rfl⟩
      | false =>
        cases h
        exact ⟨bit' (t := .val c false) rfl, bit' (t := .val c' l') rfl⟩
    | ref c' u' l' =>
      have h' : (Conv.copy, Conv.ofRef, ETy.val c false) = (d, e, v) := by
        cases l <;> exact Option.some.inj h
      cases h'
      exact ⟨bit' (t := .val c l) rfl, bit' (t := .ref c' u' l') rfl⟩
  | ref c u0 l =>
    cases u with
    | arith b => cases h
    | void => cases h
    | val c' l' =>
      cases h
      exact ⟨bit' (t := .ref c u0 l) rfl, bit' (t := .val c' l') rfl⟩
    | ref c' u' l' =>
      have h' : (if u0 = u' then some (Conv.none, Conv.none, ETy.ref (c || c') u0 (l && l')) else none) = some (d, e, v) := h
      split at h'
      · cases h'
        exact ⟨none' (fun h => h) (fun h => by obtain ⟨r, a, rfl, rfl, _⟩ := h; rfl), none' (fun h => h) (fun h => by obtain ⟨r, a, rfl, rfl, _⟩ := h; rfl)⟩
      · cases h'
  | void =>
    cases u with
    | void =>
      cases h
      exact ⟨none' (fun h => h) (fun h => by obtain ⟨rfl, rfl⟩ := h; rfl), none' (fun h => h) (fun h => by obtain ⟨rfl, rfl⟩ := h; rfl)⟩
    | _ => cases h

/-- The last step of an assignment whose right operand is converted late. -/
theorem asgVal_value (o : AOp) {t : ETy} {x : Res w} {p v : Val} {s : State} (hb : t.isBit = true) (h : Rel t x v s) :
    asgVal o p v = v.value >>= fun v => asgVal o p v := by
  rw [value_bit hb h, bind_assoc]
  rfl

/-- Assignments. -/
theorem sim_asg (A : Arith) (S : ∀ k, ShiftSem k) (o : AOp) (late e : Bool) (f : Fn) (d : Conv) {cx cy : Core} {tx ty : ETy} {qx qy : Comp Val}
    (hx : Op T Γ refs addrs (cx.eval A S refs) qx (Rel tx)) (hy : Op T Γ refs addrs (cy.eval A S refs) qy (Rel ty)) (bx : tx.isBit = true) (by' : ty.isBit = true)
    (h : (d = bitConv ty ∧ e = !late ∧ ∀ (a b : Res w) p v s, Rel tx.named a p s → Rel bitTy b v s → Sim T s (run2 A S f a b) (asgVal o p v) (Rel tx.named)) ∨
      (d = .none ∧ e = false ∧ ∀ (a b : Res w) p v s, Rel tx.named a p s → Rel ty b v s → Sim T s (run2 A S f a b) (asgVal o p v) (Rel tx.named))) :
    Op T Γ refs addrs ((Core.call2 f (if late then .rlLate else .rl) (thisConv tx) d cx cy).eval A S refs)
      (do
        let v ← qy
        let v ← if e then v.value else pure v
        let p ← (← qx).place
        asgVal o p v) (Rel tx.named) := by
  have hx' : Op T Γ refs addrs (cx.eval A S refs >>= (thisConv tx).apply A) (qx >>= Val.place) (Rel tx.named) := hx.bind fun a b s _ r => sim_this A bx r
  rcases h with ⟨rfl, rfl, h⟩ | ⟨rfl, rfl, h⟩
  · cases late with
    | true =>
      have := Op.two false hx' hy rel_keeps rel_keeps (f := fun a b => (bitConv ty).apply A b >>= fun b => run2 A S f a b) (g := fun p v => asgVal o p v) (Q := Rel tx.named) (by
        intro a p b v s _ ha hb
        rw [asgVal_value o by' hb]
        refine Sim.bind (sim_bitConv A by' hb) ?_
        intro b' v' s' kp hb'
        exact h _ _ _ _ _ (ha.keeps kp) hb')
      simpa only [Core.eval, bind_assoc, if_true, if_false, Bool.false_eq_true, pure_bind, Bool.not_true] using this
    | false =>
      have hy' : Op T Γ refs addrs (cy.eval A S refs >>= (bitConv ty).apply A) (qy >>= Val.value) (Rel bitTy) := hy.bind fun a b s _ r => sim_bitConv A by' r
      have := Op.two false hx' hy' rel_keeps rel_keeps (f := fun a b => run2 A S f a b) (g := fun p v => asgVal o p v) (Q := Rel tx.named) (by
        intro a p b v s _ ha hb
        exact h _ _ _ _ _ ha hb)
      simpa only [Core.eval, bind_assoc, if_true, if_false, Bool.false_eq_true, pure_bind, Bool.not_false] using this
  · have := Op.two false hx' hy rel_keeps rel_keeps (f := fun a b => run2 A S f a b) (g := fun p v => asgVal o p v) (Q := Rel tx.named) (by
        intro a p b v s _ ha hb
        exact h _ _ _ _ _ ha hb)
    have e : (Core.call2 f (if late then .rlLate else .rl) (thisConv tx) .none cx cy).eval A S refs =
        (cy.eval A S refs >>= fun b => (cx.eval A S refs >>= (thisConv tx).apply A) >>= fun a => run2 A S f a b) := by
      have : (Conv.none.apply A : Res w → X w (Res w)) = Pure.pure := by
        funext x
        cases x <;> rfl
      cases late <;> simp only [Core.eval, bind_assoc, this, pure_bind, if_true, if_false, Bool.false_eq_true]
    rw [e]
    simpa only [bind_assoc, if_false, Bool.false_eq_true, pure_bind] using this

theorem modifiable_bit {t : ETy} (h : t.modifiable = true) : t.isBit = true := by
  cases t <;> first | rfl | cases h

theorem isNum_arith {t : ETy} (h : t.isNum = true) : ∃ a, t = .arith a := by
  cases t with
  | arith a => exact ⟨a, rfl⟩
  | _ => cases h

theorem isUnsigned_num {t : ETy} (h : t.isUnsigned = true) : ∃ k, t = .arith (.num false (k + 1)) := by
  rcases t with (_ | _ | ⟨_ | _, _ | k⟩) | _ | _ | _ <;> first | exact ⟨_, rfl⟩ | cases h

theorem putVal_eq : putVal = fun p b => p.put b >>= fun _ => Pure.pure p := rfl

/-- `~` of a bit. -/
theorem compl_eq (A : Arith) (b : Val) : (∀ t n, b ≠ .num t n) →
    (match b with
      | .num t n => (Pure.pure (Val.num (A.complTy t) (A.compl t n)) : Comp Val)
      | v => v.get >>= fun b => Pure.pure (Val.bit !b)) = b.value >>= fun v => v.get >>= fun b => Pure.pure (Val.bit !b) := by
  intro h
  cases b with
  | num t n => exact absurd rfl (h t n)
  | _ =>
    simp only [Val.value, bind_assoc]
    rfl

/-- What `std::swap` means once its operands are evaluated. -/
def stdSwapVals (v : Bool) (p q : Val) : Comp Val := do
  let a ← p.get
  let b ← q.get
  p.put b
  q.put (if v then a else b)
  pure .unit

theorem sim_main (hw : 0 < w) (A : Arith) (S : ∀ k, ShiftSem k) (e : E) (hT : e.HasPos → T) :
    ∀ c t, e.elab A Γ = some (c, t) → Op T Γ refs addrs (c.eval A S refs) (e.value A Γ w addrs) (Rel t) := by
  induction e with
  | lit a n =>
    intro c t h
    cases h
    exact fun s hs => Sim.pure ⟨n, rfl, rfl⟩
  | var k =>
    intro c t h
    simp only [E.elab] at h
    cases hv : Γ.val k with
    | none => rw [hv] at h; cases h
    | some b =>
      rw [hv] at h
      cases h
      exact fun s hs => Sim.pure ⟨k, rfl, rfl, hs.val k b hv⟩
  | ref k =>
    intro c t h
    simp only [E.elab] at h
    cases hv : Γ.ref k with
    | none => rw [hv] at h; cases h
    | some b =>
      rw [hv] at h
      cases h
      exact fun s hs => Sim.pure ⟨refs k, addrs k, rfl, rfl, (hs.ref k b hv).1, (hs.ref k b hv).2⟩
  | initVal x ih =>
    replace ih := ih (hT)
    intro c t h
    simp only [E.elab] at h
    rcases hx : x.elab A Γ with _ | ⟨cx, tx⟩
    · rw [hx] at h; cases h
    rw [hx] at h
    simp only [Option.bind_eq_bind, Option.bind_some, mk1_init] at h
    have ht : tx.isBit = true := by cases tx <;> first | rfl | cases h
    have hh : c = .call1 (initFn tx) .none cx ∧ t = bitTy := by
      rcases tx with _ | ⟨_ | _, _ | _⟩ | _ | _ <;> cases h <;> exact ⟨rfl, rfl⟩
    obtain ⟨rfl, rfl⟩ := hh
    simp only [Core.eval, ← bind_assoc, none_apply, E.value]
    refine (ih _ _ hx).bind fun a b s _ r => ?_
    rw [value_bit ht r]
    exact sim_init A ht rfl r
  | initBool x ih =>
    replace ih := ih (hT)
    intro c t h
    simp only [E.elab] at h
    rcases hx : x.elab A Γ with _ | ⟨cx, tx⟩
    · rw [hx] at h; cases h
    rw [hx] at h
    have ht : tx.isVoid = false := by cases tx <;> first | rfl | cases h
    have hh : c = .toBool cx ∧ t = boolTy := by
      cases tx <;> cases h <;> exact ⟨rfl, rfl⟩
    obtain ⟨rfl, rfl⟩ := hh
    simp only [Core.eval, E.value]
    exact (ih _ _ hx).bind fun a b s _ r => sim_truth ht (fun b => b) r
  | toBool x ih =>
    replace ih := ih (hT)
    intro c t h
    simp only [E.elab] at h
    rcases hx : x.elab A Γ with _ | ⟨cx, tx⟩
    · rw [hx] at h; cases h
    rw [hx] at h
    simp only [Option.bind_eq_bind, Option.bind_some] at h
    split at h
    · rename_i ht
      cases h
      simp only [Core.eval, E.value]
      exact (ih _ _ hx).bind fun a b s _ r => sim_truth (condition_void ht) (fun b => b) r
    · cases h
  | not x ih =>
    replace ih := ih (hT)
    intro c t h
    simp only [E.elab] at h
    rcases hx : x.elab A Γ with _ | ⟨cx, tx⟩
    · rw [hx] at h; cases h
    rw [hx] at h
    simp only [Option.bind_eq_bind, Option.bind_some] at h
    split at h
    · rename_i ht
      cases h
      simp only [Core.eval, E.value]
      exact (ih _ _ hx).bind fun a b s _ r => sim_truth (condition_void ht) (fun b => !b) r
    · cases h
  | toVal x ih =>
    replace ih := ih (hT)
    intro c t h
    have hty := E.elab_type' h
    simp only [E.elab] at h
    rcases hx : x.elab A Γ with _ | ⟨cx, tx⟩
    · rw [hx] at h; cases h
    rw [hx] at h
    have htx := E.elab_type' hx
    simp only [Option.bind_eq_bind, Option.bind_some, mk1_ctor] at h
    by_cases ht : tx.isBit = true
    · have hh : c = .call1 (initFn tx) .none cx ∧ t = bitTy := by
        rcases tx with _ | ⟨_ | _, _ | _⟩ | _ | _ <;> first | (cases h; exact ⟨rfl, rfl⟩) | cases ht
      obtain ⟨rfl, rfl⟩ := hh
      simp only [Core.eval, ← bind_assoc, none_apply, E.value, htx]
      refine (ih _ _ hx).bind fun a b s _ r => ?_
      have := sim_init (T := T) A ht rfl r
      cases tx <;> first | exact this | cases ht
    · rcases tx with (_ | _ | ⟨_ | _, _ | k⟩) | _ | _ | _ <;> first | exact absurd rfl ht | cases h
      · simp only [Core.eval, ← bind_assoc, none_apply, E.value, htx]
        rw [bind_assoc]
        refine (ih _ _ hx).bind fun a b s _ r => ?_
        obtain ⟨n, rfl, rfl⟩ := r
        refine Sim.pure (b := Val.bit (n != 0)) ⟨n != 0, ?_, rfl⟩
        unfold truthOf BitVal.ofBool
        by_cases hn : n = 0 <;> simp [hn]
      · simp only [Core.eval, ← bind_assoc, none_apply, E.value, htx]
        rw [bind_assoc]
        refine (ih _ _ hx).bind fun a b s _ r => ?_
        obtain ⟨n, rfl, rfl⟩ := r
        refine Sim.pure (b := Val.bit (intBit n 0)) ⟨intBit n 0, ?_, rfl⟩
        have := ofWord_value (Nat.succ_pos k) n
        show Res.bit (BitVal.ofWord (BitVec.ofInt (k + 1) n)) = _
        rw [← this]
  | toValPos lr x y ih ih' =>
    replace ih := ih (fun _ => hT trivial)
    replace ih' := ih' (fun _ => hT trivial)
    intro c t h
    simp only [E.elab] at h
    rcases hx : x.elab A Γ with _ | ⟨cx, tx⟩
    · rw [hx] at h; cases h
    rcases hy : y.elab A Γ with _ | ⟨cy, ty⟩
    · rw [hx, hy] at h; cases h
    rw [hx, hy] at h
    have htx := E.elab_type' hx
    simp only [Option.bind_eq_bind, Option.bind_some, mk2_ctorPos] at h
    split at h
    · rename_i hb
      rw [Bool.and_eq_true] at hb
      obtain ⟨k, rfl⟩ := isUnsigned_num hb.1
      obtain ⟨a, rfl⟩ := isNum_arith hb.2
      cases h
      rw [eval_two, none_apply, none_apply]
      have := Op.two lr (ih _ _ hx) (ih' _ _ hy) rel_keeps rel_keeps (f := fun a b => run2 A S .ctorPos a b)
        (g := fun v u => v.bitNo (k + 1) u >>= fun b => Pure.pure (Val.bit b)) (Q := Rel bitTy) (by
          intro a p b v s _ ha hb
          exact sim_ctorPos (hT trivial) A S ha hb)
      cases lr <;>
        simpa only [E.value, htx, bind_assoc, pure_bind, if_true, if_false, Bool.false_eq_true, Option.map_some, Option.getD_some, bitsOf] using this
    · cases h
  | compl x ih =>
    replace ih := ih (hT)
    intro c t h
    simp only [E.elab] at h
    rcases hx : x.elab A Γ with _ | ⟨cx, tx⟩
    · rw [hx] at h; cases h
    rw [hx] at h
    simp only [Option.bind_eq_bind, Option.bind_some, mk1_compl] at h
    by_cases ht : tx.isBit = true
    · have hh : c = .call1 .friendCompl (bitConv tx) cx ∧ t = bitTy := by
        cases tx <;> cases h <;> first | exact ⟨rfl, rfl⟩ | cases ht
      obtain ⟨rfl, rfl⟩ := hh
      simp only [Core.eval, E.value]
      refine (ih _ _ hx).bind fun a b s _ r => ?_
      refine cast (congrArg (fun q => Sim T s _ q _) (compl_eq A b ?_).symm) ?_
      · rintro t n rfl
        cases tx with
        | arith _ => cases ht
        | void => cases ht
        | val c l => cases l <;> obtain ⟨_, _, h, _⟩ := r <;> cases h
        | ref _ _ _ => obtain ⟨_, _, _, h, _⟩ := r; cases h
      refine Sim.bind (sim_bitConv A ht r) ?_
      rintro x v s' _ ⟨b, rfl, rfl⟩
      exact Sim.pure (b := Val.bit !b) (by cases b <;> exact ⟨_, rfl, rfl⟩)
    · cases tx with
      | arith a =>
        cases h
        simp only [Core.eval, ← bind_assoc, none_apply, E.value]
        refine (ih _ _ hx).bind fun a b s _ r => ?_
        obtain ⟨n, rfl, rfl⟩ := r
        exact Sim.pure ⟨_, rfl, rfl⟩
      | void => cases h
      | _ => exact absurd rfl ht
  | land x y ih ih' =>
    replace ih := ih (fun h => hT (Or.inl h))
    replace ih' := ih' (fun h => hT (Or.inr h))
    intro c t h
    simp only [E.elab] at h
    rcases hx : x.elab A Γ with _ | ⟨cx, tx⟩
    · rw [hx] at h; cases h
    rcases hy : y.elab A Γ with _ | ⟨cy, ty⟩
    · rw [hx, hy] at h; cases h
    rw [hx, hy] at h
    simp only [Option.bind_eq_bind, Option.bind_some] at h
    split at h
    · rename_i hb
      rw [Bool.and_eq_true] at hb
      cases h
      simp only [Core.eval, E.value]
      refine (ih _ _ hx).bind fun a b s hs r => ?_
      refine Sim.bind (sim_asBool (condition_void hb.1) r) ?_
      rintro a b s' kp rfl
      cases a with
      | false => exact Sim.pure (rel_bool _ _)
      | true =>
        simp only [if_true, bind_assoc]
        exact ((ih' _ _ hy).bind fun a b s hs r => sim_truth (condition_void hb.2) (fun b => b) r) s' (hs.keeps kp)
    · cases h
  | lor x y ih ih' =>
    replace ih := ih (fun h => hT (Or.inl h))
    replace ih' := ih' (fun h => hT (Or.inr h))
    intro c t h
    simp only [E.elab] at h
    rcases hx : x.elab A Γ with _ | ⟨cx, tx⟩
    · rw [hx] at h; cases h
    rcases hy : y.elab A Γ with _ | ⟨cy, ty⟩
    · rw [hx, hy] at h; cases h
    rw [hx, hy] at h
    simp only [Option.bind_eq_bind, Option.bind_some] at h
    split at h
    · rename_i hb
      rw [Bool.and_eq_true] at hb
      cases h
      simp only [Core.eval, E.value]
      refine (ih _ _ hx).bind fun a b s hs r => ?_
      refine Sim.bind (sim_asBool (condition_void hb.1) r) ?_
      rintro a b s' kp rfl
      cases a with
      | true => exact Sim.pure (rel_bool _ _)
      | false =>
        simp only [if_false, Bool.false_eq_true, bind_assoc]
        exact ((ih' _ _ hy).bind fun a b s hs r => sim_truth (condition_void hb.2) (fun b => b) r) s' (hs.keeps kp)
    · cases h
  | cond x y z ih ih' ih'' =>
    replace ih := ih (fun h => hT (Or.inl h))
    replace ih' := ih' (fun h => hT (Or.inr (Or.inl h)))
    replace ih'' := ih'' (fun h => hT (Or.inr (Or.inr h)))
    intro c t h
    have hty := E.elab_type' h
    simp only [E.elab] at h
    rcases hx : x.elab A Γ with _ | ⟨cx, tx⟩
    · rw [hx] at h; cases h
    rcases hy : y.elab A Γ with _ | ⟨cy, ty⟩
    · rw [hx, hy] at h; cases h
    rcases hz : z.elab A Γ with _ | ⟨cz, tz⟩
    · rw [hx, hy, hz] at h; cases h
    rw [hx, hy, hz] at h
    simp only [Option.bind_eq_bind, Option.bind_some] at h
    split at h
    · rename_i hb
      rcases hc : condTy A ty tz with _ | ⟨d, e, v⟩
      · rw [hc] at h; cases h
      rw [hc] at h
      cases h
      simp only [Core.eval, E.value, bind_assoc, hty]
      refine (ih _ _ hx).bind fun a b s hs r => ?_
      refine Sim.bind (sim_asBool (condition_void hb) r) ?_
      rintro a b s' kp rfl
      cases a with
      | true => exact ((ih' _ _ hy).bind fun a b s hs r => (sim_cond A hc).1 r) s' (hs.keeps kp)
      | false => exact ((ih'' _ _ hz).bind fun a b s hs r => (sim_cond A hc).2 r) s' (hs.keeps kp)
    · cases h
  | comma x y ih ih' =>
    replace ih := ih (fun h => hT (Or.inl h))
    replace ih' := ih' (fun h => hT (Or.inr h))
    intro c t h
    simp only [E.elab] at h
    rcases hx : x.elab A Γ with _ | ⟨cx, tx⟩
    · rw [hx] at h; cases h
    rcases hy : y.elab A Γ with _ | ⟨cy, ty⟩
    · rw [hx, hy] at h; cases h
    rw [hx, hy] at h
    cases h
    exact (ih _ _ hx).bind fun a b s hs r => ih' _ _ hy s hs
  | bin o lr x y ih ih' =>
    replace ih := ih (fun h => hT (Or.inl h))
    replace ih' := ih' (fun h => hT (Or.inr h))
    intro c t h
    simp only [E.elab] at h
    rcases hx : x.elab A Γ with _ | ⟨cx, tx⟩
    · rw [hx] at h; cases h
    rcases hy : y.elab A Γ with _ | ⟨cy, ty⟩
    · rw [hx, hy] at h; cases h
    rw [hx, hy] at h
    simp only [Option.bind_eq_bind, Option.bind_some, mk2_bin] at h
    by_cases hn : ∃ a b, tx = .arith a ∧ ty = .arith b
    · obtain ⟨a, b, rfl, rfl⟩ := hn
      cases h
      rw [eval_two, none_apply, none_apply]
      have hx' : Op T Γ refs addrs (cx.eval A S refs) (x.value A Γ w addrs >>= Val.value) (Rel (.arith a)) := by
        rw [← bind_pure (cx.eval A S refs)]
        refine (ih _ _ hx).bind fun a b s _ r => ?_
        obtain ⟨n, rfl, rfl⟩ := r
        exact Sim.pure ⟨n, rfl, rfl⟩
      have hy' : Op T Γ refs addrs (cy.eval A S refs) (y.value A Γ w addrs >>= Val.value) (Rel (.arith b)) := by
        rw [← bind_pure (cy.eval A S refs)]
        refine (ih' _ _ hy).bind fun a b s _ r => ?_
        obtain ⟨n, rfl, rfl⟩ := r
        exact Sim.pure ⟨n, rfl, rfl⟩
      have := Op.two lr hx' hy' rel_keeps rel_keeps (f := fun a b => run2 A S (.builtin o) a b)
        (g := fun v u => binVal A o v u) (Q := Rel (.arith (A.binTy o a b))) (by
          rintro _ _ _ _ s _ ⟨m, rfl, rfl⟩ ⟨n, rfl, rfl⟩
          exact Sim.pure ⟨_, rfl, rfl⟩)
      cases lr <;> simpa only [E.value, bind_assoc, if_true, if_false, Bool.false_eq_true] using this
    · replace h : (if (tx.isBit && ty.isBit) = true then some (Core.call2 (.friendOp o) (ordOf lr) (bitConv tx) (bitConv ty) cx cy, opTy o) else none) = some (c, t) := by
        cases tx <;> cases ty <;> first | exact h | exact absurd ⟨_, _, rfl, rfl⟩ hn
      split at h
      · rename_i hb
        rw [Bool.and_eq_true] at hb
        cases h
        rw [eval_two]
        have := Op.two lr ((ih _ _ hx).bind fun a b s _ r => sim_bitConv A hb.1 r) ((ih' _ _ hy).bind fun a b s _ r => sim_bitConv A hb.2 r) rel_keeps rel_keeps
          (f := fun a b => run2 A S (.friendOp o) a b) (g := fun v u => binVal A o v u) (Q := Rel (opTy o)) (by
            intro a p b v s _ ha hb
            exact sim_friend A S o ha hb)
        cases lr <;> simpa only [E.value, bind_assoc, if_true, if_false, Bool.false_eq_true] using this
      · cases h
  | asg o late x y ih ih' =>
    replace ih := ih (fun h => hT (Or.inl h))
    replace ih' := ih' (fun h => hT (Or.inr h))
    intro c t h
    simp only [E.elab] at h
    rcases hx : x.elab A Γ with _ | ⟨cx, tx⟩
    · rw [hx] at h; cases h
    rcases hy : y.elab A Γ with _ | ⟨cy, ty⟩
    · rw [hx, hy] at h; cases h
    rw [hx, hy] at h
    have htx := E.elab_type' hx
    have hty := E.elab_type' hy
    have e : (E.asg o late x y).value A Γ w addrs = (do
        let v ← y.value A Γ w addrs
        let v ← if early o late (some tx) (some ty) then v.value else pure v
        let p ← (← x.value A Γ w addrs).place
        asgVal o p v) := by
      simp only [E.value, htx, hty, asgVal]
    rw [e]
    by_cases ho : o = .set
    · subst ho
      simp only [Option.bind_eq_bind, Option.bind_some, if_true, mk2_asg] at h
      split at h
      · rename_i hb
        rw [Bool.and_eq_true] at hb
        have bx := modifiable_bit hb.1
        cases tx with
        | arith a => cases bx
        | void => cases bx
        | ref cc u l =>
          cases ty with
          | arith a => cases hb.2
          | void => cases hb.2
          | ref d v m =>
            cases h
            refine sim_asg A S .set late _ _ .none (ih _ _ hx) (ih' _ _ hy) bx hb.2 (Or.inr ⟨rfl, ?_, ?_⟩)
            · cases late <;> rfl
            · intro a b p q s ha hb
              exact sim_assignRef A S (by cases u <;> cases v <;> first | exact Or.inl rfl | exact Or.inr rfl) ha hb
          | val d m =>
            cases h
            refine sim_asg A S .set late _ _ .copy (ih _ _ hx) (ih' _ _ hy) bx hb.2 (Or.inl ⟨rfl, ?_, ?_⟩)
            · cases late <;> rfl
            · intro a b p q s ha hb
              exact sim_assignVal A S ha hb
        | val cc l =>
          cases ty with
          | arith a => cases hb.2
          | void => cases hb.2
          | ref d v m =>
            cases h
            refine sim_asg A S .set late _ _ .none (ih _ _ hx) (ih' _ _ hy) bx hb.2 (Or.inr ⟨rfl, ?_, ?_⟩)
            · cases late <;> rfl
            · intro a b p q s ha hb
              exact sim_valAssignRef A S ha hb
          | val d m =>
            cases h
            refine sim_asg A S .set late _ _ .none (ih _ _ hx) (ih' _ _ hy) bx hb.2 (Or.inr ⟨rfl, ?_, ?_⟩)
            · cases late <;> rfl
            · intro a b p q s ha hb
              exact sim_assignCopy A S (by cases d <;> cases m <;> first | exact Or.inl rfl | exact Or.inr rfl) ha hb
      · cases h
    · simp only [Option.bind_eq_bind, Option.bind_some, if_neg ho, mk2_opAsg] at h
      have he : ∀ l r, early o late l r = !late := by
        intro l r
        cases o <;> first | exact absurd rfl ho | (cases late <;> rfl)
      split at h
      · rename_i hb
        rw [Bool.and_eq_true] at hb
        have bx := modifiable_bit hb.1
        cases tx with
        | arith a => cases bx
        | void => cases bx
        | ref cc u l =>
          cases h
          refine sim_asg A S o late _ _ (bitConv ty) (ih _ _ hx) (ih' _ _ hy) bx hb.2 (Or.inl ⟨rfl, he _ _, ?_⟩)
          intro a b p q s ha hb
          exact sim_opAssignRef A S o ha hb
        | val cc l =>
          cases h
          refine sim_asg A S o late _ _ (bitConv ty) (ih _ _ hx) (ih' _ _ hy) bx hb.2 (Or.inl ⟨rfl, he _ _, ?_⟩)
          intro a b p q s ha hb
          exact sim_opAssignVal A S o ha hb
      · cases h
  | call f x ih =>
    replace ih := ih (hT)
    intro c t h
    simp only [E.elab] at h
    rcases hx : x.elab A Γ with _ | ⟨cx, tx⟩
    · rw [hx] at h; cases h
    rw [hx] at h
    simp only [Option.bind_eq_bind, Option.bind_some, mk1_set] at h
    split at h
    · rename_i hb
      have bx := modifiable_bit hb
      have e : (E.call f x).value A Γ w addrs = ((x.value A Γ w addrs >>= Val.place) >>= updVal f.apply) := by
        simp only [E.value, bind_assoc]
        rfl
      rw [e]
      have hx' : Op T Γ refs addrs (cx.eval A S refs >>= (thisConv tx).apply A) (x.value A Γ w addrs >>= Val.place) (Rel tx.named) :=
        (ih _ _ hx).bind fun a b s _ r => sim_this A bx r
      cases tx with
      | arith a => cases bx
      | void => cases bx
      | ref cc u l =>
        cases h
        simp only [Core.eval, ← bind_assoc]
        refine Op.bind hx' fun a b s _ r => ?_
        obtain ⟨r', a', rfl, hv, hr, ha⟩ := r
        cases f with
        | set => exact sim_updRef (c := false) (l := true) ⟨r', a', rfl, hv, hr, ha⟩ .set (fun _ => rfl)
        | reset => exact sim_updRef (c := false) (l := true) ⟨r', a', rfl, hv, hr, ha⟩ .reset (fun _ => rfl)
        | flip => exact sim_updRef (c := false) (l := true) ⟨r', a', rfl, hv, hr, ha⟩ .flip (fun _ => rfl)
      | val cc l =>
        cases h
        simp only [Core.eval, ← bind_assoc]
        refine Op.bind hx' fun a b s _ r => ?_
        obtain ⟨k, rfl, hv, hk⟩ := r
        exact sim_updVal (c := false) ⟨k, rfl, hv, hk⟩ (f := fun a => valSetRun a f) (by intro b; cases f <;> cases b <;> rfl)
    · cases h
  | setTo x y ih ih' =>
    replace ih := ih (fun h => hT (Or.inl h))
    replace ih' := ih' (fun h => hT (Or.inr h))
    intro c t h
    simp only [E.elab] at h
    rcases hx : x.elab A Γ with _ | ⟨cx, tx⟩
    · rw [hx] at h; cases h
    rcases hy : y.elab A Γ with _ | ⟨cy, ty⟩
    · rw [hx, hy] at h; cases h
    rw [hx, hy] at h
    simp only [Option.bind_eq_bind, Option.bind_some, mk2_setTo] at h
    split at h
    · rename_i hb
      rw [Bool.and_eq_true] at hb
      have bx := modifiable_bit hb.1
      obtain ⟨a, rfl⟩ := isNum_arith hb.2
      have hx' : Op T Γ refs addrs (cx.eval A S refs >>= (thisConv tx).apply A) (x.value A Γ w addrs >>= Val.place) (Rel tx.named) :=
        (ih _ _ hx).bind fun a b s _ r => sim_this A bx r
      have := Op.two true hx' (ih' _ _ hy) rel_keeps rel_keeps (f := fun a b => run2 A S (if tx.isVal then .valSetTo else .refSetTo) a b)
        (g := fun p v => v.get >>= putVal p) (Q := Rel tx.named) (by
          intro a p b v s _ ha hb
          exact sim_setTo A S bx ha hb)
      have hh : c = .call2 (if tx.isVal then .valSetTo else .refSetTo) (ordOf true) (thisConv tx) .none cx cy ∧ t = tx.named := by
        cases tx <;> first | (cases h; exact ⟨rfl, rfl⟩) | cases bx
      obtain ⟨rfl, rfl⟩ := hh
      rw [eval_two, none_apply]
      simpa only [E.value, bind_assoc, if_true, putVal_eq] using this
    · cases h
  | assign x y ih ih' =>
    replace ih := ih (fun h => hT (Or.inl h))
    replace ih' := ih' (fun h => hT (Or.inr h))
    intro c t h
    simp only [E.elab] at h
    rcases hx : x.elab A Γ with _ | ⟨cx, tx⟩
    · rw [hx] at h; cases h
    rcases hy : y.elab A Γ with _ | ⟨cy, ty⟩
    · rw [hx, hy] at h; cases h
    rw [hx, hy] at h
    simp only [Option.bind_eq_bind, Option.bind_some, mk2_assign] at h
    rcases hb : (tx.modifiable && if tx.isVal = true then ty.isUnsigned else ty.isNum) with _ | _
    · rw [hb] at h; cases h
    · rw [hb] at h
      rw [Bool.and_eq_true] at hb
      have bx := modifiable_bit hb.1
      have ha : ∃ a, ty = .arith a ∧ (tx.isVal = true → 0 < a.width) := by
        by_cases hv : tx.isVal = true
        · have := hb.2
          rw [if_pos hv] at this
          obtain ⟨k, rfl⟩ := isUnsigned_num this
          exact ⟨_, rfl, fun _ => Nat.succ_pos k⟩
        · have := hb.2
          rw [if_neg hv] at this
          obtain ⟨a, rfl⟩ := isNum_arith this
          exact ⟨a, rfl, fun h => absurd h hv⟩
      obtain ⟨a, rfl, ha⟩ := ha
      have hx' : Op T Γ refs addrs (cx.eval A S refs >>= (thisConv tx).apply A) (x.value A Γ w addrs >>= Val.place) (Rel tx.named) :=
        (ih _ _ hx).bind fun a b s _ r => sim_this A bx r
      have := Op.two true hx' (ih' _ _ hy) rel_keeps rel_keeps (f := fun a b => run2 A S (if tx.isVal then .valAssignWord else .refAssignWord) a b)
        (g := fun p v => v.lowBit >>= putVal p) (Q := Rel tx.named) (by
          intro a p b v s _ hx hy
          exact sim_assignWord hw A S bx ha hx hy)
      have hh : c = .call2 (if tx.isVal then .valAssignWord else .refAssignWord) (ordOf true) (thisConv tx) .none cx cy ∧ t = tx.named := by
        cases tx <;> first | (cases h; exact ⟨rfl, rfl⟩) | cases bx
      obtain ⟨rfl, rfl⟩ := hh
      rw [eval_two, none_apply]
      simpa only [E.value, bind_assoc, if_true, putVal_eq] using this
  | assignPos lr x y z ih ih' ih'' =>
    replace ih := ih (fun _ => hT trivial)
    replace ih' := ih' (fun _ => hT trivial)
    replace ih'' := ih'' (fun _ => hT trivial)
    intro c t h
    simp only [E.elab] at h
    rcases hx : x.elab A Γ with _ | ⟨cx, tx⟩
    · rw [hx] at h; cases h
    rcases hy : y.elab A Γ with _ | ⟨cy, ty⟩
    · rw [hx, hy] at h; cases h
    rcases hz : z.elab A Γ with _ | ⟨cz, tz⟩
    · rw [hx, hy, hz] at h; cases h
    rw [hx, hy, hz] at h
    have htx := E.elab_type' hx
    have hty := E.elab_type' hy
    simp only [Option.bind_eq_bind, Option.bind_some, mk3_assignPos] at h
    rcases hb : ((tx.modifiable && if tx.isVal = true then ty.isUnsigned else ty.isNum) && tz.isNum) with _ | _
    · rw [hb] at h; cases h
    · rw [hb] at h
      rw [Bool.and_eq_true, Bool.and_eq_true] at hb
      have bx := modifiable_bit hb.1.1
      have ha : ∃ a, ty = .arith a ∧ (tx.isVal = true → bitsOf ty = a.width) := by
        by_cases hv : tx.isVal = true
        · have := hb.1.2
          rw [if_pos hv] at this
          obtain ⟨k, rfl⟩ := isUnsigned_num this
          exact ⟨_, rfl, fun _ => rfl⟩
        · have := hb.1.2
          rw [if_neg hv] at this
          obtain ⟨a, rfl⟩ := isNum_arith this
          exact ⟨a, rfl, fun h => absurd h hv⟩
      obtain ⟨a, rfl, ha⟩ := ha
      obtain ⟨a', rfl⟩ := isNum_arith hb.2
      have hx' : Op T Γ refs addrs (cx.eval A S refs >>= (thisConv tx).apply A) (x.value A Γ w addrs >>= Val.place) (Rel tx.named) :=
        (ih _ _ hx).bind fun a b s _ r => sim_this A bx r
      have hh : c = .call3 (if tx.isVal then .valAssignPos else .refAssignPos) lr (thisConv tx) .none .none cx cy cz ∧ t = tx.named := by
        cases tx <;> first | (cases h; exact ⟨rfl, rfl⟩) | cases bx
      obtain ⟨rfl, rfl⟩ := hh
      have e1 : (Core.call3 (if tx.isVal then .valAssignPos else .refAssignPos) lr (thisConv tx) .none .none cx cy cz).eval A S refs =
          ((cx.eval A S refs >>= (thisConv tx).apply A) >>= fun q =>
            if lr then cy.eval A S refs >>= fun v => cz.eval A S refs >>= fun i => run3 S (if tx.isVal then .valAssignPos else .refAssignPos) q v i
            else cz.eval A S refs >>= fun i => cy.eval A S refs >>= fun v => run3 S (if tx.isVal then .valAssignPos else .refAssignPos) q v i) := by
        have : (Conv.none.apply A : Res w → X w (Res w)) = Pure.pure := by
          funext x
          cases x <;> rfl
        simp only [Core.eval, bind_assoc, this, pure_bind]
      have e2 : (E.assignPos lr x y z).value A Γ w addrs = ((x.value A Γ w addrs >>= Val.place) >>= fun q =>
            if lr then y.value A Γ w addrs >>= fun v => z.value A Γ w addrs >>= fun i => v.bitNo (if tx.isVal then a.width else w) i >>= putVal q
            else z.value A Γ w addrs >>= fun i => y.value A Γ w addrs >>= fun v => v.bitNo (if tx.isVal then a.width else w) i >>= putVal q) := by
        have : (if ((some tx).any ETy.isVal) = true then ((some (ETy.arith a)).map bitsOf).getD 0 else w) = if tx.isVal then a.width else w := by
          show (if tx.isVal = true then bitsOf (.arith a) else w) = _
          by_cases hv : tx.isVal = true
          · rw [if_pos hv, if_pos hv, ha hv]
          · rw [if_neg hv, if_neg hv]
        simp only [E.value, htx, hty, this]
        cases lr <;> simp only [bind_assoc, pure_bind, if_true, if_false, Bool.false_eq_true, putVal_eq]
      rw [e1, e2]
      refine hx'.bind fun q p s hs r => ?_
      cases lr with
      | true =>
        refine Sim.bind (ih' _ _ hy s hs) fun v v' s' k r' => ?_
        refine Sim.bind (ih'' _ _ hz s' (hs.keeps k)) fun i i' s'' k' r'' => ?_
        exact sim_assignPos (hT trivial) S bx ((r.keeps k).keeps k') (r'.keeps k') r''
      | false =>
        refine Sim.bind (ih'' _ _ hz s hs) fun i i' s' k r' => ?_
        refine Sim.bind (ih' _ _ hy s' (hs.keeps k)) fun v v' s'' k' r'' => ?_
        exact sim_assignPos (hT trivial) S bx ((r.keeps k).keeps k') r'' (r'.keeps k')
  | swapWith x y ih ih' =>
    replace ih := ih (fun h => hT (Or.inl h))
    replace ih' := ih' (fun h => hT (Or.inr h))
    intro c t h
    simp only [E.elab] at h
    rcases hx : x.elab A Γ with _ | ⟨cx, tx⟩
    · rw [hx] at h; cases h
    rcases hy : y.elab A Γ with _ | ⟨cy, ty⟩
    · rw [hx, hy] at h; cases h
    rw [hx, hy] at h
    simp only [Option.bind_eq_bind, Option.bind_some, mk2_swapWith] at h
    split at h
    · rename_i hb
      rw [Bool.and_eq_true] at hb
      have bx := modifiable_bit hb.1
      have hx' : Op T Γ refs addrs (cx.eval A S refs >>= (thisConv tx).apply A) (x.value A Γ w addrs >>= Val.place) (Rel tx.named) :=
        (ih _ _ hx).bind fun a b s _ r => sim_this A bx r
      have e : (E.swapWith x y).value A Γ w addrs = ((x.value A Γ w addrs >>= Val.place) >>= fun p => y.value A Γ w addrs >>= fun q => swapVals p q) := by
        simp only [E.value, bind_assoc, swapVals]
      rw [e]
      cases tx with
      | arith a => cases bx
      | void => cases bx
      | ref cc u l =>
        cases ty with
        | arith a => cases hb.2
        | void => cases hb.2
        | ref d v m =>
          cases h
          rw [show (Ord.lr) = ordOf true from rfl, eval_two, none_apply A (cy.eval A S refs)]
          refine Op.two true hx' (ih' _ _ hy) rel_keeps rel_keeps ?_
          rintro _ _ _ _ s _ ⟨r, a, rfl, rfl, hr, ha⟩ ⟨r', a', rfl, rfl, hr', ha'⟩
          exact sim_swapRefs hr hr' ha ha'
        | val d m =>
          have hm : m = true := by
            have h2 := hb.2
            cases d <;> cases m <;> first | rfl | cases h2
          subst hm
          cases h
          rw [show (Ord.lr) = ordOf true from rfl, eval_two, none_apply A (cy.eval A S refs)]
          refine Op.two true hx' (ih' _ _ hy) rel_keeps rel_keeps ?_
          rintro _ _ _ _ s _ ⟨r, a, rfl, rfl, hr, ha⟩ ⟨k, rfl, rfl, hk⟩
          exact sim_swapRefVal hr ha hk (Or.inl rfl)
      | val cc l =>
        cases ty with
        | arith a => cases hb.2
        | void => cases hb.2
        | ref d v m => cases hb.2
        | val d m =>
          have hm : m = true := by
            have h2 := hb.2
            cases d <;> cases m <;> first | rfl | cases h2
          subst hm
          cases h
          rw [show (Ord.lr) = ordOf true from rfl, eval_two, none_apply A (cy.eval A S refs)]
          refine Op.two true hx' (ih' _ _ hy) rel_keeps rel_keeps ?_
          rintro _ _ _ _ s _ ⟨l, rfl, rfl, hl⟩ ⟨k, rfl, rfl, hk⟩
          exact sim_swapObjs hl hk rfl
    · cases h
  | swap lr x y ih ih' =>
    replace ih := ih (fun h => hT (Or.inl h))
    replace ih' := ih' (fun h => hT (Or.inr h))
    intro c t h
    simp only [E.elab] at h
    rcases hx : x.elab A Γ with _ | ⟨cx, tx⟩
    · rw [hx] at h; cases h
    rcases hy : y.elab A Γ with _ | ⟨cy, ty⟩
    · rw [hx, hy] at h; cases h
    rw [hx, hy] at h
    simp only [Option.bind_eq_bind, Option.bind_some, mk2_swap] at h
    split at h
    · rename_i hb
      have e : (E.swap lr x y).value A Γ w addrs =
          if lr then x.value A Γ w addrs >>= fun p => y.value A Γ w addrs >>= fun q => swapVals p q
          else y.value A Γ w addrs >>= fun q => x.value A Γ w addrs >>= fun p => swapVals p q := by
        cases lr <;> simp only [E.value, bind_assoc, pure_bind, swapVals, if_true, if_false, Bool.false_eq_true]
      rw [e]
      have two := fun (f : Fn) (k : ∀ (a : Res w) b a' b' s, InScope Γ refs addrs s → Rel tx a b s → Rel ty a' b' s → Sim T s (run2 A S f a a') (swapVals b b') (Rel .void)) =>
        Op.two lr (ih _ _ hx) (ih' _ _ hy) rel_keeps rel_keeps k
      cases tx with
      | arith a => cases hb
      | void => cases hb
      | ref cc u l =>
        cases ty with
        | arith a => cases u <;> cases hb
        | void => cases u <;> cases hb
        | ref d v m =>
          cases h
          rw [eval_two, none_apply, none_apply]
          refine two _ ?_
          rintro _ _ _ _ s _ ⟨r, a, rfl, rfl, hr, ha⟩ ⟨r', a', rfl, rfl, hr', ha'⟩
          exact sim_swapRefs hr hr' ha ha'
        | val d m =>
          have hm : m = true := by cases u <;> cases d <;> cases m <;> first | rfl | cases hb
          subst hm
          cases h
          rw [eval_two, none_apply, none_apply]
          refine two _ ?_
          rintro _ _ _ _ s _ ⟨r, a, rfl, rfl, hr, ha⟩ ⟨k, rfl, rfl, hk⟩
          exact sim_swapRefVal hr ha hk (Or.inl rfl)
      | val cc l =>
        cases ty with
        | arith a => cases cc <;> cases l <;> cases hb
        | void => cases cc <;> cases l <;> cases hb
        | val d m => cases cc <;> cases l <;> cases hb
        | ref d v m =>
          have hm : l = true := by cases cc <;> cases l <;> first | rfl | cases hb
          subst hm
          cases h
          rw [eval_two, none_apply, none_apply]
          refine two _ ?_
          rintro _ _ _ _ s _ ⟨k, rfl, rfl, hk⟩ ⟨r, a, rfl, rfl, hr, ha⟩
          exact sim_swapRefVal hr ha hk (Or.inr rfl)
    · cases h
  | stdSwap lr x y ih ih' =>
    replace ih := ih (fun h => hT (Or.inl h))
    replace ih' := ih' (fun h => hT (Or.inr h))
    intro c t h
    simp only [E.elab] at h
    rcases hx : x.elab A Γ with _ | ⟨cx, tx⟩
    · rw [hx] at h; cases h
    rcases hy : y.elab A Γ with _ | ⟨cy, ty⟩
    · rw [hx, hy] at h; cases h
    rw [hx, hy] at h
    have htx := E.elab_type' hx
    simp only [Option.bind_eq_bind, Option.bind_some, mk2_stdSwap] at h
    split at h
    · rename_i hb
      cases h
      rw [Bool.and_eq_true, Bool.and_eq_true, beq_iff_eq, beq_iff_eq] at hb
      obtain ⟨⟨hm, hn⟩, rfl⟩ := hb
      have e : (E.stdSwap lr x y).value A Γ w addrs =
          if lr then x.value A Γ w addrs >>= fun p => y.value A Γ w addrs >>= fun q => stdSwapVals ty.isVal p q
          else y.value A Γ w addrs >>= fun q => x.value A Γ w addrs >>= fun p => stdSwapVals ty.isVal p q := by
        cases lr <;> simp only [E.value, bind_assoc, pure_bind, stdSwapVals, if_true, if_false, Bool.false_eq_true, htx, Option.any_some]
      rw [e, eval_two, none_apply, none_apply]
      refine Op.two lr (ih _ _ hx) (ih' _ _ hy) rel_keeps rel_keeps ?_
      cases ty with
      | arith a => cases hm
      | void => cases hm
      | val cc l =>
        cases hn
        rintro _ _ _ _ s _ ⟨l, rfl, rfl, hl⟩ ⟨k, rfl, rfl, hk⟩
        exact sim_swapObjs hl hk rfl
      | ref cc u l =>
        rintro _ _ _ _ s _ ⟨r, a, rfl, rfl, hr, ha⟩ ⟨r', a', rfl, rfl, hr', ha'⟩
        obtain ⟨c, hc⟩ := Option.isSome_iff_exists.1 ha'
        obtain ⟨b, hb⟩ := Option.isSome_iff_exists.1 ha
        refine sim_stdSwapRefs hr hr' ha ha' hc ?_
        show ((Val.ref a).get s).bind (fun x => (((Val.ref a').get x.2).bind fun y => _)) = _
        rw [get_ref hb]
        show ((Val.ref a').get s).bind _ = _
        rw [get_ref hc]
        rfl
    · cases h

end BitLib.Expr
