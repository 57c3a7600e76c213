import Verif.Lemmas.ExprCalls
/- An expression compiles if the table of types has an entry for it, and then it computes what is meant. -/
namespace BitLib.Expr
variable {w : Nat} {T : Prop} {α β γ δ α' β' : Type}

theorem E.elab_type (A : Arith) (Γ : Scope) (e : E) : (e.elab A Γ).map Prod.snd = e.type A Γ := by
  induction e with
  | lit t n => rfl
  | var k => show ((Γ.val k).map _).map _ = (Γ.val k).bind _; cases Γ.val k <;> rfl
  | ref k => show ((Γ.ref k).map _).map _ = (Γ.ref k).bind _; cases Γ.ref k <;> rfl
  | initVal x ih =>
    simp only [E.elab, E.type, ← ih]
    rcases x.elab A Γ with _ | ⟨x, s⟩
    · rfl
    · simp only [Option.bind_eq_bind, Option.bind_some, Option.map_some, mk1_init]
      rcases s with _ | ⟨_ | _, _ | _⟩ | _ | _ <;> rfl
  | initBool x ih =>
    simp only [E.elab, E.type, ← ih]
    rcases x.elab A Γ with _ | ⟨x, s⟩
    · rfl
    · rcases s with _ | _ | _ | _ <;> rfl
  | toVal x ih =>
    simp only [E.elab, E.type, ← ih]
    rcases x.elab A Γ with _ | ⟨x, s⟩
    · rfl
    · simp only [Option.bind_eq_bind, Option.bind_some, Option.map_some, mk1_ctor]
      rcases s with (_ | _ | ⟨_ | _, _ | _⟩) | ⟨_ | _, _ | _⟩ | _ | _ <;> rfl
  | toValPos lr x y ih ih' =>
    simp only [E.elab, E.type, ← ih, ← ih']
    rcases x.elab A Γ with _ | ⟨x, s⟩
    · rfl
    rcases y.elab A Γ with _ | ⟨y, t⟩
    · rfl
    simp only [Option.bind_eq_bind, Option.bind_some, Option.map_some, mk2_ctorPos, when]
    split <;> rfl
  | toBool x ih =>
    simp only [E.elab, E.type, ← ih]
    rcases x.elab A Γ with _ | ⟨x, s⟩
    · rfl
    · cases s <;> rfl
  | not x ih =>
    simp only [E.elab, E.type, ← ih]
    rcases x.elab A Γ with _ | ⟨x, s⟩
    · rfl
    · cases s <;> rfl
  | compl x ih =>
    simp only [E.elab, E.type, ← ih]
    rcases x.elab A Γ with _ | ⟨x, s⟩
    · rfl
    · simp only [Option.bind_eq_bind, Option.bind_some, Option.map_some, mk1_compl]
      cases s <;> rfl
  | land x y ih ih' =>
    simp only [E.elab, E.type, ← ih, ← ih']
    rcases x.elab A Γ with _ | ⟨x, s⟩
    · rfl
    rcases y.elab A Γ with _ | ⟨y, t⟩
    · rfl
    cases s <;> cases t <;> rfl
  | lor x y ih ih' =>
    simp only [E.elab, E.type, ← ih, ← ih']
    rcases x.elab A Γ with _ | ⟨x, s⟩
    · rfl
    rcases y.elab A Γ with _ | ⟨y, t⟩
    · rfl
    cases s <;> cases t <;> rfl
  | cond x y z ih ih' ih'' =>
    simp only [E.elab, E.type, ← ih, ← ih', ← ih'']
    rcases x.elab A Γ with _ | ⟨x, s⟩
    · rfl
    rcases y.elab A Γ with _ | ⟨y, t⟩
    · rfl
    rcases z.elab A Γ with _ | ⟨z, u⟩
    · rfl
    have h : (condTy A t u).map (fun r => r.2.2) = condType A t u := by
      rcases t with _ | ⟨_, _ | _⟩ | ⟨_, c, _⟩ | _ <;> rcases u with _ | ⟨_, _ | _⟩ | ⟨_, d, _⟩ | _ <;> try rfl
      cases c <;> cases d <;> rfl
    cases s with
    | void => rfl
    | _ =>
      show ((condTy A t u).bind _).map _ = condType A t u
      rw [← h]
      cases condTy A t u <;> rfl
  | comma x y ih ih' =>
    simp only [E.elab, E.type, ← ih, ← ih']
    rcases x.elab A Γ with _ | ⟨x, s⟩
    · rfl
    rcases y.elab A Γ with _ | ⟨y, t⟩ <;> rfl
  | bin o lr x y ih ih' =>
    simp only [E.elab, E.type, ← ih, ← ih']
    rcases x.elab A Γ with _ | ⟨x, s⟩
    · rfl
    rcases y.elab A Γ with _ | ⟨y, t⟩
    · rfl
    simp only [Option.bind_eq_bind, Option.bind_some, Option.map_some, mk2_bin]
    cases s <;> cases t <;> rfl
  | asg o late x y ih ih' =>
    simp only [E.elab, E.type, ← ih, ← ih']
    rcases x.elab A Γ with _ | ⟨x, s⟩
    · rfl
    rcases y.elab A Γ with _ | ⟨y, t⟩
    · rfl
    by_cases ho : o = .set
    · simp only [Option.bind_eq_bind, Option.bind_some, Option.map_some, if_pos ho, mk2_asg, when]
      cases hc : s.modifiable && t.isBit
      · rfl
      · cases s <;> cases t <;> first | rfl | (exfalso; revert hc; simp [ETy.modifiable, ETy.isBit])
    · simp only [Option.bind_eq_bind, Option.bind_some, Option.map_some, if_neg ho, mk2_opAsg, when]
      split
      · cases s <;> rfl
      · rfl
  | call f x ih =>
    simp only [E.elab, E.type, ← ih]
    rcases x.elab A Γ with _ | ⟨x, s⟩
    · rfl
    simp only [Option.bind_eq_bind, Option.bind_some, Option.map_some, mk1_set, when]
    split
    · cases s <;> rfl
    · rfl
  | setTo x y ih ih' =>
    simp only [E.elab, E.type, ← ih, ← ih']
    rcases x.elab A Γ with _ | ⟨x, s⟩
    · rfl
    rcases y.elab A Γ with _ | ⟨y, t⟩
    · rfl
    simp only [Option.bind_eq_bind, Option.bind_some, Option.map_some, mk2_setTo, when]
    split
    · cases s <;> rfl
    · rfl
  | assign x y ih ih' =>
    simp only [E.elab, E.type, ← ih, ← ih']
    rcases x.elab A Γ with _ | ⟨x, s⟩
    · rfl
    rcases y.elab A Γ with _ | ⟨y, t⟩
    · rfl
    simp only [Option.bind_eq_bind, Option.bind_some, Option.map_some, mk2_assign, when]
    cases (s.modifiable && if s.isVal = true then t.isUnsigned else t.isNum)
    · rfl
    · cases s <;> rfl
  | assignPos lr x y z ih ih' ih'' =>
    simp only [E.elab, E.type, ← ih, ← ih', ← ih'']
    rcases x.elab A Γ with _ | ⟨x, s⟩
    · rfl
    rcases y.elab A Γ with _ | ⟨y, t⟩
    · rfl
    rcases z.elab A Γ with _ | ⟨z, u⟩
    · rfl
    simp only [Option.bind_eq_bind, Option.bind_some, Option.map_some, mk3_assignPos, when]
    cases ((s.modifiable && if s.isVal = true then t.isUnsigned else t.isNum) && u.isNum)
    · rfl
    · cases s <;> rfl
  | swapWith x y ih ih' =>
    simp only [E.elab, E.type, ← ih, ← ih']
    rcases x.elab A Γ with _ | ⟨x, s⟩
    · rfl
    rcases y.elab A Γ with _ | ⟨y, t⟩
    · rfl
    simp only [Option.bind_eq_bind, Option.bind_some, Option.map_some, mk2_swapWith, when]
    split
    · cases s <;> cases t <;> rfl
    · rfl
  | swap lr x y ih ih' =>
    simp only [E.elab, E.type, ← ih, ← ih']
    rcases x.elab A Γ with _ | ⟨x, s⟩
    · rfl
    rcases y.elab A Γ with _ | ⟨y, t⟩
    · rfl
    simp only [Option.bind_eq_bind, Option.bind_some, Option.map_some, mk2_swap, when]
    split
    · cases s <;> cases t <;> rfl
    · rfl
  | stdSwap lr x y ih ih' =>
    simp only [E.elab, E.type, ← ih, ← ih']
    rcases x.elab A Γ with _ | ⟨x, s⟩
    · rfl
    rcases y.elab A Γ with _ | ⟨y, t⟩
    · rfl
    simp only [Option.bind_eq_bind, Option.bind_some, Option.map_some, mk2_stdSwap, when]
    split <;> rfl

theorem E.elab_type' {A : Arith} {Γ : Scope} {e : E} {c : Core} {t : ETy} (h : e.elab A Γ = some (c, t)) : e.type A Γ = some t := by
  rw [← E.elab_type, h]
  rfl

/-! ### Two operands -/

theorem InScope.keeps {Γ : Scope} {refs : Nat → BitRef w} {addrs : Nat → Int} {s s' : State} (h : InScope Γ refs addrs s) (k : Keeps s s') : InScope Γ refs addrs s' :=
  ⟨fun j t e => ⟨(h.ref j t e).1, k.bits _ (h.ref j t e).2⟩, fun j c e => Nat.lt_of_lt_of_le (h.val j c e) k.objs⟩

/-- The code does what is meant from all states with the variables of a scope. -/
def Op (T : Prop) (Γ : Scope) (refs : Nat → BitRef w) (addrs : Nat → Int) (p : X w α) (q : Comp β) (R : α → β → State → Prop) : Prop :=
  ∀ s, InScope Γ refs addrs s → Sim T s p q R

variable {Γ : Scope} {refs : Nat → BitRef w} {addrs : Nat → Int}

theorem Op.bind {p : X w α} {q : Comp β} {f : α → X w γ} {g : β → Comp δ} {R : α → β → State → Prop} {R' : γ → δ → State → Prop}
    (h : Op T Γ refs addrs p q R) (k : ∀ a b s, InScope Γ refs addrs s → R a b s → Sim T s (f a) (g b) R') : Op T Γ refs addrs (p >>= f) (q >>= g) R' :=
  fun s hs => Sim.bind (h s hs) fun a b s' kp r => k a b s' (hs.keeps kp) r

/-- Two operands, in either order. -/
theorem Op.two (lr : Bool) {p : X w α} {q : Comp β} {p' : X w α'} {q' : Comp β'} {f : α → α' → X w γ} {g : β → β' → Comp δ}
    {R : α → β → State → Prop} {R' : α' → β' → State → Prop} {Q : γ → δ → State → Prop}
    (h : Op T Γ refs addrs p q R) (h' : Op T Γ refs addrs p' q' R')
    (hR : ∀ a b s s', R a b s → Keeps s s' → R a b s') (hR' : ∀ a b s s', R' a b s → Keeps s s' → R' a b s')
    (k : ∀ a b a' b' s, InScope Γ refs addrs s → R a b s → R' a' b' s → Sim T s (f a a') (g b b') Q) :
    Op T Γ refs addrs (if lr then p >>= fun a => p' >>= fun b => f a b else p' >>= fun b => p >>= fun a => f a b)
      (if lr then q >>= fun a => q' >>= fun b => g a b else q' >>= fun b => q >>= fun a => g a b) Q := by
  intro s hs
  cases lr with
  | true =>
    refine Sim.bind (h s hs) fun a b s' kp r => ?_
    refine Sim.bind (h' s' (hs.keeps kp)) fun a' b' s'' kp' r' => ?_
    exact k _ _ _ _ _ ((hs.keeps kp).keeps kp') (hR _ _ _ _ r kp') r'
  | false =>
    refine Sim.bind (h' s hs) fun a b s' kp r => ?_
    refine Sim.bind (h s' (hs.keeps kp)) fun a' b' s'' kp' r' => ?_
    exact k _ _ _ _ _ ((hs.keeps kp).keeps kp') r' (hR' _ _ _ _ r kp')

theorem rel_keeps {t : ETy} (a : Res w) (b : Val) (s s' : State) (h : Rel t a b s) (k : Keeps s s') : Rel t a b s' := h.keeps k

theorem eval_two (A : Arith) (S : ∀ k, ShiftSem k) (f : Fn) (lr : Bool) (c d : Conv) (x y : Core) :
    (Core.call2 f (ordOf lr) c d x y).eval A S refs =
      if lr then (x.eval A S refs >>= c.apply A) >>= fun a => (y.eval A S refs >>= d.apply A) >>= fun b => run2 A S f a b
      else (y.eval A S refs >>= d.apply A) >>= fun b => (x.eval A S refs >>= c.apply A) >>= fun a => run2 A S f a b := by
  cases lr <;> simp only [ordOf, Core.eval, bind_assoc, if_true, if_false, Bool.false_eq_true]

theorem none_apply (A : Arith) (p : X w (Res w)) : (p >>= Conv.none.apply A) = p := by
  have : (Conv.none.apply A : Res w → X w (Res w)) = Pure.pure := by
    funext x
    cases x <;> rfl
  rw [this, bind_pure]

end BitLib.Expr
