import Verif.Lemmas.ExprSim
/- Expressions without side effects may be evaluated in any order. -/
namespace BitLib.Expr
variable {w : Nat}

theorem Rel.is {t : ETy} {x : Res w} {v : Val} {s : State} (h : Rel t x v s) : x.Is v := by
  cases t with
  | arith a => obtain ⟨n, rfl, rfl⟩ := h; exact ⟨rfl, rfl⟩
  | val c l =>
    cases l with
    | true => obtain ⟨k, rfl, rfl, _⟩ := h; exact rfl
    | false => obtain ⟨b, rfl, rfl⟩ := h; exact rfl
  | ref c u l => obtain ⟨r, a, rfl, rfl, h, _⟩ := h; exact h
  | void => obtain ⟨rfl, rfl⟩ := h; exact trivial

theorem none_of_type {A : Arith} {Γ : Scope} {e : E} (h : e.type A Γ = none) : e.elab A Γ = none := by
  rw [← E.elab_type] at h
  cases he : e.elab A Γ with
  | none => rfl
  | some x => rw [he] at h; cases h

theorem ordered_type (A : Arith) (Γ : Scope) (f : Bool → Bool) (e : E) : (e.ordered f).type A Γ = e.type A Γ := by
  induction e <;> simp only [E.ordered, E.type, *]

/-- A computation that does not change anything. -/
def Reads {α : Type} (q : Comp α) : Prop := ∀ s v s', q s = some (v, s') → s' = s

theorem Reads.bind {α β : Type} {q : Comp α} {g : α → Comp β} (h : Reads q) (k : ∀ a, Reads (g a)) : Reads (q >>= g) := by
  intro s v s' e
  replace e : (q s).bind (fun x => g x.1 x.2) = some (v, s') := e
  cases hq : q s with
  | none => rw [hq] at e; cases e
  | some x =>
    obtain ⟨a, t⟩ := x
    rw [hq] at e
    have := h s a t hq
    subst this
    exact k a _ _ _ e

theorem Reads.pure {α : Type} (a : α) : Reads (Pure.pure a : Comp α) := by
  intro s v s' e
  cases e
  rfl

/-- Two computations that do not change anything commute. -/
theorem Reads.comm {α β γ : Type} {p : Comp α} {q : Comp β} (g : α → β → Comp γ) (hp : Reads p) (hq : Reads q) :
    (p >>= fun a => q >>= fun b => g a b) = (q >>= fun b => p >>= fun a => g a b) := by
  funext s
  show (p s).bind (fun x => (q x.2).bind fun y => g x.1 y.1 y.2) = (q s).bind (fun y => (p y.2).bind fun x => g x.1 y.1 x.2)
  cases h1 : p s with
  | none =>
    cases h2 : q s with
    | none => rfl
    | some y =>
      obtain ⟨b, t⟩ := y
      have := hq _ _ _ h2
      subst this
      simp [h1]
  | some x =>
    obtain ⟨a, t⟩ := x
    have := hp _ _ _ h1
    subst this
    cases h2 : q t with
    | none => simp [h2]
    | some y =>
      obtain ⟨b, t'⟩ := y
      have := hq _ _ _ h2
      subst this
      simp [h1, h2]

theorem reads_get (v : Val) : Reads v.get := by
  intro s b s' e
  cases v with
  | num t n => cases e; rfl
  | bit c => cases e; rfl
  | unit => cases e
  | obj k =>
    replace e : (s.objs[k]?).map (fun b => (b, s)) = some (b, s') := e
    cases h : s.objs[k]? with
    | none => rw [h] at e; cases e
    | some c => rw [h] at e; cases e; rfl
  | ref a =>
    replace e : (s.bits a).map (fun b => (b, s)) = some (b, s') := e
    cases h : s.bits a with
    | none => rw [h] at e; cases e
    | some c => rw [h] at e; cases e; rfl

theorem reads_value (v : Val) : Reads v.value := by
  cases v with
  | num t n => exact Reads.pure _
  | _ => exact (reads_get _).bind fun _ => Reads.pure _

theorem reads_lowBit (v : Val) : Reads v.lowBit := by
  cases v with
  | num t n => exact Reads.pure _
  | _ => intro s b s' e; cases e

theorem reads_bitNo (k : Nat) (v u : Val) : Reads (v.bitNo k u) := by
  intro s b s' e
  cases v <;> cases u <;> first | cases e | skip
  simp only [Val.bitNo] at e
  split at e
  · cases e; rfl
  · cases e

theorem reads_as (A : Arith) (t : Option ETy) (v : Val) : Reads (v.as A t) := by
  unfold Val.as
  split
  · exact Reads.pure _
  · exact reads_value _
  · exact Reads.pure _

theorem reads_binVal (A : Arith) (o : BOp) (v u : Val) : Reads (binVal A o v u) := by
  unfold binVal
  split
  · exact Reads.pure _
  · exact (reads_get _).bind fun _ => (reads_get _).bind fun _ => Reads.pure _

theorem reads_pure (A : Arith) (Γ : Scope) (addrs : Nat → Int) (e : E) (h : e.Pure) : Reads (e.value A Γ w addrs) := by
  induction e with
  | lit t n => exact Reads.pure _
  | var k => exact Reads.pure _
  | ref k => exact Reads.pure _
  | initVal x ih => exact (ih h).bind fun v => reads_value v
  | initBool x ih => exact (ih h).bind fun v => (reads_get v).bind fun _ => Reads.pure _
  | toBool x ih => exact (ih h).bind fun v => (reads_get v).bind fun _ => Reads.pure _
  | not x ih => exact (ih h).bind fun v => (reads_get v).bind fun _ => Reads.pure _
  | toVal x ih =>
    refine (ih h).bind fun v => ?_
    split
    · exact (reads_lowBit _).bind fun _ => Reads.pure _
    · exact (reads_get _).bind fun _ => Reads.pure _
  | toValPos lr x y ih ih' =>
    cases lr <;> simp only [E.value, pure_bind, bind_assoc, if_true, if_false, Bool.false_eq_true]
    · exact (ih' h.2).bind fun _ => (ih h.1).bind fun _ => (reads_bitNo _ _ _).bind fun _ => Reads.pure _
    · exact (ih h.1).bind fun _ => (ih' h.2).bind fun _ => (reads_bitNo _ _ _).bind fun _ => Reads.pure _
  | compl x ih =>
    refine (ih h).bind fun v => ?_
    split
    · exact Reads.pure _
    · exact (reads_get _).bind fun _ => Reads.pure _
  | land x y ih ih' =>
    simp only [E.value]
    refine (ih h.1).bind fun v => (reads_get v).bind fun b => ?_
    cases b
    · exact Reads.pure _
    · exact (ih' h.2).bind fun v => (reads_get v).bind fun _ => Reads.pure _
  | lor x y ih ih' =>
    simp only [E.value]
    refine (ih h.1).bind fun v => (reads_get v).bind fun b => ?_
    cases b
    · exact (ih' h.2).bind fun v => (reads_get v).bind fun _ => Reads.pure _
    · exact Reads.pure _
  | cond x y z ih ih' ih'' =>
    simp only [E.value]
    refine (ih h.1).bind fun v => (reads_get v).bind fun b => ?_
    cases b
    · exact (ih'' h.2.2).bind fun v => reads_as _ _ _
    · exact (ih' h.2.1).bind fun v => reads_as _ _ _
  | comma x y ih ih' => exact (ih h.1).bind fun v => ih' h.2
  | bin o lr x y ih ih' =>
    simp only [E.value]
    cases lr
    · exact (ih' h.2).bind fun _ => (reads_value _).bind fun _ => (ih h.1).bind fun _ => (reads_value _).bind fun _ => reads_binVal _ _ _ _
    · exact (ih h.1).bind fun _ => (reads_value _).bind fun _ => (ih' h.2).bind fun _ => (reads_value _).bind fun _ => reads_binVal _ _ _ _
  | _ => exact h.elim

theorem ordered_value (A : Arith) (Γ : Scope) (addrs : Nat → Int) (f : Bool → Bool) (e : E) (h : e.Pure) :
    (e.ordered f).value A Γ w addrs = e.value A Γ w addrs := by
  induction e with
  | lit t n => rfl
  | var k => rfl
  | ref k => rfl
  | initVal x ih => simp only [E.ordered, E.value, ih h]
  | initBool x ih => simp only [E.ordered, E.value, ih h]
  | toBool x ih => simp only [E.ordered, E.value, ih h]
  | not x ih => simp only [E.ordered, E.value, ih h]
  | toVal x ih => simp only [E.ordered, E.value, ih h, ordered_type]
  | compl x ih => simp only [E.ordered, E.value, ih h]
  | land x y ih ih' => simp only [E.ordered, E.value, ih h.1, ih' h.2]
  | lor x y ih ih' => simp only [E.ordered, E.value, ih h.1, ih' h.2]
  | comma x y ih ih' => simp only [E.ordered, E.value, ih h.1, ih' h.2]
  | cond x y z ih ih' ih'' =>
    have : (E.cond (x.ordered f) (y.ordered f) (z.ordered f)).type A Γ = (E.cond x y z).type A Γ := ordered_type A Γ f (.cond x y z)
    simp only [E.ordered, E.value, ih h.1, ih' h.2.1, ih'' h.2.2, this]
  | toValPos lr x y ih ih' =>
    have c := Reads.comm (fun v q => v.bitNo (((x.type A Γ).map bitsOf).getD 0) q >>= fun b => (Pure.pure (Val.bit b) : Comp Val))
      (reads_pure (w := w) A Γ addrs x h.1) (reads_pure (w := w) A Γ addrs y h.2)
    have : ∀ b, (E.toValPos b x y).value A Γ w addrs = (x.value A Γ w addrs >>= fun v => y.value A Γ w addrs >>= fun q =>
        v.bitNo (((x.type A Γ).map bitsOf).getD 0) q >>= fun b => (Pure.pure (Val.bit b) : Comp Val)) := by
      intro b
      cases b
      · rw [c]
        simp only [E.value, pure_bind, bind_assoc, if_false, Bool.false_eq_true]
      · simp only [E.value, pure_bind, bind_assoc, if_true]
    have e : (E.toValPos (f lr) (x.ordered f) (y.ordered f)).value A Γ w addrs = (E.toValPos (f lr) x y).value A Γ w addrs := by
      simp only [E.value, ih h.1, ih' h.2, ordered_type]
    show (E.toValPos (f lr) (x.ordered f) (y.ordered f)).value A Γ w addrs = _
    rw [e, this, this]
  | bin o lr x y ih ih' =>
    have c := Reads.comm (fun v q => binVal A o v q) ((reads_pure (w := w) A Γ addrs x h.1).bind fun v => reads_value v) ((reads_pure (w := w) A Γ addrs y h.2).bind fun v => reads_value v)
    have : ∀ b, (E.bin o b x y).value A Γ w addrs = ((x.value A Γ w addrs >>= fun v => v.value) >>= fun v => (y.value A Γ w addrs >>= fun v => v.value) >>= fun q => binVal A o v q) := by
      intro b
      cases b
      · rw [c]
        simp only [E.value, bind_assoc, if_false, Bool.false_eq_true]
      · simp only [E.value, bind_assoc, if_true]
    have e : (E.bin o (f lr) (x.ordered f) (y.ordered f)).value A Γ w addrs = (E.bin o (f lr) x y).value A Γ w addrs := by
      simp only [E.value, ih h.1, ih' h.2]
    show (E.bin o (f lr) (x.ordered f) (y.ordered f)).value A Γ w addrs = _
    rw [e, this, this]
  | _ => exact h.elim

end BitLib.Expr
