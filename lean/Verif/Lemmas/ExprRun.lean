import Verif.Lemmas.Expr
/- The run of a resolved expression against its meaning. -/
namespace BitLib.Expr
variable {w : Nat} {T : Prop} {α β γ δ : Type}

/-- The memory and the objects are those of the state. -/
structure St (o : List BitVal) (m : Mem w) (s : State) : Prop where
  bits : bitAt m = s.bits
  objs : o.map BitVal.value = s.objs

/-- Bits and objects do not vanish. -/
structure Keeps (s s' : State) : Prop where
  bits : ∀ a, (s.bits a).isSome → (s'.bits a).isSome
  objs : s.objs.length ≤ s'.objs.length

theorem Keeps.refl (s : State) : Keeps s s := ⟨fun _ h => h, Nat.le_refl _⟩
theorem Keeps.trans {s t u : State} (h : Keeps s t) (k : Keeps t u) : Keeps s u := ⟨fun a x => k.bits a (h.bits a x), Nat.le_trans h.objs k.objs⟩

/-- From `s` on the code does what is meant; assertions fail at most under the condition `T`. -/
def Sim (T : Prop) (s : State) (p : X w α) (q : Comp β) (R : α → β → State → Prop) : Prop :=
  ∀ o m, St o m s → match q s with
    | some (b, s') => ∃ a o' m', p o m = .ok ((a, o'), m') ∧ St o' m' s' ∧ R a b s' ∧ Keeps s s'
    | none => T ∧ p o m = .error .assertFail

theorem bind_run (p : X w α) (f : α → X w β) (o : List BitVal) (m : Mem w) :
    (p >>= f) o m = match p o m with
      | .ok ((a, o'), m') => f a o' m'
      | .error e => .error e := by
  show (StateT.bind p f o) m = _
  unfold StateT.bind
  show (StateT.bind (p o) _) m = _
  unfold StateT.bind
  cases h : p o m with
  | error e => rfl
  | ok x => rfl

theorem Sim.bind {s : State} {p : X w α} {q : Comp β} {f : α → X w γ} {g : β → Comp δ} {R : α → β → State → Prop} {R' : γ → δ → State → Prop}
    (h : Sim T s p q R) (k : ∀ a b s', Keeps s s' → R a b s' → Sim T s' (f a) (g b) R') : Sim T s (p >>= f) (q >>= g) R' := by
  intro o m hs
  have h' := h o m hs
  rw [bind_run]
  have eq : (q >>= g) s = (q s).bind fun x => g x.1 x.2 := rfl
  rw [eq]
  cases hq : q s with
  | none =>
    rw [hq] at h'
    simp only [Option.bind_none]
    rw [h'.2]
    exact ⟨h'.1, rfl⟩
  | some x =>
    obtain ⟨b, s'⟩ := x
    rw [hq] at h'
    obtain ⟨a, o', m', e, hs', r, kp⟩ := h'
    rw [e]
    simp only [Option.bind_some]
    have k' := k a b s' kp r o' m' hs'
    cases hg : g b s' with
    | none => rw [hg] at k'; exact k'
    | some y =>
      obtain ⟨c, s''⟩ := y
      rw [hg] at k'
      obtain ⟨a', o'', m'', e', hs'', r', kp'⟩ := k'
      exact ⟨a', o'', m'', e', hs'', r', kp.trans kp'⟩

theorem Sim.pure {s : State} {a : α} {b : β} {R : α → β → State → Prop} (h : R a b s) : Sim (w := w) T s (pure a) (pure b) R :=
  fun o m hs => ⟨a, o, m, rfl, hs, h, Keeps.refl s⟩

theorem Sim.mono {s : State} {p : X w α} {q : Comp β} {R R' : α → β → State → Prop} (h : Sim T s p q R) (k : ∀ a b s', R a b s' → R' a b s') : Sim T s p q R' := by
  intro o m hs
  have h' := h o m hs
  cases hq : q s with
  | none => rw [hq] at h'; exact h'
  | some x =>
    obtain ⟨b, s'⟩ := x
    rw [hq] at h'
    obtain ⟨a, o', m', e, hs', r, kp⟩ := h'
    exact ⟨a, o', m', e, hs', k _ _ _ r, kp⟩

/-- A result of a type is the value. -/
def Rel : ETy → Res w → Val → State → Prop
  | .arith a, x, v, _ => ∃ n, x = .num a n ∧ v = .num a n
  | .val _ true, x, v, s => ∃ k, x = .obj k ∧ v = .obj k ∧ k < s.objs.length
  | .val _ false, x, v, _ => ∃ b, x = .bit ⟨b⟩ ∧ v = .bit b
  | .ref _ _ _, x, v, s => ∃ r a, x = .ref r ∧ v = .ref a ∧ r.At a ∧ (s.bits a).isSome
  | .void, x, v, _ => x = .unit ∧ v = .unit

theorem Rel.keeps {t : ETy} {x : Res w} {v : Val} {s s' : State} (h : Rel t x v s) (k : Keeps s s') : Rel t x v s' := by
  cases t with
  | arith a => exact h
  | val c l =>
    cases l with
    | true =>
      obtain ⟨j, h1, h2, h3⟩ := h
      exact ⟨j, h1, h2, Nat.lt_of_lt_of_le h3 k.objs⟩
    | false => exact h
  | ref c u l =>
    obtain ⟨r, a, h1, h2, h3, h4⟩ := h
    exact ⟨r, a, h1, h2, h3, k.bits a h4⟩
  | void => exact h

/-! ### Objects and bits -/

theorem get_obj {s : State} {k : Nat} (h : k < s.objs.length) : (Val.obj k).get s = some (s.objs[k], s) := by
  show (s.objs[k]?).map _ = _
  rw [List.getElem?_eq_getElem h]
  rfl

theorem get_ref {s : State} {a : Int} {b : Bool} (h : s.bits a = some b) : (Val.ref a).get s = some (b, s) := by
  show (s.bits a).map _ = _
  rw [h]
  rfl

theorem st_obj {o : List BitVal} {m : Mem w} {s : State} (h : St o m s) {k : Nat} (hk : k < s.objs.length) : o[k]? = some ⟨s.objs[k]⟩ := by
  have hl : k < o.length := by
    have := congrArg List.length h.objs
    rw [List.length_map] at this
    omega
  rw [List.getElem?_eq_getElem hl]
  congr 1
  have : (o.map BitVal.value)[k]'(by rw [List.length_map]; exact hl) = s.objs[k] := by
    congr 1
    exact h.objs
  rw [List.getElem_map] at this
  cases hv : o[k] with
  | mk b => rw [hv] at this; rw [← this]

theorem getObj_run {o : List BitVal} {m : Mem w} {s : State} (h : St o m s) {k : Nat} (hk : k < s.objs.length) :
    getObj k o m = .ok ((⟨s.objs[k]⟩, o), m) := by
  show ((do
    let s ← get
    match s[k]? with
    | some v => pure v
    | none => stuck : X w BitVal) o m) = _
  rw [bind_run]
  show (match o[k]? with
    | some v => (Pure.pure v : X w BitVal)
    | none => stuck) o m = _
  rw [st_obj h hk]
  rfl

theorem sim_getObj {s : State} {k : Nat} (hk : k < s.objs.length) :
    Sim (w := w) T s (getObj k) (Val.get (.obj k)) (fun v b s' => v.value = b ∧ s' = s) := by
  intro o m h
  rw [get_obj hk]
  exact ⟨_, _, _, getObj_run h hk, h, ⟨rfl, rfl⟩, Keeps.refl s⟩

theorem sim_putObj {s : State} {k : Nat} {v : BitVal} {b : Bool} (hv : v.value = b) :
    Sim (w := w) T s (putObj k v) (Val.put (.obj k) b) (fun _ _ _ => True) := by
  intro o m h
  refine ⟨(), o.set k v, m, rfl, ⟨h.bits, ?_⟩, trivial, ⟨fun _ x => x, ?_⟩⟩
  · show (o.set k v).map BitVal.value = s.objs.set k b
    rw [List.map_set, h.objs, hv]
  · show _ ≤ (s.objs.set k b).length
    rw [List.length_set]

/-- A computation that reads a bit which exists. -/
theorem sim_refRead {s : State} {r : BitRef w} {a : Int} (hr : r.At a) (ha : (s.bits a).isSome) :
    Sim T s (StateT.lift r.toBool) (Val.get (.ref a)) (fun x b s' => x = b ∧ s' = s) := by
  intro o m h
  obtain ⟨b, hb⟩ := Option.isSome_iff_exists.1 ha
  rw [get_ref hb]
  have hm : bitAt m a = some b := by rw [h.bits]; exact hb
  refine ⟨b, o, m, ?_, h, ⟨rfl, rfl⟩, Keeps.refl s⟩
  show ((fun m => (r.toBool >>= fun a => Pure.pure (a, o)) m) m) = _
  show (StateT.bind r.toBool (fun a => Pure.pure (a, o))) m = _
  unfold StateT.bind
  rw [C03_read m r a b hr hm]
  rfl

theorem lift_run (p : M w α) (o : List BitVal) (m : Mem w) :
    (StateT.lift p : X w α) o m = match p m with
      | .ok (a, m') => .ok ((a, o), m')
      | .error e => .error e := by
  show (StateT.bind p (fun a => Pure.pure (a, o))) m = _
  unfold StateT.bind
  cases h : p m <;> rfl

/-- The state with one bit changed. -/
def State.setBit (s : State) (a : Int) (b : Bool) : State := { s with bits := fun i => if i = a then some b else s.bits i }

theorem keeps_setBit (s : State) (a : Int) (b : Bool) : Keeps s (s.setBit a b) := by
  refine ⟨fun i h => ?_, Nat.le_refl _⟩
  show (if i = a then some b else s.bits i).isSome
  by_cases e : i = a
  · rw [if_pos e]; rfl
  · rw [if_neg e]; exact h

/-- An update of the bit designated by a reference. -/
theorem run_update {s : State} {o : List BitVal} {m : Mem w} (h : St o m s) {r : BitRef w} {a : Int} {b : Bool} (hr : r.At a) (hb : s.bits a = some b)
    (op : RefOp w) : ∃ m', (StateT.lift (op.run r) : X w Unit) o m = .ok (((), o), m') ∧ St o m' (s.setBit a (op.spec b)) := by
  have hm : bitAt m a = some b := by rw [h.bits]; exact hb
  obtain ⟨m', e, hw, _⟩ := C03_write m r a b op hr hm
  refine ⟨m', ?_, ⟨?_, h.objs⟩⟩
  · rw [lift_run, e]
  · funext i
    rw [hw i, h.bits]
    rfl

theorem sim_update {s : State} {r : BitRef w} {a : Int} {b c : Bool} (hr : r.At a) (hb : s.bits a = some b) (op : RefOp w) (hc : op.spec b = c) :
    Sim T s (StateT.lift (op.run r)) (Val.put (.ref a) c) (fun _ _ _ => True) := by
  intro o m h
  obtain ⟨m', e, h'⟩ := run_update h hr hb op
  rw [hc] at h'
  exact ⟨(), o, m', e, h', trivial, keeps_setBit s a c⟩

/-! ### Conversions -/

theorem sim_bitConv (A : Arith) {t : ETy} {x : Res w} {v : Val} {s : State} (hb : t.isBit = true) (h : Rel t x v s) :
    Sim T s ((bitConv t).apply A x) v.value (Rel bitTy) := by
  cases t with
  | arith a => cases hb
  | void => cases hb
  | val c l =>
    cases l with
    | true =>
      obtain ⟨k, rfl, rfl, hk⟩ := h
      refine Sim.bind (sim_getObj hk) ?_
      rintro v b s' _ ⟨hv, _⟩
      exact Sim.pure ⟨b, by rw [← hv], rfl⟩
    | false =>
      obtain ⟨b, rfl, rfl⟩ := h
      exact Sim.pure ⟨b, rfl, rfl⟩
  | ref c u l =>
    obtain ⟨r, a, rfl, rfl, hr, ha⟩ := h
    show Sim T s (StateT.lift r.toVal >>= fun v => Pure.pure (Res.bit v)) ((Val.ref a).get >>= fun b => Pure.pure (Val.bit b)) _
    have e : (StateT.lift r.toVal : X w BitVal) = StateT.lift r.toBool >>= fun b => Pure.pure ⟨b⟩ := by
      funext o m
      have hv : r.toVal m = match r.toBool m with
          | .ok (b, m') => .ok (⟨b⟩, m')
          | .error e => .error e := by
        show (StateT.bind r.toBool (fun b => Pure.pure (⟨b⟩ : BitVal))) m = _
        unfold StateT.bind
        cases r.toBool m <;> rfl
      rw [bind_run, lift_run, lift_run, hv]
      cases r.toBool m <;> rfl
    rw [e, bind_assoc]
    refine Sim.bind (sim_refRead hr ha) ?_
    rintro x b s' _ ⟨rfl, _⟩
    exact Sim.pure ⟨x, rfl, rfl⟩

theorem sim_asBool {t : ETy} {x : Res w} {v : Val} {s : State} (hb : t.isVoid = false) (h : Rel t x v s) :
    Sim T s (asBool x) v.get (fun a b _ => a = b) := by
  cases t with
  | arith a =>
    obtain ⟨n, rfl, rfl⟩ := h
    refine Sim.pure ?_
    unfold truthOf
    by_cases hn : n = 0 <;> simp [hn]
  | void => cases hb
  | val c l =>
    cases l with
    | true =>
      obtain ⟨k, rfl, rfl, hk⟩ := h
      have := Sim.bind (T := T) (f := fun v : BitVal => (Pure.pure v.toBool : X w Bool)) (g := fun b => Pure.pure b) (R' := fun a b _ => a = b)
        (sim_getObj (w := w) hk) (by
          rintro v b s' _ ⟨hv, _⟩
          exact Sim.pure hv)
      rw [bind_pure] at this
      exact this
    | false =>
      obtain ⟨b, rfl, rfl⟩ := h
      exact Sim.pure rfl
  | ref c u l =>
    obtain ⟨r, a, rfl, rfl, hr, ha⟩ := h
    exact (sim_refRead hr ha).mono fun _ _ _ h => h.1

theorem sim_this (A : Arith) {t : ETy} {x : Res w} {v : Val} {s : State} (hb : t.isBit = true) (h : Rel t x v s) :
    Sim T s ((thisConv t).apply A x) v.place (Rel t.named) := by
  cases t with
  | arith a => cases hb
  | void => cases hb
  | val c l =>
    cases l with
    | true =>
      obtain ⟨k, rfl, rfl, hk⟩ := h
      exact Sim.pure ⟨k, rfl, rfl, hk⟩
    | false =>
      obtain ⟨b, rfl, rfl⟩ := h
      intro o m hs
      refine ⟨.obj o.length, o ++ [⟨b⟩], m, rfl, ⟨hs.bits, ?_⟩, ?_, ⟨fun _ x => x, ?_⟩⟩
      · show _ = s.objs ++ [b]
        rw [List.map_append, hs.objs]
        rfl
      · refine ⟨o.length, rfl, ?_, ?_⟩
        · have := congrArg List.length hs.objs
          rw [List.length_map] at this
          rw [this]
        · have := congrArg List.length hs.objs
          rw [List.length_map] at this
          show o.length < (s.objs ++ [b]).length
          rw [List.length_append]
          simp
          omega
      · show s.objs.length ≤ (s.objs ++ [b]).length
        rw [List.length_append]
        omega
  | ref c u l =>
    obtain ⟨r, a, rfl, rfl, hr, ha⟩ := h
    exact Sim.pure ⟨r, a, rfl, rfl, hr, ha⟩

theorem sim_none (A : Arith) {t : ETy} {x : Res w} {v : Val} {s : State} (h : Rel t x v s) :
    Sim T s (Conv.none.apply A x) (Pure.pure v) (Rel t) := by
  have : Conv.none.apply A x = Pure.pure x := by cases x <;> rfl
  rw [this]
  exact Sim.pure h

theorem lift_bind (p : M w α) (f : α → M w β) :
    (StateT.lift (p >>= f) : X w β) = (StateT.lift p : X w α) >>= fun a => StateT.lift (f a) := by
  funext o m
  rw [bind_run, lift_run, lift_run]
  have : (p >>= f) m = match p m with
      | .ok (a, m') => f a m'
      | .error e => .error e := by
    show (StateT.bind p f) m = _
    unfold StateT.bind
    cases p m <;> rfl
  rw [this]
  cases p m with
  | error e => rfl
  | ok x => simp only [lift_run]

/-- A step of the meaning that only reads. -/
theorem Sim.step {s : State} {p : X w α} {q : Comp β} {g : β → Comp γ} {R : α → γ → State → Prop} {b : β} (h : q s = some (b, s))
    (k : Sim T s p (g b) R) : Sim T s p (q >>= g) R := by
  have : (q >>= g) s = g b s := by
    show (q s).bind (fun x => g x.1 x.2) = _
    rw [h]
    rfl
  intro o m hs
  rw [this]
  exact k o m hs

/-- A bit that exists is read. -/
theorem rel_get {t : ETy} {x : Res w} {v : Val} {s : State} (hb : t.isBit = true) (h : Rel t x v s) : ∃ b, v.get s = some (b, s) := by
  cases t with
  | arith a => cases hb
  | void => cases hb
  | val c l =>
    cases l with
    | true =>
      obtain ⟨k, rfl, rfl, hk⟩ := h
      exact ⟨_, get_obj hk⟩
    | false =>
      obtain ⟨b, rfl, rfl⟩ := h
      exact ⟨b, rfl⟩
  | ref c u l =>
    obtain ⟨r, a, rfl, rfl, hr, ha⟩ := h
    obtain ⟨b, hb⟩ := Option.isSome_iff_exists.1 ha
    exact ⟨b, get_ref hb⟩

/-! ### Calls -/

theorem sim_friend (A : Arith) (S : ∀ k, ShiftSem k) (o : BOp) {x y : Res w} {v u : Val} {s : State} (hx : Rel bitTy x v s) (hy : Rel bitTy y u s) :
    Sim T s (run2 A S (.friendOp o) x y) (binVal A o v u) (Rel (opTy o)) := by
  obtain ⟨b, rfl, rfl⟩ := hx
  obtain ⟨c, rfl, rfl⟩ := hy
  show Sim T s (Pure.pure (friendRun ⟨b⟩ ⟨c⟩ o)) _ _
  cases o with
  | cmp k => exact Sim.pure (b := ofTruth (cmpBits k b c)) (by cases k <;> cases b <;> cases c <;> exact ⟨_, rfl, rfl⟩)
  | and => exact Sim.pure (b := Val.bit (b && c)) (by cases b <;> cases c <;> exact ⟨_, rfl, rfl⟩)
  | or => exact Sim.pure (b := Val.bit (b || c)) (by cases b <;> cases c <;> exact ⟨_, rfl, rfl⟩)
  | xor => exact Sim.pure (b := Val.bit (b != c)) (by cases b <;> cases c <;> exact ⟨_, rfl, rfl⟩)

/-- The right operand of an assignment as a `bit_value`. -/
theorem sim_asVal {c l : Bool} {x : Res w} {v : Val} {s : State} (h : Rel (.val c l) x v s) :
    Sim T s (asVal x) v.get (fun a b s' => a.value = b ∧ s' = s) := by
  cases l with
  | true =>
    obtain ⟨k, rfl, rfl, hk⟩ := h
    exact sim_getObj hk
  | false =>
    obtain ⟨b, rfl, rfl⟩ := h
    exact Sim.pure ⟨rfl, rfl⟩

theorem sim_this_pure {s : State} {r : BitRef w} {a : Int} {u : Bool} (hr : r.At a) (ha : (s.bits a).isSome) :
    Sim T s (Pure.pure (Res.ref r) : X w (Res w)) (Pure.pure (Val.ref a)) (Rel (.ref false u true)) :=
  Sim.pure ⟨r, a, rfl, rfl, hr, ha⟩

/-- A reference is assigned a bit. -/
theorem sim_putRef {s : State} {r : BitRef w} {a : Int} {b c : Bool} {u : Bool} (hr : r.At a) (hb : s.bits a = some b) (op : RefOp w) (hc : op.spec b = c) :
    Sim T s (StateT.lift (op.run r) >>= fun _ => (Pure.pure (Res.ref r) : X w (Res w))) ((Val.ref a).put c >>= fun _ => Pure.pure (Val.ref a))
      (Rel (.ref false u true)) := by
  refine Sim.bind (sim_update hr hb op hc) ?_
  intro _ _ s' hk _
  refine Sim.pure ⟨r, a, rfl, rfl, hr, hk.bits a ?_⟩
  rw [hb]
  rfl

theorem sim_putVal {s : State} {k : Nat} {v : BitVal} {b : Bool} (hk : k < s.objs.length) (hv : v.value = b) :
    Sim (w := w) T s (putObj k v >>= fun _ => (Pure.pure (Res.obj k) : X w (Res w))) ((Val.obj k).put b >>= fun _ => Pure.pure (Val.obj k))
      (Rel (.val false true)) := by
  refine Sim.bind (sim_putObj hv) ?_
  intro _ _ s' kp _
  exact Sim.pure ⟨k, rfl, rfl, Nat.lt_of_lt_of_le hk kp.objs⟩

/-- What an assignment means once its operands are evaluated. -/
def asgVal (o : AOp) (p v : Val) : Comp Val := do
  let b ← v.get
  let a ← p.get
  p.put (o.apply a b)
  pure p

theorem sim_assignRef (A : Arith) (S : ∀ k, ShiftSem k) {f : Fn} (hf : f = .refAssignSame ∨ f = .refAssignAny) {c u l d u' l' : Bool} {x y : Res w} {p v : Val} {s : State}
    (hx : Rel (.ref c u l) x p s) (hy : Rel (.ref d u' l') y v s) :
    Sim T s (run2 A S f x y) (asgVal .set p v) (Rel (.ref false u true)) := by
  obtain ⟨r, a, rfl, rfl, hr, ha⟩ := hx
  obtain ⟨r', a', rfl, rfl, hr', ha'⟩ := hy
  have e : run2 A S f (.ref r) (.ref r') = (StateT.lift (r.assignRef r') >>= fun _ => (Pure.pure (Res.ref r) : X w (Res w))) := by
    rcases hf with rfl | rfl <;> rfl
  rw [e, show r.assignRef r' = (r'.toBool >>= fun b => if b then r.set else r.reset) from rfl, lift_bind, bind_assoc]
  refine Sim.bind (sim_refRead hr' ha') ?_
  rintro b b' s' kp ⟨rfl, rfl⟩
  obtain ⟨b0, hb0⟩ := Option.isSome_iff_exists.1 ha
  refine Sim.step (get_ref hb0) ?_
  exact sim_putRef hr hb0 (.setTo b) rfl

theorem sim_assignVal (A : Arith) (S : ∀ k, ShiftSem k) {c u l d l' : Bool} {x y : Res w} {p v : Val} {s : State}
    (hx : Rel (.ref c u l) x p s) (hy : Rel (.val d l') y v s) :
    Sim T s (run2 A S .refAssignVal x y) (asgVal .set p v) (Rel (.ref false u true)) := by
  obtain ⟨r, a, rfl, rfl, hr, ha⟩ := hx
  have e : run2 A S .refAssignVal (.ref r) y = (asVal y >>= fun b => StateT.lift (r.assignVal b) >>= fun _ => (Pure.pure (Res.ref r) : X w (Res w))) := by
    cases y <;> rfl
  rw [e]
  refine Sim.bind (sim_asVal hy) ?_
  rintro b b' s' kp ⟨rfl, rfl⟩
  obtain ⟨b0, hb0⟩ := Option.isSome_iff_exists.1 ha
  refine Sim.step (get_ref hb0) ?_
  exact sim_putRef hr hb0 (.assignVal b) rfl

theorem sim_opAssignRef (A : Arith) (S : ∀ k, ShiftSem k) (o : AOp) {c u l : Bool} {x y : Res w} {p v : Val} {s : State}
    (hx : Rel (.ref c u l) x p s) (hy : Rel bitTy y v s) :
    Sim T s (run2 A S (.refOpAssign o) x y) (asgVal o p v) (Rel (.ref false u true)) := by
  obtain ⟨r, a, rfl, rfl, hr, ha⟩ := hx
  obtain ⟨b, rfl, rfl⟩ := hy
  obtain ⟨b0, hb0⟩ := Option.isSome_iff_exists.1 ha
  show Sim T s (StateT.lift (refOp r ⟨b⟩ o) >>= fun _ => (Pure.pure (Res.ref r) : X w (Res w))) _ _
  refine Sim.step (b := b) rfl (Sim.step (get_ref hb0) ?_)
  cases o with
  | set => exact sim_putRef hr hb0 (.assignVal ⟨b⟩) rfl
  | and => exact sim_putRef hr hb0 (.andAssign ⟨b⟩) rfl
  | or => exact sim_putRef hr hb0 (.orAssign ⟨b⟩) rfl
  | xor => exact sim_putRef hr hb0 (.xorAssign ⟨b⟩) (by cases b0 <;> cases b <;> rfl)

theorem sim_assignCopy (A : Arith) (S : ∀ k, ShiftSem k) {f : Fn} (hf : f = .valAssignCopy ∨ f = .valAssignMove) {c d l' : Bool} {x y : Res w} {p v : Val} {s : State}
    (hx : Rel (.val c true) x p s) (hy : Rel (.val d l') y v s) :
    Sim T s (run2 A S f x y) (asgVal .set p v) (Rel (.val false true)) := by
  obtain ⟨k, rfl, rfl, hk⟩ := hx
  have e : run2 A S f (.obj k) y = (asVal y >>= fun b => putObj k b >>= fun _ => (Pure.pure (Res.obj k) : X w (Res w))) := by
    rcases hf with rfl | rfl <;> cases y <;> rfl
  rw [e]
  refine Sim.bind (sim_asVal hy) ?_
  rintro b b' s' kp ⟨rfl, rfl⟩
  refine Sim.step (get_obj hk) ?_
  exact sim_putVal hk rfl

theorem sim_valAssignRef (A : Arith) (S : ∀ k, ShiftSem k) {c d u l' : Bool} {x y : Res w} {p v : Val} {s : State}
    (hx : Rel (.val c true) x p s) (hy : Rel (.ref d u l') y v s) :
    Sim T s (run2 A S .valAssignRef x y) (asgVal .set p v) (Rel (.val false true)) := by
  obtain ⟨k, rfl, rfl, hk⟩ := hx
  obtain ⟨r, a, rfl, rfl, hr, ha⟩ := hy
  show Sim T s (StateT.lift r.toBool >>= fun b => putObj k ⟨b⟩ >>= fun _ => (Pure.pure (Res.obj k) : X w (Res w))) _ _
  refine Sim.bind (sim_refRead hr ha) ?_
  rintro b b' s' kp ⟨rfl, rfl⟩
  refine Sim.step (get_obj hk) ?_
  exact sim_putVal hk rfl

theorem sim_opAssignVal (A : Arith) (S : ∀ k, ShiftSem k) (o : AOp) {c : Bool} {x y : Res w} {p v : Val} {s : State}
    (hx : Rel (.val c true) x p s) (hy : Rel bitTy y v s) :
    Sim T s (run2 A S (.valOpAssign o) x y) (asgVal o p v) (Rel (.val false true)) := by
  obtain ⟨k, rfl, rfl, hk⟩ := hx
  obtain ⟨b, rfl, rfl⟩ := hy
  refine Sim.step (b := b) rfl ?_
  show Sim T s (getObj k >>= fun a => putObj k (valOp a ⟨b⟩ o) >>= fun _ => (Pure.pure (Res.obj k) : X w (Res w))) _ _
  refine Sim.bind (sim_getObj hk) ?_
  rintro a b' s' kp ⟨rfl, rfl⟩
  refine sim_putVal hk ?_
  obtain ⟨a⟩ := a
  cases o <;> cases a <;> cases b <;> rfl

/-- What a change that takes the new bit from the old one means. -/
def updVal (g : Bool → Bool) (p : Val) : Comp Val := do
  let a ← p.get
  p.put (g a)
  pure p

theorem sim_updRef {s : State} {c u l : Bool} {r : BitRef w} {p : Val} (hx : Rel (.ref c u l) (.ref r) p s) (op : RefOp w) {g : Bool → Bool} (hg : ∀ b, op.spec b = g b) :
    Sim T s (StateT.lift (op.run r) >>= fun _ => (Pure.pure (Res.ref r) : X w (Res w))) (updVal g p) (Rel (.ref false u true)) := by
  obtain ⟨r', a, h, rfl, hr, ha⟩ := hx
  cases h
  obtain ⟨b0, hb0⟩ := Option.isSome_iff_exists.1 ha
  refine Sim.step (get_ref hb0) ?_
  exact sim_putRef hr hb0 op (hg b0)

theorem sim_updVal {s : State} {c : Bool} {k : Nat} {p : Val} (hx : Rel (w := w) (.val c true) (.obj k) p s) {f : BitVal → BitVal} {g : Bool → Bool}
    (hg : ∀ b, (f ⟨b⟩).value = g b) :
    Sim T s (getObj k >>= fun a => putObj k (f a) >>= fun _ => (Pure.pure (Res.obj k) : X w (Res w))) (updVal g p) (Rel (.val false true)) := by
  obtain ⟨k', h, rfl, hk⟩ := hx
  cases h
  refine Sim.bind (sim_getObj hk) ?_
  rintro a b' s' kp ⟨rfl, rfl⟩
  exact sim_putVal hk (hg a.value)

end BitLib.Expr
