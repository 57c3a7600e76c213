import Verif.SpecClient
import Verif.Props.Refs
import Verif.Props.Iterators
import Verif.Props.IterOps
/- Lemmas for the theorems about programs that use bit iterators: the operations of the library follow those on a tape. -/
namespace BitLib
variable {w : Nat}

/-- The relation between memory and tape during a run. `F` holds if the tape is the whole memory. -/
def TapeRel (F : Prop) (o : Int) (m : Mem w) (t : Tape) : Prop := TapeIn o m t ∧ (F → TapeIs o m t)

/-- Nothing changes outside the tape, and the tape keeps its positions. -/
def TapeStep (o : Int) (m m' : Mem w) (t t' : Tape) : Prop :=
  (∀ p, t p = none → bitAt m' (o + p) = bitAt m (o + p)) ∧ ∀ p, (t' p).isSome = (t p).isSome

theorem TapeStep.refl (o : Int) (m : Mem w) (t : Tape) : TapeStep o m m t t := ⟨fun _ _ => rfl, fun _ => rfl⟩

theorem TapeStep.trans {o : Int} {m m' m'' : Mem w} {t t' t'' : Tape} (h : TapeStep o m m' t t') (h' : TapeStep o m' m'' t' t'') :
    TapeStep o m m'' t t'' := by
  refine ⟨fun p hp => ?_, fun p => (h'.2 p).trans (h.2 p)⟩
  rw [h'.1 p ?_, h.1 p hp]
  have := h.2 p
  rw [hp] at this
  simpa using this

/-- The computation `x` on the library follows `y` on the tape. -/
def Sim {α β : Type} (F : Prop) (o : Int) (R : α → β → Prop) (x : M w α) (y : TapeM β) : Prop :=
  ∀ m t, TapeRel F o m t →
    match y t with
    | .ok (b, t') => ∃ a m', x m = .ok (a, m') ∧ R a b ∧ TapeRel F o m' t' ∧ TapeStep o m m' t t'
    | .error e => F → x m = .error e

section
variable {α β α' β' : Type} {F : Prop} {o : Int}

theorem Sim.pure {R : α → β → Prop} {a : α} {b : β} (h : R a b) : Sim F o R (pure a : M w α) (pure b) :=
  fun m t ht => ⟨a, m, rfl, h, ht, TapeStep.refl o m t⟩

theorem Sim.error {R : α → β → Prop} (e : UB) : Sim F o R (ub e : M w α) (fun _ => .error e) := fun _ _ _ _ => rfl

theorem Sim.bind {R : α → β → Prop} {R' : α' → β' → Prop} {x : M w α} {y : TapeM β} {f : α → M w α'} {g : β → TapeM β'}
    (h : Sim F o R x y) (hf : ∀ a b, R a b → Sim F o R' (f a) (g b)) : Sim F o R' (x >>= f) (y >>= g) := by
  intro m t ht
  have h1 := h m t ht
  change match (y t >>= fun p => g p.1 p.2) with
    | .ok (b, t') => ∃ a m', (x m >>= fun p => f p.1 p.2) = .ok (a, m') ∧ R' a b ∧ TapeRel F o m' t' ∧ TapeStep o m m' t t'
    | .error e => F → (x m >>= fun p => f p.1 p.2) = .error e
  cases hy : y t with
  | error e =>
    rw [hy] at h1
    intro hF
    show (x m >>= fun p => f p.1 p.2) = .error e
    rw [h1 hF]; rfl
  | ok p =>
    obtain ⟨b, t1⟩ := p
    rw [hy] at h1
    obtain ⟨a, m1, hx, hR, ht1, hs⟩ := h1
    rw [hx]
    have h2 := hf a b hR m1 t1 ht1
    change match g b t1 with
      | .ok (b, t') => ∃ a', ∃ m', f a m1 = .ok (a', m') ∧ R' a' b ∧ TapeRel F o m' t' ∧ TapeStep o m m' t t'
      | .error e => F → f a m1 = .error e
    cases hg : g b t1 with
    | error e => rw [hg] at h2; exact h2
    | ok q =>
      obtain ⟨b', t'⟩ := q
      rw [hg] at h2
      obtain ⟨a', m', h3, h4, h5, h6⟩ := h2
      exact ⟨a', m', h3, h4, h5, hs.trans h6⟩

theorem Sim.lift {R : α → β → Prop} {e : Except UB α} {b : β} (h : ∃ a, e = .ok a ∧ R a b) : Sim F o R (lift e : M w α) (Pure.pure b) := by
  obtain ⟨a, rfl, hR⟩ := h
  exact Sim.pure hR

theorem Sim.use {A : Type} {B : Type} {RA : A → B → Prop} {R : α → β → Prop} {x : Option A} {y : Option B} (h : SameSlot RA x y)
    {f : A → M w α} {g : B → TapeM β} (hf : ∀ a b, RA a b → Sim F o R (f a) (g b)) :
    Sim F o R (useSlot (ub .badRange) x f) (useSlot (fun _ => .error .badRange) y g) := by
  rcases h with ⟨rfl, rfl⟩ | ⟨a, b, rfl, rfl, hR⟩
  · exact Sim.error _
  · exact hf a b hR

end

/-! ### The operations of references -/

theorem BitRef.At.unmapped {r : BitRef w} {a : Int} {m : Mem w} (hr : r.At a) (h : bitAt m a = none) : m r.ptr = none := by
  obtain ⟨p, hp, _, rfl⟩ := hr
  unfold bitAt at h
  rw [Option.map_eq_none_iff] at h
  rwa [ediv_of_word r.ptr p hp] at h

def Upd.refOp : Upd → RefOp w
  | .set => .set
  | .reset => .reset
  | .flip => .flip
  | .setTo b => .setTo b
  | .assign b => .assignVal ⟨b⟩
  | .and b => .andAssign ⟨b⟩
  | .or b => .orAssign ⟨b⟩
  | .xor b => .xorAssign ⟨b⟩

theorem Upd.run_eq (u : Upd) (r : BitRef w) : r.upd u = (u.refOp).run r := by cases u <;> rfl

theorem Upd.on_eq (u : Upd) (b : Bool) : u.on b = (u.refOp : RefOp w).spec b := by cases u <;> rfl

/-- One bit of the memory and the same bit of the tape change. -/
theorem tape_oneBit {F : Prop} {o : Int} {m m' : Mem w} {t : Tape} {p : Int} {b c : Bool} (ht : TapeRel F o m t) (hp : t p = some b)
    (h : OneBit m m' (o + p) c) :
    TapeRel F o m' (fun i => if i = p then some c else t i) ∧ TapeStep o m m' t (fun i => if i = p then some c else t i) := by
  have e : ∀ q, (o + q = o + p) ↔ q = p := fun q => by omega
  refine ⟨⟨fun q x hq => ?_, fun hF q => ?_⟩, fun q hq => ?_, fun q => ?_⟩
  · rw [h (o + q)]
    dsimp only at hq
    by_cases hqp : q = p
    · rw [if_pos hqp] at hq; rw [if_pos ((e q).2 hqp)]; exact hq
    · rw [if_neg hqp] at hq; rw [if_neg (fun hh => hqp ((e q).1 hh))]; exact ht.1 q x hq
  · rw [h (o + q)]
    dsimp only
    by_cases hqp : q = p
    · rw [if_pos hqp, if_pos ((e q).2 hqp)]
    · rw [if_neg hqp, if_neg (fun hh => hqp ((e q).1 hh))]; exact ht.2 hF q
  · rw [h (o + q), if_neg]
    intro hh
    rw [(e q).1 hh, hp] at hq
    exact absurd hq (by simp)
  · dsimp only
    by_cases hqp : q = p
    · rw [if_pos hqp, hqp, hp]; rfl
    · rw [if_neg hqp]

theorem Tape.get_some {p : Int} {t : Tape} {b : Bool} (h : t p = some b) : Tape.get p t = .ok (b, t) := by unfold Tape.get; rw [h]
theorem Tape.get_none {p : Int} {t : Tape} (h : t p = none) : Tape.get p t = .error .outOfBounds := by unfold Tape.get; rw [h]
theorem Tape.put_some {p : Int} {t : Tape} {b c : Bool} (h : t p = some b) : Tape.put p c t = .ok ((), fun i => if i = p then some c else t i) := by
  unfold Tape.put; rw [h]
theorem Tape.put_none {p : Int} {t : Tape} {c : Bool} (h : t p = none) : Tape.put p c t = .error .outOfBounds := by unfold Tape.put; rw [h]

theorem TapeM.bind_ok {α β : Type} {x : TapeM α} {f : α → TapeM β} {t t' : Tape} {a : α} (h : x t = .ok (a, t')) : (x >>= f) t = f a t' := by
  show (x t >>= fun p => f p.1 p.2) = _
  rw [h]; rfl
theorem TapeM.bind_error {α β : Type} {x : TapeM α} {f : α → TapeM β} {t : Tape} {e : UB} (h : x t = .error e) : (x >>= f) t = .error e := by
  show (x t >>= fun p => f p.1 p.2) = _
  rw [h]; rfl

section
variable {F : Prop} {o : Int}

theorem unmapped_of_none {m : Mem w} {t : Tape} {r : BitRef w} {p : Int} (ht : TapeRel F o m t) (hF : F) (hr : r.At (o + p)) (h : t p = none) :
    m r.ptr = none := hr.unmapped (by rw [← ht.2 hF p]; exact h)

theorem sim_read {r : BitRef w} {p : Int} (hr : r.At (o + p)) : Sim F o Eq r.toBool (Tape.get p) := by
  intro m t ht
  cases hp : t p with
  | none =>
    rw [Tape.get_none hp]
    exact fun hF => (C03_unmapped m r .set (unmapped_of_none ht hF hr hp)).1
  | some b =>
    rw [Tape.get_some hp]
    exact ⟨b, m, C03_read m r _ b hr (ht.1 p b hp), rfl, ht, TapeStep.refl o m t⟩

theorem sim_upd (u : Upd) {r : BitRef w} {p : Int} (hr : r.At (o + p)) :
    Sim F o Eq (r.upd u) (Tape.get p >>= fun b => Tape.put p (u.on b)) := by
  intro m t ht
  rw [Upd.run_eq]
  cases hp : t p with
  | none =>
    rw [TapeM.bind_error (Tape.get_none hp)]
    exact fun hF => (C03_unmapped m r _ (unmapped_of_none ht hF hr hp)).2
  | some b =>
    rw [TapeM.bind_ok (Tape.get_some hp), Tape.put_some hp]
    obtain ⟨m', h1, h2, _⟩ := C03_write m r (o + p) b u.refOp hr (ht.1 p b hp)
    rw [← Upd.on_eq] at h2
    exact ⟨(), m', h1, rfl, tape_oneBit ht hp h2⟩

theorem sim_assign {r s : BitRef w} {p q : Int} (hr : r.At (o + p)) (hs : s.At (o + q)) :
    Sim F o Eq (r.assignRef s) (Tape.get q >>= fun b => Tape.put p b) := by
  unfold BitRef.assignRef
  refine Sim.bind (sim_read hs) ?_
  rintro b _ rfl
  intro m t ht
  have := sim_upd (F := F) (.setTo b) hr m t ht
  cases hp : t p with
  | none =>
    rw [TapeM.bind_error (Tape.get_none hp)] at this
    rw [Tape.put_none hp]
    exact this
  | some x =>
    rw [TapeM.bind_ok (Tape.get_some hp)] at this
    exact this

theorem toVal_run (r : BitRef w) (m : Mem w) : r.toVal m = (r.toBool m).map fun x => (⟨x.1⟩, x.2) := by
  unfold BitRef.toVal
  show (r.toBool m >>= fun p => (pure (⟨p.1⟩ : BitVal) : M w BitVal) p.2) = _
  cases r.toBool m <;> rfl

theorem M.bind_error' {α β : Type} {x : M w α} {f : α → M w β} {m : Mem w} {e : UB} (h : x m = .error e) : (x >>= f) m = .error e := by
  show (x m >>= fun p => f p.1 p.2) = _
  rw [h]; rfl
theorem M.bind_ok' {α β : Type} {x : M w α} {f : α → M w β} {m m' : Mem w} {a : α} (h : x m = .ok (a, m')) : (x >>= f) m = f a m' := by
  show (x m >>= fun p => f p.1 p.2) = _
  rw [h]; rfl

theorem toVal_none {r : BitRef w} {m : Mem w} (h : m r.ptr = none) : r.toVal m = .error .outOfBounds := by
  rw [toVal_run, (C03_unmapped m r .set h).1]; rfl

theorem sim_swap {r s : BitRef w} {p q : Int} (hr : r.At (o + p)) (hs : s.At (o + q)) :
    Sim F o Eq (BitRef.swap r s) (idealIface.refSwap p q) := by
  intro m t ht
  rw [show idealIface.refSwap p q = (Tape.get p >>= fun a => Tape.get q >>= fun b => Tape.put q a >>= fun _ => Tape.put p b) from rfl]
  cases hp : t p with
  | none =>
    rw [TapeM.bind_error (Tape.get_none hp)]
    intro hF
    unfold BitRef.swap
    exact M.bind_error' (toVal_none (unmapped_of_none ht hF hr hp))
  | some a =>
    rw [TapeM.bind_ok (Tape.get_some hp)]
    cases hq : t q with
    | none =>
      rw [TapeM.bind_error (Tape.get_none hq)]
      intro hF
      unfold BitRef.swap
      rw [M.bind_ok' (C54_of_ref m r _ a hr (ht.1 p a hp))]
      exact M.bind_error' (toVal_none (unmapped_of_none ht hF hs hq))
    | some b =>
      rw [TapeM.bind_ok (Tape.get_some hq), TapeM.bind_ok (Tape.put_some hq)]
      have hp' : (fun i => if i = q then some a else t i) p = some a := by
        by_cases e : p = q
        · exact if_pos e
        · exact (if_neg e).trans hp
      rw [Tape.put_some hp']
      obtain ⟨m', h1, h2⟩ := C04_swap m r s _ _ a b hr hs (ht.1 p a hp) (ht.1 q b hq)
      have ep : ∀ i, (o + i = o + p) ↔ i = p := fun i => by omega
      have eq' : ∀ i, (o + i = o + q) ↔ i = q := fun i => by omega
      refine ⟨(), m', h1, rfl, ⟨fun i x hi => ?_, fun hF i => ?_⟩, fun i hi => ?_, fun i => ?_⟩
      · rw [h2 (o + i)]
        simp only [ep, eq']
        dsimp only at hi
        by_cases e1 : i = p
        · rw [if_pos e1] at hi ⊢; exact hi
        · rw [if_neg e1] at hi ⊢
          by_cases e2 : i = q
          · rw [if_pos e2] at hi ⊢; exact hi
          · rw [if_neg e2] at hi ⊢; exact ht.1 i x hi
      · rw [h2 (o + i)]
        simp only [ep, eq']
        rw [ht.2 hF i]
      · rw [h2 (o + i)]
        simp only [ep, eq']
        rw [if_neg, if_neg]
        · rintro rfl; rw [hq] at hi; exact absurd hi (by simp)
        · rintro rfl; rw [hp] at hi; exact absurd hi (by simp)
      · dsimp only
        by_cases e1 : i = p
        · rw [if_pos e1, e1, hp]; rfl
        · rw [if_neg e1]
          by_cases e2 : i = q
          · rw [if_pos e2, e2, hq]; rfl
          · rw [if_neg e2]

theorem sim_swapVal {r : BitRef w} {p : Int} (hr : r.At (o + p)) (x : Bool) (S : ShiftSem w) (bi : Bool) :
    Sim F o Eq ((codeIface S bi).refSwapVal r x) (idealIface.refSwapVal p x) := by
  intro m t ht
  rw [show idealIface.refSwapVal p x = (Tape.get p >>= fun a => Tape.put p x >>= fun _ => pure a) from rfl]
  cases hp : t p with
  | none =>
    rw [TapeM.bind_error (Tape.get_none hp)]
    intro hF
    refine M.bind_error' ?_
    unfold BitRef.swapVal
    exact M.bind_error' (toVal_none (unmapped_of_none ht hF hr hp))
  | some a =>
    rw [TapeM.bind_ok (Tape.get_some hp), TapeM.bind_ok (Tape.put_some hp)]
    obtain ⟨m', h1, h2⟩ := C04_swap_value m r _ a ⟨x⟩ hr (ht.1 p a hp)
    exact ⟨a, m', M.bind_ok' h1, rfl, tape_oneBit ht hp h2⟩

theorem sim_distance {a b : BitIter w} {p q : Int} (ha : a.Valid ∧ a.addr = o + p) (hb : b.Valid ∧ b.addr = o + q) :
    Sim F o Eq (distance a b) (idealIface.itDistance p q) := by
  intro m t ht
  rw [show idealIface.itDistance p q = (if p ≤ q then pure (q - p) else fun _ => Except.error UB.assertFail : TapeM Int) from rfl]
  by_cases h : p ≤ q
  · rw [if_pos h]
    refine ⟨q - p, m, ?_, rfl, ht, TapeStep.refl o m t⟩
    rw [(C01_distance_increments a b ha.1 hb.1 (by rw [ha.2, hb.2]; omega) m).1, ha.2, hb.2]
    congr 2; omega
  · rw [if_neg h]
    exact fun _ => C01_distance_assert a b (by rw [ha.2, hb.2]; omega) m

end

theorem iter_cmp {a b : BitIter w} {o p q : Int} (ha : a.Valid ∧ a.addr = o + p) (hb : b.Valid ∧ b.addr = o + q) (c : Cmp) : a.cmp b c = c.on p q := by
  have h := C02_iterator_order a b ha.1 hb.1
  rw [ha.2, hb.2] at h
  rw [Bool.eq_iff_iff]
  cases c <;> simp only [BitIter.cmp, Cmp.on, decide_eq_true_eq]
  · rw [h.1]; omega
  · rw [h.2.1]; omega
  · rw [h.2.2.1]; omega
  · rw [h.2.2.2.1]; omega
  · rw [h.2.2.2.2.1]; omega
  · rw [h.2.2.2.2.2]; omega

theorem ptr_cmp {a b : BitPtr w} {o p q : Int} (bi : Bool) (ha : a.At (o + p)) (hb : b.At (o + q)) (c : Cmp) :
    BitPtr.cmp bi a b c = .ok (c.on p q) := by
  obtain ⟨_, h1, h2, h3, h4, h5, h6⟩ := C05_diff_compare bi a b _ _ ha hb
  cases c <;> simp only [BitPtr.cmp, Cmp.on]
  · rw [h1]; congr 1; rw [decide_eq_decide]; omega
  · rw [h2]; congr 1; rw [decide_eq_decide]; omega
  · rw [h3]; congr 1; rw [decide_eq_decide]; omega
  · rw [h4]; congr 1; rw [decide_eq_decide]; omega
  · rw [h5]; congr 1; rw [decide_eq_decide]; omega
  · rw [h6]; congr 1; rw [decide_eq_decide]; omega

theorem SameSlot.put {α β : Type} {R : α → β → Prop} {f : Nat → Option α} {g : Nat → Option β} (h : ∀ k, SameSlot R (f k) (g k)) (d : Nat) {a : α} {b : β}
    (hab : R a b) (k : Nat) : SameSlot R (putSlot f d a k) (putSlot g d b k) := by
  unfold putSlot
  by_cases e : k = d
  · rw [if_pos e, if_pos e]; exact .inr ⟨a, b, rfl, rfl, hab⟩
  · rw [if_neg e, if_neg e]; exact h k

theorem SlotsAt.putIt {o : Int} {s : Slots (BitIter w) (BitRef w) (BitPtr w)} {t : Slots Int Int Int} (h : SlotsAt o s t) (d : Nat) {a : BitIter w} {p : Int}
    (ha : a.Valid ∧ a.addr = o + p) : SlotsAt o (s.putIt d a) (t.putIt d p) :=
  ⟨SameSlot.put h.it d ha, h.ref, h.ptr⟩
theorem SlotsAt.putRef {o : Int} {s : Slots (BitIter w) (BitRef w) (BitPtr w)} {t : Slots Int Int Int} (h : SlotsAt o s t) (d : Nat) {a : BitRef w} {p : Int}
    (ha : a.At (o + p)) : SlotsAt o (s.putRef d a) (t.putRef d p) :=
  ⟨h.it, SameSlot.put h.ref d ha, h.ptr⟩
theorem SlotsAt.putPtr {o : Int} {s : Slots (BitIter w) (BitRef w) (BitPtr w)} {t : Slots Int Int Int} (h : SlotsAt o s t) (d : Nat) {a : BitPtr w} {p : Int}
    (ha : a.At (o + p)) : SlotsAt o (s.putPtr d a) (t.putPtr d p) :=
  ⟨h.it, h.ref, SameSlot.put h.ptr d ha⟩

section
variable {F : Prop} {o : Int} (S : ShiftSem w) (bi : Bool)

abbrev AnsRel (o : Int) (x : Slots (BitIter w) (BitRef w) (BitPtr w) × IAns) (y : Slots Int Int Int × IAns) : Prop := SlotsAt o x.1 y.1 ∧ x.2 = y.2

theorem sim_op (op : IOp) {s : Slots (BitIter w) (BitRef w) (BitPtr w)} {t : Slots Int Int Int} (h : SlotsAt o s t) :
    Sim F o (AnsRel o) (op.run (ub .badRange) (codeIface S bi) s) (op.run (fun _ => .error .badRange) idealIface t) := by
  have add1 : ∀ (a : BitIter w) (p n : Int), a.Valid ∧ a.addr = o + p → (a.add n).Valid ∧ (a.add n).addr = o + (p + n) := by
    rintro a p n ⟨h1, h2⟩
    have := C01_iterator_arithmetic a h1 n
    exact ⟨this.1, by rw [this.2.1, h2]; omega⟩
  have sub1 : ∀ (a : BitIter w) (p n : Int), a.Valid ∧ a.addr = o + p → (a.sub n).Valid ∧ (a.sub n).addr = o + (p - n) := by
    rintro a p n ⟨h1, h2⟩
    have := C01_iterator_arithmetic a h1 n
    exact ⟨this.2.2.2.1, by rw [this.2.2.2.2.1, h2]; omega⟩
  have inc1 : ∀ (a : BitIter w) (p : Int), a.Valid ∧ a.addr = o + p → a.inc.Valid ∧ a.inc.addr = o + (p + 1) := by
    rintro a p ha
    rw [(C01_iterator_arithmetic a ha.1 1).2.2.2.2.2.2.2.2.1]
    exact add1 a p 1 ha
  have dec1 : ∀ (a : BitIter w) (p : Int), a.Valid ∧ a.addr = o + p → a.dec.Valid ∧ a.dec.addr = o + (p - 1) := by
    rintro a p ha
    rw [(C01_iterator_arithmetic a ha.1 1).2.2.2.2.2.2.2.2.2]
    exact sub1 a p 1 ha
  have e1 : ∀ p n : Int, o + p + n = o + (p + n) := fun p n => by omega
  have e2 : ∀ p n : Int, o + p - n = o + (p - n) := fun p n => by omega
  cases op with
  | copyIt d i => exact Sim.use (h.it i) fun a p ha => Sim.pure ⟨h.putIt d ha, rfl⟩
  | addIt d i n => exact Sim.use (h.it i) fun a p ha => Sim.bind (Sim.pure (add1 a p n ha)) fun b q hb => Sim.pure ⟨h.putIt d hb, rfl⟩
  | subIt d i n => exact Sim.use (h.it i) fun a p ha => Sim.bind (Sim.pure (sub1 a p n ha)) fun b q hb => Sim.pure ⟨h.putIt d hb, rfl⟩
  | incIt i => exact Sim.use (h.it i) fun a p ha => Sim.bind (Sim.pure (inc1 a p ha)) fun b q hb => Sim.pure ⟨h.putIt i hb, rfl⟩
  | decIt i => exact Sim.use (h.it i) fun a p ha => Sim.bind (Sim.pure (dec1 a p ha)) fun b q hb => Sim.pure ⟨h.putIt i hb, rfl⟩
  | postIncIt d i =>
    refine Sim.use (h.it i) fun a p ha => Sim.bind (R := fun x y => (x.1.Valid ∧ x.1.addr = o + y.1) ∧ (x.2.Valid ∧ x.2.addr = o + y.2))
      (Sim.pure ?_) fun b q hb => Sim.pure ⟨(h.putIt i hb.2).putIt d hb.1, rfl⟩
    have := C70_operators a ha.1 0
    exact ⟨by rw [this.1.1]; exact ha, this.1.2.1, by rw [this.1.2.2, ha.2]; exact e1 p 1⟩
  | postDecIt d i =>
    refine Sim.use (h.it i) fun a p ha => Sim.bind (R := fun x y => (x.1.Valid ∧ x.1.addr = o + y.1) ∧ (x.2.Valid ∧ x.2.addr = o + y.2))
      (Sim.pure ?_) fun b q hb => Sim.pure ⟨(h.putIt i hb.2).putIt d hb.1, rfl⟩
    have := (C70_operators a ha.1 0).2.1
    exact ⟨by rw [this.1]; exact ha, this.2.1, by rw [this.2.2, ha.2]; exact e2 p 1⟩
  | addAssignIt i n =>
    refine Sim.use (h.it i) fun a p ha => Sim.bind (Sim.pure ?_) fun b q hb => Sim.pure ⟨h.putIt i hb, rfl⟩
    have := (C70_operators a ha.1 n).2.2.1
    exact ⟨this.1, by rw [this.2, ha.2]; exact e1 p n⟩
  | subAssignIt i n =>
    refine Sim.use (h.it i) fun a p ha => Sim.bind (Sim.pure ?_) fun b q hb => Sim.pure ⟨h.putIt i hb, rfl⟩
    have := (C70_operators a ha.1 n).2.2.2.1
    exact ⟨this.1, by rw [this.2, ha.2]; exact e2 p n⟩
  | diffIt i j =>
    refine Sim.use (h.it i) fun a p ha => Sim.use (h.it j) fun b q hb => Sim.bind (R := Eq) (Sim.pure ?_) fun x y hx => Sim.pure ⟨h, by rw [hx]⟩
    rw [BitIter.diff_eq, ha.2, hb.2]; omega
  | cmpIt c i j =>
    exact Sim.use (h.it i) fun a p ha => Sim.use (h.it j) fun b q hb => Sim.bind (R := Eq) (Sim.pure (iter_cmp ha hb c)) fun x y hx => Sim.pure ⟨h, by rw [hx]⟩
  | distance i j =>
    exact Sim.use (h.it i) fun a p ha => Sim.use (h.it j) fun b q hb => Sim.bind (R := Eq) (sim_distance ha hb) fun x y hx => Sim.pure ⟨h, by rw [hx]⟩
  | derefIt r i =>
    refine Sim.use (h.it i) fun a p ha => Sim.bind (Sim.lift ?_) fun b q hb => Sim.pure ⟨h.putRef r hb, rfl⟩
    have := (C03_deref S a ha.1 0).1
    rw [ha.2] at this
    exact this
  | indexIt r i n =>
    refine Sim.use (h.it i) fun a p ha => Sim.bind (Sim.lift ?_) fun b q hb => Sim.pure ⟨h.putRef r hb, rfl⟩
    have := (C03_deref S a ha.1 n).2.1
    rw [ha.2, e1] at this
    exact this
  | arrowIt k i =>
    refine Sim.use (h.it i) fun a p ha => Sim.bind (Sim.lift ?_) fun b q hb => Sim.pure ⟨h.putPtr k hb, rfl⟩
    have := (C05_construct S a.base a.pos ha.1).2.2
    have e : (⟨a.base, a.pos⟩ : BitIter w) = a := rfl
    rw [e, ha.2] at this
    exact this
  | copyRef r q => exact Sim.use (h.ref q) fun a p ha => Sim.pure ⟨h.putRef r ha, rfl⟩
  | read r => exact Sim.use (h.ref r) fun a p ha => Sim.bind (R := Eq) (sim_read ha) fun x y hx => Sim.pure ⟨h, by rw [hx]⟩
  | upd u r => exact Sim.use (h.ref r) fun a p ha => Sim.bind (R := Eq) (sim_upd u ha) fun x y hx => Sim.pure ⟨h, rfl⟩
  | assign r q =>
    exact Sim.use (h.ref r) fun a p ha => Sim.use (h.ref q) fun b p' hb => Sim.bind (R := Eq) (sim_assign ha hb) fun x y hx => Sim.pure ⟨h, rfl⟩
  | swap r q =>
    exact Sim.use (h.ref r) fun a p ha => Sim.use (h.ref q) fun b p' hb => Sim.bind (R := Eq) (sim_swap ha hb) fun x y hx => Sim.pure ⟨h, rfl⟩
  | swapVal r x =>
    exact Sim.use (h.ref r) fun a p ha => Sim.bind (R := Eq) (sim_swapVal ha x S bi) fun x y hx => Sim.pure ⟨h, by rw [hx]⟩
  | addressOf k r =>
    refine Sim.use (h.ref r) fun a p ha => Sim.bind (Sim.lift ?_) fun b q hb => Sim.pure ⟨h.putPtr k hb, rfl⟩
    obtain ⟨x, h1, h2, _⟩ := C05_address_of S bi a _ ha
    exact ⟨x, h1, h2⟩
  | copyPtr d i => exact Sim.use (h.ptr i) fun a p ha => Sim.pure ⟨h.putPtr d ha, rfl⟩
  | addPtr d i n =>
    refine Sim.use (h.ptr i) fun a p ha => Sim.bind (Sim.lift ?_) fun b q hb => Sim.pure ⟨h.putPtr d hb, rfl⟩
    have := (C05_add_sub S bi a _ ha n).1
    rw [e1] at this; exact this
  | subPtr d i n =>
    refine Sim.use (h.ptr i) fun a p ha => Sim.bind (Sim.lift ?_) fun b q hb => Sim.pure ⟨h.putPtr d hb, rfl⟩
    have := (C05_add_sub S bi a _ ha n).2.1
    rw [e2] at this; exact this
  | incPtr i =>
    refine Sim.use (h.ptr i) fun a p ha => Sim.bind (Sim.lift ?_) fun b q hb => Sim.pure ⟨h.putPtr i hb, rfl⟩
    obtain ⟨x, h1, h2, _⟩ := (C05_inc_dec S bi a _ ha).1
    rw [e1] at h2; exact ⟨x, h1, h2⟩
  | decPtr i =>
    refine Sim.use (h.ptr i) fun a p ha => Sim.bind (Sim.lift ?_) fun b q hb => Sim.pure ⟨h.putPtr i hb, rfl⟩
    obtain ⟨x, h1, h2, _⟩ := (C05_inc_dec S bi a _ ha).2
    rw [e2] at h2; exact ⟨x, h1, h2⟩
  | postIncPtr d i =>
    refine Sim.use (h.ptr i) fun a p ha => Sim.bind (R := fun x y => x.1.At (o + y.1) ∧ x.2.At (o + y.2))
      (Sim.lift ?_) fun b q hb => Sim.pure ⟨(h.putPtr i hb.2).putPtr d hb.1, rfl⟩
    obtain ⟨x, h1, h2⟩ := (C70_pointer_post S bi a _ ha).1
    rw [e1] at h2; exact ⟨_, h1, ha, h2⟩
  | postDecPtr d i =>
    refine Sim.use (h.ptr i) fun a p ha => Sim.bind (R := fun x y => x.1.At (o + y.1) ∧ x.2.At (o + y.2))
      (Sim.lift ?_) fun b q hb => Sim.pure ⟨(h.putPtr i hb.2).putPtr d hb.1, rfl⟩
    obtain ⟨x, h1, h2⟩ := (C70_pointer_post S bi a _ ha).2
    rw [e2] at h2; exact ⟨_, h1, ha, h2⟩
  | diffPtr i j =>
    refine Sim.use (h.ptr i) fun a p ha => Sim.use (h.ptr j) fun b q hb => Sim.bind (R := Eq) (Sim.lift ?_) fun x y hx => Sim.pure ⟨h, by rw [hx]⟩
    exact ⟨_, (C05_diff_compare bi a b _ _ ha hb).1, by omega⟩
  | cmpPtr c i j =>
    exact Sim.use (h.ptr i) fun a p ha => Sim.use (h.ptr j) fun b q hb => Sim.bind (R := Eq) (Sim.lift ⟨_, ptr_cmp bi ha hb c, rfl⟩)
      fun x y hx => Sim.pure ⟨h, by rw [hx]⟩
  | derefPtr r i => exact Sim.use (h.ptr i) fun a p ha => Sim.bind (R := fun x y => BitRef.At x (o + y)) (Sim.pure ha) fun b q hb => Sim.pure ⟨h.putRef r hb, rfl⟩
  | indexPtr r i n =>
    refine Sim.use (h.ptr i) fun a p ha => Sim.bind (Sim.lift ?_) fun b q hb => Sim.pure ⟨h.putRef r hb, rfl⟩
    have := (C05_add_sub S bi a _ ha n).2.2
    rw [e1] at this; exact this

theorem sim_client {α : Type} (c : Client α) {s : Slots (BitIter w) (BitRef w) (BitPtr w)} {t : Slots Int Int Int} (h : SlotsAt o s t) :
    Sim F o (fun x y => x.1 = y.1 ∧ SlotsAt o x.2 y.2) (c.code S bi s) (c.ideal t) := by
  unfold Client.code Client.ideal
  induction c generalizing s t with
  | done x => exact Sim.pure ⟨rfl, h⟩
  | call op next ih =>
    refine Sim.bind (sim_op S bi op h) fun a b hab => ?_
    rw [hab.2]
    exact ih b.2 hab.1

end

end BitLib
