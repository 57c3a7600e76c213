import Verif.SpecKeep
import Verif.Lemmas.Client
import Verif.Props.Throw
/- Lemmas for the theorems about programs that keep iterators. -/
namespace BitLib
variable {w : Nat}

/-! ### Operations on positions follow operations on addresses -/

/-- The tape holds the lists at the places of the vectors. -/
structure TapeEnv (h : Heap w) (vs : List BV) (ls : List (List Bool)) (t : Tape) : Prop where
  len : vs.length = ls.length
  at' : ∀ (i : Nat) (v : BV) (l : List Bool), vs[i]? = some v → ls[i]? = some l →
    v.length = l.length ∧ ∀ (d : Nat) (hd : d < l.length), t (v.vec.ptr * (w : Int) + (d : Int)) = some l[d]
  mapped : ∀ p, (t p).isSome = (bitAt h.mem p).isSome

theorem TapeEnv.ofEnv {h : Heap w} {vs : List BV} {ls : List (List Bool)} (e : EnvOk h vs ls) : TapeEnv h vs ls (fun p => bitAt h.mem (0 + p)) := by
  refine ⟨e.len, fun i v l hv hl => ?_, fun p => by rw [Int.zero_add]⟩
  have r := e.rep i v l hv hl
  exact ⟨r.len, fun d hd => by rw [Int.zero_add]; exact r.bits d hd⟩

theorem TapeEnv.toEnv {h : Heap w} {vs : List BV} {ls ls0 : List (List Bool)} {t : Tape} {m : Mem w} (e : EnvOk h vs ls0)
    (te : TapeEnv h vs ls t) (hm : TapeIs 0 m t) : EnvOk { h with mem := m } vs ls := by
  have hs : SameMapped h.mem m := by
    intro x
    have := te.mapped x
    rw [hm, Int.zero_add] at this
    exact this
  refine ⟨⟨e.wf.nonneg, fun x hx => ?_⟩, te.len, fun i v l hv hl => ?_, e.sep⟩
  · have := hs x
    rw [e.wf.unused x hx] at this
    exact Option.not_isSome_iff_eq_none.1 (by rw [this]; simp)
  · have hi : i < ls0.length := by
      rw [← e.len]
      exact (List.getElem?_eq_some_iff.1 hv).1
    obtain ⟨v', h1, _, r⟩ := e.get hi
    rw [hv] at h1; cases h1
    obtain ⟨h2, h3⟩ := te.at' i v l hv hl
    refine ⟨r.ok.ofMem hs, h2, r.fit, fun d hd => ?_⟩
    have := h3 d hd
    rw [hm, Int.zero_add] at this
    exact this

/-- Different positions have different addresses. -/
theorem EnvOk.apart {h : Heap w} {vs : List BV} {ls : List (List Bool)} (e : EnvOk h vs ls) {i j : Nat} {v o : BV} (hv : vs[i]? = some v)
    (ho : vs[j]? = some o) {a b : Nat} (ha : a < v.length) (hb : b < o.length)
    (he : v.vec.ptr * (w : Int) + (a : Int) = o.vec.ptr * (w : Int) + (b : Int)) : i = j ∧ a = b := by
  by_cases hij : i = j
  · subst hij
    rw [hv] at ho; cases ho
    exact ⟨rfl, by omega⟩
  · exfalso
    have f : ∀ (k : Nat) (u : BV), vs[k]? = some u → (u.length : Int) ≤ (u.vec.cap : Int) * (w : Int) := by
      intro k u hu
      have hk : k < ls.length := by rw [← e.len]; exact (List.getElem?_eq_some_iff.1 hu).1
      obtain ⟨u', h1, _, r⟩ := e.get hk
      rw [hu] at h1; cases h1
      have := nat_mul_cast_le (w := w) r.ok.cap
      have h2 : (u.length : Int) ≤ (u.vec.size : Int) * (w : Int) := by exact_mod_cast r.fit
      omega
    have f1 := f i v hv
    have f2 := f j o ho
    rcases e.sep i j v o hv ho hij with hc | hc | hc | hc
    · rw [hc] at f1; simp at f1; omega
    · rw [hc] at f2; simp at f2; omega
    · omega
    · omega

section
variable {h : Heap w} {vs : List BV} {ls0 : List (List Bool)}

/-- The computation `y` on addresses follows `x` on positions. -/
def SimL {α β : Type} (h : Heap w) (vs : List BV) (R : α → β → Prop) (x : LocM α) (y : TapeM β) : Prop :=
  ∀ ls t a ls', TapeEnv h vs ls t → x ls = .ok (a, ls') → ∃ b t', y t = .ok (b, t') ∧ R a b ∧ TapeEnv h vs ls' t'

theorem SimL.pure {α β : Type} {R : α → β → Prop} {a : α} {b : β} (hR : R a b) : SimL h vs R (Pure.pure a) (Pure.pure b) := by
  intro ls t a' ls' te hx
  cases hx
  exact ⟨b, t, rfl, hR, te⟩

theorem SimL.bind {α β α' β' : Type} {R : α → β → Prop} {R' : α' → β' → Prop} {x : LocM α} {y : TapeM β} {f : α → LocM α'} {g : β → TapeM β'}
    (hx : SimL h vs R x y) (hf : ∀ a b, R a b → SimL h vs R' (f a) (g b)) : SimL h vs R' (x >>= f) (y >>= g) := by
  intro ls t a' ls' te he
  have he : (x ls >>= fun p => f p.1 p.2) = .ok (a', ls') := he
  cases hxl : x ls with
  | error e => rw [hxl] at he; cases he
  | ok p =>
    obtain ⟨a, ls1⟩ := p
    rw [hxl] at he
    obtain ⟨b, t1, h1, h2, h3⟩ := hx ls t a ls1 te hxl
    obtain ⟨b', t', h4, h5, h6⟩ := hf a b h2 ls1 t1 a' ls' h3 he
    exact ⟨b', t', by rw [TapeM.bind_ok h1]; exact h4, h5, h6⟩

theorem SimL.error {α β : Type} {R : α → β → Prop} {e : UB} {y : TapeM β} : SimL h vs R (fun _ => .error e : LocM α) y := by
  intro ls t a ls' _ he
  cases he

theorem SimL.use {α β : Type} {R : α → β → Prop} {x : Option Loc} {y : Option Int} (hs : ∀ p, x = some p → ∃ a, y = some a ∧ LocAt w vs p a)
    {f : Loc → LocM α} {g : Int → TapeM β} (hf : ∀ p a, LocAt w vs p a → SimL h vs R (f p) (g a)) :
    SimL h vs R (useSlot (fun _ => .error .badRange) x f) (useSlot (fun _ => .error .badRange) y g) := by
  cases x with
  | none => exact SimL.error
  | some p =>
    obtain ⟨a, rfl, ha⟩ := hs p rfl
    exact hf p a ha

theorem SimL.both {α β : Type} {R : α → β → Prop} {p q : Loc} {x : LocM α} {y : TapeM β} (hx : p.1 = q.1 → SimL h vs R x y) :
    SimL h vs R (Loc.both p q x) y := by
  unfold Loc.both
  split_ifs with hc
  · exact hx hc
  · exact SimL.error

theorem locBit_some {ls : List (List Bool)} {p : Loc} {b : Bool} (hb : locBit ls p = some b) :
    ∃ (l : List Bool) (d : Nat) (hd : d < l.length), ls[p.1]? = some l ∧ p.2 = (d : Int) ∧ b = l[d] := by
  unfold locBit at hb
  rw [Option.bind_eq_some_iff] at hb
  obtain ⟨l, h1, h2⟩ := hb
  unfold listTape at h2
  by_cases h0 : 0 ≤ p.2
  · rw [if_pos h0] at h2
    obtain ⟨h3, h4⟩ := List.getElem?_eq_some_iff.1 h2
    exact ⟨l, p.2.toNat, h3, h1, by omega, h4.symm⟩
  · rw [if_neg h0] at h2; cases h2

theorem simL_get {p : Loc} {a : Int} (hp : LocAt w vs p a) : SimL h vs Eq (Loc.get p) (Tape.get a) := by
  intro ls t b ls' te he
  unfold Loc.get at he
  cases hb : locBit ls p with
  | none => rw [hb] at he; cases he
  | some x =>
    rw [hb] at he
    cases he
    obtain ⟨l, d, hd, h1, h2, rfl⟩ := locBit_some hb
    obtain ⟨v, hv, rfl⟩ := hp
    refine ⟨_, t, Tape.get_some ?_, rfl, te⟩
    rw [h2]
    exact (te.at' p.1 v l hv h1).2 d hd

theorem simL_put (e : EnvOk h vs ls0) {p : Loc} {a : Int} (hp : LocAt w vs p a) (x : Bool) : SimL h vs Eq (Loc.put p x) (Tape.put a x) := by
  intro ls t b ls' te he
  unfold Loc.put at he
  cases hb : locBit ls p with
  | none => rw [hb] at he; cases he
  | some y =>
    rw [hb] at he
    cases he
    obtain ⟨l, d, hd, h1, h2, rfl⟩ := locBit_some hb
    obtain ⟨v, hv, rfl⟩ := hp
    obtain ⟨hvl, hvt⟩ := te.at' p.1 v l hv h1
    refine ⟨(), _, Tape.put_some (b := l[d]) (by rw [h2]; exact hvt d hd), rfl, ?_⟩
    have hat : Op.at' ls p.1 = l := by unfold Op.at'; rw [h1]; rfl
    rw [hat, h2]
    have hi : p.1 < ls.length := (List.getElem?_eq_some_iff.1 h1).1
    refine ⟨by simp [te.len], fun j o lj ho hlj => ?_, fun q => ?_⟩
    · rw [List.getElem?_set] at hlj
      by_cases hj : p.1 = j
      · subst hj
        rw [hv] at ho; cases ho
        rw [if_pos rfl, if_pos hi] at hlj
        cases hlj
        refine ⟨by simp [hvl], fun k hk => ?_⟩
        rw [List.getElem_set]
        by_cases hk2 : d = k
        · subst hk2
          rw [if_pos rfl, if_pos (by simp)]
        · rw [if_neg (by omega), if_neg (by simpa using hk2)]
          exact hvt k (by simpa using hk)
      · rw [if_neg hj] at hlj
        obtain ⟨hol, hot⟩ := te.at' j o lj ho hlj
        refine ⟨hol, fun k hk => ?_⟩
        rw [if_neg]
        · exact hot k hk
        · intro hc
          exact hj (e.apart hv ho (a := d) (b := k) (by omega) (by omega) (by omega)).1
    · by_cases hq : q = v.vec.ptr * (w : Int) + (d : Int)
      · rw [if_pos hq, ← te.mapped, hq, hvt d hd]; rfl
      · rw [if_neg hq]; exact te.mapped q

theorem SlotsLoc.put {f : Nat → Option Loc} {g : Nat → Option Int} (hs : ∀ k p, f k = some p → ∃ a, g k = some a ∧ LocAt w vs p a) (d : Nat)
    {q : Loc} {b : Int} (hq : LocAt w vs q b) (k : Nat) (p : Loc) (hp : putSlot f d q k = some p) :
    ∃ a, putSlot g d b k = some a ∧ LocAt w vs p a := by
  unfold putSlot at hp ⊢
  by_cases hk : k = d
  · rw [if_pos hk] at hp ⊢
    cases hp
    exact ⟨b, rfl, hq⟩
  · rw [if_neg hk] at hp ⊢
    exact hs k p hp

theorem SlotsLoc.putIt {l : Slots Loc Loc Loc} {t : Slots Int Int Int} (hs : SlotsLoc w vs l t) (d : Nat) {q : Loc} {b : Int}
    (hq : LocAt w vs q b) : SlotsLoc w vs (l.putIt d q) (t.putIt d b) := ⟨SlotsLoc.put hs.it d hq, hs.ref, hs.ptr⟩
theorem SlotsLoc.putRef {l : Slots Loc Loc Loc} {t : Slots Int Int Int} (hs : SlotsLoc w vs l t) (d : Nat) {q : Loc} {b : Int}
    (hq : LocAt w vs q b) : SlotsLoc w vs (l.putRef d q) (t.putRef d b) := ⟨hs.it, SlotsLoc.put hs.ref d hq, hs.ptr⟩
theorem SlotsLoc.putPtr {l : Slots Loc Loc Loc} {t : Slots Int Int Int} (hs : SlotsLoc w vs l t) (d : Nat) {q : Loc} {b : Int}
    (hq : LocAt w vs q b) : SlotsLoc w vs (l.putPtr d q) (t.putPtr d b) := ⟨hs.it, hs.ref, SlotsLoc.put hs.ptr d hq⟩

abbrev LocRel (w : Nat) (vs : List BV) (x : Slots Loc Loc Loc × IAns) (y : Slots Int Int Int × IAns) : Prop := SlotsLoc w vs x.1 y.1 ∧ x.2 = y.2

theorem LocAt.add {p : Loc} {a : Int} (hp : LocAt w vs p a) (n : Int) : LocAt w vs (p.1, p.2 + n) (a + n) := by
  obtain ⟨v, hv, rfl⟩ := hp
  exact ⟨v, hv, by dsimp only; omega⟩
theorem LocAt.sub {p : Loc} {a : Int} (hp : LocAt w vs p a) (n : Int) : LocAt w vs (p.1, p.2 - n) (a - n) := by
  obtain ⟨v, hv, rfl⟩ := hp
  exact ⟨v, hv, by dsimp only; omega⟩

/-- Two positions of one vector: the difference of the addresses is that of the positions. -/
theorem LocAt.diff {p q : Loc} {a b : Int} (hp : LocAt w vs p a) (hq : LocAt w vs q b) (hpq : p.1 = q.1) : p.2 - q.2 = a - b := by
  obtain ⟨v, hv, rfl⟩ := hp
  obtain ⟨u, hu, rfl⟩ := hq
  rw [hpq, hu] at hv
  cases hv
  omega

theorem Cmp.on_shift {a b p q : Int} (hd : p - q = a - b) (c : Cmp) : c.on p q = c.on a b := by
  cases c <;> simp only [Cmp.on] <;> rw [decide_eq_decide] <;> omega

theorem simL_op (e : EnvOk h vs ls0) (o : IOp) {l : Slots Loc Loc Loc} {t : Slots Int Int Int} (hs : SlotsLoc w vs l t) :
    SimL h vs (LocRel w vs) (o.run (fun _ => .error .badRange) locIface l) (o.run (fun _ => .error .badRange) idealIface t) := by
  cases o with
  | copyIt d i => exact SimL.use (hs.it i) fun p a hp => SimL.pure ⟨hs.putIt d hp, rfl⟩
  | addIt d i n => exact SimL.use (hs.it i) fun p a hp => SimL.bind (SimL.pure (hp.add n)) fun q b hq => SimL.pure ⟨hs.putIt d hq, rfl⟩
  | subIt d i n => exact SimL.use (hs.it i) fun p a hp => SimL.bind (SimL.pure (hp.sub n)) fun q b hq => SimL.pure ⟨hs.putIt d hq, rfl⟩
  | incIt i => exact SimL.use (hs.it i) fun p a hp => SimL.bind (SimL.pure (hp.add 1)) fun q b hq => SimL.pure ⟨hs.putIt i hq, rfl⟩
  | decIt i => exact SimL.use (hs.it i) fun p a hp => SimL.bind (SimL.pure (hp.sub 1)) fun q b hq => SimL.pure ⟨hs.putIt i hq, rfl⟩
  | postIncIt d i =>
    exact SimL.use (hs.it i) fun p a hp => SimL.bind (R := fun x y => LocAt w vs x.1 y.1 ∧ LocAt w vs x.2 y.2) (SimL.pure ⟨hp, hp.add 1⟩)
      fun q b hq => SimL.pure ⟨(hs.putIt i hq.2).putIt d hq.1, rfl⟩
  | postDecIt d i =>
    exact SimL.use (hs.it i) fun p a hp => SimL.bind (R := fun x y => LocAt w vs x.1 y.1 ∧ LocAt w vs x.2 y.2) (SimL.pure ⟨hp, hp.sub 1⟩)
      fun q b hq => SimL.pure ⟨(hs.putIt i hq.2).putIt d hq.1, rfl⟩
  | addAssignIt i n => exact SimL.use (hs.it i) fun p a hp => SimL.bind (SimL.pure (hp.add n)) fun q b hq => SimL.pure ⟨hs.putIt i hq, rfl⟩
  | subAssignIt i n => exact SimL.use (hs.it i) fun p a hp => SimL.bind (SimL.pure (hp.sub n)) fun q b hq => SimL.pure ⟨hs.putIt i hq, rfl⟩
  | diffIt i j =>
    exact SimL.use (hs.it i) fun p a hp => SimL.use (hs.it j) fun q b hq => SimL.bind (R := Eq) (SimL.both fun hpq => SimL.pure (hp.diff hq hpq))
      fun x y hx => SimL.pure ⟨hs, by rw [hx]⟩
  | cmpIt c i j =>
    exact SimL.use (hs.it i) fun p a hp => SimL.use (hs.it j) fun q b hq => SimL.bind (R := Eq)
      (SimL.both fun hpq => SimL.pure (Cmp.on_shift (hp.diff hq hpq) c)) fun x y hx => SimL.pure ⟨hs, by rw [hx]⟩
  | distance i j =>
    refine SimL.use (hs.it i) fun p a hp => SimL.use (hs.it j) fun q b hq => SimL.bind (R := Eq) (SimL.both fun hpq => ?_)
      fun x y hx => SimL.pure ⟨hs, by rw [hx]⟩
    have hd := hp.diff hq hpq
    rw [show idealIface.itDistance a b = (if a ≤ b then pure (b - a) else fun _ => Except.error UB.assertFail : TapeM Int) from rfl]
    by_cases hle : p.2 ≤ q.2
    · rw [if_pos hle, if_pos (by omega)]
      exact SimL.pure (by omega)
    · rw [if_neg hle]
      exact SimL.error
  | derefIt r i => exact SimL.use (hs.it i) fun p a hp => SimL.bind (SimL.pure hp) fun q b hq => SimL.pure ⟨hs.putRef r hq, rfl⟩
  | indexIt r i n => exact SimL.use (hs.it i) fun p a hp => SimL.bind (SimL.pure (hp.add n)) fun q b hq => SimL.pure ⟨hs.putRef r hq, rfl⟩
  | arrowIt k i => exact SimL.use (hs.it i) fun p a hp => SimL.bind (SimL.pure hp) fun q b hq => SimL.pure ⟨hs.putPtr k hq, rfl⟩
  | copyRef r q => exact SimL.use (hs.ref q) fun p a hp => SimL.pure ⟨hs.putRef r hp, rfl⟩
  | read r => exact SimL.use (hs.ref r) fun p a hp => SimL.bind (R := Eq) (simL_get hp) fun x y hx => SimL.pure ⟨hs, by rw [hx]⟩
  | upd u r =>
    refine SimL.use (hs.ref r) fun p a hp => SimL.bind (R := Eq) (SimL.bind (R := Eq) (simL_get hp) ?_) fun x y hx => SimL.pure ⟨hs, rfl⟩
    rintro x _ rfl
    exact simL_put e hp _
  | assign r q =>
    refine SimL.use (hs.ref r) fun p a hp => SimL.use (hs.ref q) fun p' b hq => SimL.bind (R := Eq) (SimL.bind (R := Eq) (simL_get hq) ?_)
      fun x y hx => SimL.pure ⟨hs, rfl⟩
    rintro x _ rfl
    exact simL_put e hp _
  | swap r q =>
    refine SimL.use (hs.ref r) fun p a hp => SimL.use (hs.ref q) fun p' b hq => SimL.bind (R := Eq) (SimL.bind (R := Eq) (simL_get hp) ?_)
      fun x y hx => SimL.pure ⟨hs, rfl⟩
    rintro x _ rfl
    refine SimL.bind (R := Eq) (simL_get hq) ?_
    rintro y _ rfl
    exact SimL.bind (R := Eq) (simL_put e hq _) fun _ _ _ => simL_put e hp _
  | swapVal r x =>
    refine SimL.use (hs.ref r) fun p a hp => SimL.bind (R := Eq) (SimL.bind (R := Eq) (simL_get hp) ?_) fun x y hx => SimL.pure ⟨hs, by rw [hx]⟩
    rintro y _ rfl
    exact SimL.bind (R := Eq) (simL_put e hp _) fun _ _ _ => SimL.pure rfl
  | addressOf k r => exact SimL.use (hs.ref r) fun p a hp => SimL.bind (SimL.pure hp) fun q b hq => SimL.pure ⟨hs.putPtr k hq, rfl⟩
  | copyPtr d i => exact SimL.use (hs.ptr i) fun p a hp => SimL.pure ⟨hs.putPtr d hp, rfl⟩
  | addPtr d i n => exact SimL.use (hs.ptr i) fun p a hp => SimL.bind (SimL.pure (hp.add n)) fun q b hq => SimL.pure ⟨hs.putPtr d hq, rfl⟩
  | subPtr d i n => exact SimL.use (hs.ptr i) fun p a hp => SimL.bind (SimL.pure (hp.sub n)) fun q b hq => SimL.pure ⟨hs.putPtr d hq, rfl⟩
  | incPtr i => exact SimL.use (hs.ptr i) fun p a hp => SimL.bind (SimL.pure (hp.add 1)) fun q b hq => SimL.pure ⟨hs.putPtr i hq, rfl⟩
  | decPtr i => exact SimL.use (hs.ptr i) fun p a hp => SimL.bind (SimL.pure (hp.sub 1)) fun q b hq => SimL.pure ⟨hs.putPtr i hq, rfl⟩
  | postIncPtr d i =>
    exact SimL.use (hs.ptr i) fun p a hp => SimL.bind (R := fun x y => LocAt w vs x.1 y.1 ∧ LocAt w vs x.2 y.2) (SimL.pure ⟨hp, hp.add 1⟩)
      fun q b hq => SimL.pure ⟨(hs.putPtr i hq.2).putPtr d hq.1, rfl⟩
  | postDecPtr d i =>
    exact SimL.use (hs.ptr i) fun p a hp => SimL.bind (R := fun x y => LocAt w vs x.1 y.1 ∧ LocAt w vs x.2 y.2) (SimL.pure ⟨hp, hp.sub 1⟩)
      fun q b hq => SimL.pure ⟨(hs.putPtr i hq.2).putPtr d hq.1, rfl⟩
  | diffPtr i j =>
    exact SimL.use (hs.ptr i) fun p a hp => SimL.use (hs.ptr j) fun q b hq => SimL.bind (R := Eq) (SimL.both fun hpq => SimL.pure (hp.diff hq hpq))
      fun x y hx => SimL.pure ⟨hs, by rw [hx]⟩
  | cmpPtr c i j =>
    exact SimL.use (hs.ptr i) fun p a hp => SimL.use (hs.ptr j) fun q b hq => SimL.bind (R := Eq)
      (SimL.both fun hpq => SimL.pure (Cmp.on_shift (hp.diff hq hpq) c)) fun x y hx => SimL.pure ⟨hs, by rw [hx]⟩
  | derefPtr r i => exact SimL.use (hs.ptr i) fun p a hp => SimL.bind (SimL.pure hp) fun q b hq => SimL.pure ⟨hs.putRef r hq, rfl⟩
  | indexPtr r i n => exact SimL.use (hs.ptr i) fun p a hp => SimL.bind (SimL.pure (hp.add n)) fun q b hq => SimL.pure ⟨hs.putRef r hq, rfl⟩

end

/-! ### What calls do to the places of vectors -/

/-- The places of vectors and their capacities follow the rules. -/
def Follows (w : Nat) (vs vs' : List BV) (f : Fate) : Prop :=
  CapsOk w vs' f.caps ∧ ∀ p p' a, f.keep p = some p' → LocAt w vs p a → LocAt w vs' p' a

section
variable {h h' : Heap w} {vs vs' : List BV} {ls : List (List Bool)} {caps : List Nat}

theorem follows_refl (hc : CapsOk w vs caps) : Follows w vs vs (Fate.same caps) := ⟨hc, fun _ _ _ hp ha => by cases hp; exact ha⟩

theorem get_set {α : Type} {l : List α} {i k : Nat} {x y : α} (hk : (l.set i x)[k]? = some y) : (k = i ∧ y = x) ∨ (k ≠ i ∧ l[k]? = some y) := by
  rw [List.getElem?_set] at hk
  by_cases hc : i = k
  · rw [if_pos hc] at hk
    split_ifs at hk
    cases hk
    exact .inl ⟨hc.symm, rfl⟩
  · rw [if_neg hc] at hk
    exact .inr ⟨fun hh => hc hh.symm, hk⟩

theorem set_get {α : Type} {l : List α} {i : Nat} {x y : α} (hi : l[i]? = some y) : (l.set i x)[i]? = some x := by
  rw [List.getElem?_set, if_pos rfl, if_pos (List.getElem?_eq_some_iff.1 hi).1]

theorem set_get_ne {α : Type} {l : List α} {i k : Nat} {x : α} (hk : k ≠ i) : (l.set i x)[k]? = l[k]? := by
  rw [List.getElem?_set, if_neg (Ne.symm hk)]

/-- Vector `i` stays where it is. -/
theorem follows_same {i : Nat} {v v' : BV} (hc : CapsOk w vs caps) (hv : vs[i]? = some v) (hs : v'.vec.Same v.vec) :
    Follows w vs (vs.set i v') (Fate.same caps) := by
  refine ⟨⟨by simp [Fate.same, hc.1], fun k u c hu hk => ?_⟩, fun p p' a hp ha => ?_⟩
  · rcases get_set hu with ⟨rfl, rfl⟩ | ⟨_, hu⟩
    · have := hc.2 k v c hv hk
      unfold BV.capacity at this ⊢
      rw [hs.2]; exact this
    · exact hc.2 k u c hu hk
  · cases hp
    obtain ⟨u, hu, rfl⟩ := ha
    by_cases hpi : p.1 = i
    · rw [hpi, hv] at hu
      cases hu
      exact ⟨v', by rw [hpi]; exact set_get hv, by rw [hs.1]⟩
    · exact ⟨u, by rw [set_get_ne hpi]; exact hu, rfl⟩

/-- Vector `i` may have moved. -/
theorem follows_drop {i n : Nat} {v v' : BV} (hc : CapsOk w vs caps) (_hv : vs[i]? = some v) (hn : n ≤ v'.capacity w) :
    Follows w vs (vs.set i v') (Fate.drop caps i n) := by
  refine ⟨⟨by simp [Fate.drop, hc.1], fun k u c hu hk => ?_⟩, fun p p' a hp ha => ?_⟩
  · rcases get_set hu with ⟨rfl, rfl⟩ | ⟨hki, hu⟩
    · rcases get_set hk with ⟨_, rfl⟩ | ⟨h1, _⟩
      · exact hn
      · exact absurd rfl h1
    · rcases get_set hk with ⟨h1, _⟩ | ⟨_, hk⟩
      · exact absurd h1 hki
      · exact hc.2 k u c hu hk
  · unfold Fate.drop at hp
    dsimp only at hp
    split_ifs at hp with hpi
    cases hp
    obtain ⟨u, hu, rfl⟩ := ha
    exact ⟨u, by rw [set_get_ne hpi]; exact hu, rfl⟩

/-- There is one vector more. -/
theorem follows_new {n : Nat} {v' : BV} (hc : CapsOk w vs caps) (hn : n ≤ v'.capacity w) : Follows w vs (vs ++ [v']) ⟨caps ++ [n], some⟩ := by
  refine ⟨⟨by simp [hc.1], fun k u c hu hk => ?_⟩, fun p p' a hp ha => ?_⟩
  · by_cases hkl : k < vs.length
    · rw [List.getElem?_append_left hkl] at hu
      dsimp only at hk
      rw [List.getElem?_append_left (by rw [hc.1]; exact hkl)] at hk
      exact hc.2 k u c hu hk
    · have hkl' : k = vs.length := by
        have := (List.getElem?_eq_some_iff.1 hu).1
        simp at this
        omega
      subst hkl'
      dsimp only at hk
      rw [← hc.1, List.getElem?_concat_length] at hk
      rw [List.getElem?_concat_length] at hu
      cases hu; cases hk
      exact hn
  · cases hp
    obtain ⟨u, hu, rfl⟩ := ha
    exact ⟨u, by rw [List.getElem?_append_left (List.getElem?_eq_some_iff.1 hu).1]; exact hu, rfl⟩

theorem Rep.cap_ge {v : BV} {l : List Bool} (r : Rep h v l) : l.length ≤ v.capacity w := by
  have h1 := Nat.mul_le_mul_right w r.ok.cap
  have h2 := r.fit
  have h3 := r.len
  unfold BV.capacity
  omega

theorem CapsOk.le {i : Nat} {v : BV} (hc : CapsOk w vs caps) (hv : vs[i]? = some v) : caps.getD i 0 ≤ v.capacity w := by
  have hi : i < caps.length := by rw [hc.1]; exact (List.getElem?_eq_some_iff.1 hv).1
  rw [List.getD_eq_getElem?_getD, List.getElem?_eq_getElem hi]
  exact hc.2 i v _ hv (List.getElem?_eq_getElem hi)

/-- Vector `i` has grown. -/
theorem follows_grow {i n : Nat} {v v' : BV} {l' : List Bool} (hc : CapsOk w vs caps) (hv : vs[i]? = some v)
    (hs : (Op.at' ls i).length + n ≤ v.capacity w → v'.vec.Same v.vec) (r : Rep h' v' l') (hl : l'.length = (Op.at' ls i).length + n) :
    Follows w vs (vs.set i v') (Fate.grow ls caps i n) := by
  unfold Fate.grow
  split_ifs with hg
  · exact follows_same hc hv (hs (Nat.le_trans hg (hc.le hv)))
  · exact follows_drop hc hv (by rw [← hl]; exact r.cap_ge)

theorem wordCount_le_of_le (hw : 0 < w) {n c : Nat} (hn : n ≤ c * w) : wordCount w n ≤ c := by
  unfold wordCount
  have h3 := Nat.mod_le n (2 ^ 32)
  rw [← Nat.lt_succ_iff, Nat.div_lt_iff_lt_mul hw, Nat.succ_mul]
  omega

theorem onVec2_inv {i j : Nat} {f : BV → BV → V w BV} {v o : BV} (hv : vs[i]? = some v) (ho : vs[j]? = some o)
    (he : onVec2 vs i j f h = .ok (vs', h')) : ∃ v', f v o h = .ok (v', h') ∧ vs' = vs.set i v' := by
  unfold onVec2 at he
  rw [hv, ho] at he
  obtain ⟨v', h1, e1, e2⟩ := runV_bind_inv he
  cases e2
  exact ⟨v', e1, rfl⟩

theorem newVec_inv' {f : V w BV} (he : newVec vs f h = .ok (vs', h')) : ∃ v', f h = .ok (v', h') ∧ vs' = vs ++ [v'] := by
  obtain ⟨v', h1, e1, e2⟩ := runV_bind_inv he
  cases e2
  exact ⟨v', e1, rfl⟩

theorem set_inv {S : ShiftSem w} {v v' : BV} {k : Nat} {x : Bool} (he : v.set S k x h = .ok (v', h')) : v' = v := by
  unfold BV.set at he
  obtain ⟨_, h1, _, e1⟩ := runV_bind_inv he
  obtain ⟨_, h2, _, e2⟩ := runV_bind_inv e1
  cases e2
  rfl

theorem follows_op (hw : 0 < w) (S : ShiftSem w) (P : Policy) (op : Op w) (e : EnvOk h vs ls) (hc : CapsOk w vs caps) (hpre : op.Pre ls)
    (hlim : op.Lim S ls) (he : op.exec S P vs h = .ok (vs', h')) : Follows w vs vs' (op.fate ls caps) := by
  have ok : EnvOk h' vs' (op.apply ls) := by
    obtain ⟨vs1, h1, e1, ok⟩ := C35_step_partial hw S P h vs ls op e hpre hlim
    rw [he] at e1
    cases e1
    exact ok
  have hlen := e.len
  -- the new vector and its capacity
  have fresh : ∀ (l : List Bool) (v' : BV), op.apply ls = ls ++ [l] → vs' = vs ++ [v'] → Follows w vs vs' ⟨caps ++ [l.length], some⟩ := by
    rintro l v' h1 rfl
    refine follows_new hc ?_
    have r := ok.rep ls.length v' l (by rw [← hlen]; exact List.getElem?_concat_length) (by rw [h1]; exact List.getElem?_concat_length)
    exact r.cap_ge
  -- the changed vector
  have changed : ∀ (i : Nat) (l : List Bool) (v v' : BV), vs[i]? = some v → op.apply ls = ls.set i l → vs' = vs.set i v' → Rep h' v' l := by
    rintro i l v v' hv h1 rfl
    refine ok.rep i v' l (set_get hv) ?_
    rw [h1, List.getElem?_set, if_pos rfl, if_pos]
    rw [← hlen]; exact (List.getElem?_eq_some_iff.1 hv).1
  cases op with
  | newEmpty => obtain ⟨v', _, e2⟩ := newVec_inv' he; exact fresh [] v' rfl e2
  | newCount n =>
    obtain ⟨v', _, e2⟩ := newVec_inv' he
    have := fresh _ v' rfl e2
    rwa [List.length_replicate] at this
  | newCountVal n x =>
    obtain ⟨v', _, e2⟩ := newVec_inv' he
    have := fresh _ v' rfl e2
    rwa [List.length_replicate] at this
  | newString s => obtain ⟨v', _, e2⟩ := newVec_inv' he; exact fresh _ v' rfl e2
  | newBoolRange l => obtain ⟨v', _, e2⟩ := newVec_inv' he; exact fresh _ v' rfl e2
  | newBoolList l => obtain ⟨v', _, e2⟩ := newVec_inv' he; exact fresh _ v' rfl e2
  | newWords l => obtain ⟨v', _, e2⟩ := newVec_inv' he; exact fresh _ v' rfl e2
  | newBits j a b =>
    obtain ⟨o, ho, _, r⟩ := e.get (i := j) hpre.1
    unfold Op.exec at he
    dsimp only at he
    rw [ho] at he
    obtain ⟨v', _, e2⟩ := newVec_inv' he
    have := fresh _ v' rfl e2
    rw [show (((Op.at' ls j).take b).drop a).length = b - a by have := hpre.2.2; simp; omega] at this
    exact this
  | newCopy j =>
    obtain ⟨o, ho, _, r⟩ := e.get (i := j) hpre
    unfold Op.exec at he
    dsimp only at he
    rw [ho] at he
    obtain ⟨v', _, e2⟩ := newVec_inv' he
    exact fresh _ v' rfl e2
  | push i x =>
    obtain ⟨v, hv, _, r⟩ := e.get (i := i) hpre
    obtain ⟨v', e1, e2⟩ := onVec_inv hv he
    have r' := changed i _ v v' hv rfl e2
    subst e2
    exact follows_grow hc hv (fun hg => BV.pushBack_same hw r hg e1) r' (by simp)
  | pop i =>
    obtain ⟨v, hv, _, r⟩ := e.get (i := i) hpre.1
    obtain ⟨v', e1, rfl⟩ := onVec_inv hv he
    exact follows_same hc hv (BV.popBack_same e1)
  | insert i d x =>
    obtain ⟨v, hv, _, r⟩ := e.get (i := i) hpre.1
    obtain ⟨v', e1, e2⟩ := onVec_inv hv he
    obtain ⟨a, e1⟩ := map_fst_inv e1
    have r' := changed i _ v v' hv rfl e2
    subst e2
    exact follows_grow hc hv (fun hg => BV.insert_same hw r hg e1) r' (by have := hpre.2; simp; omega)
  | insertN i d n x =>
    obtain ⟨v, hv, _, r⟩ := e.get (i := i) hpre.1
    obtain ⟨v', e1, e2⟩ := onVec_inv hv he
    obtain ⟨a, e1⟩ := map_fst_inv e1
    have r' := changed i _ v v' hv rfl e2
    subst e2
    exact follows_grow hc hv (fun hg => BV.insertN_same hw r hg hlim.1 e1) r' (by have := hpre.2; simp; omega)
  | insertRange i d j a b =>
    obtain ⟨hi, hd, hj, hij, hab, hb⟩ := hpre
    obtain ⟨v, hv, _, r⟩ := e.get hi
    obtain ⟨o, ho, _, ro⟩ := e.get hj
    obtain ⟨v', e1, e2⟩ := onVec2_inv hv ho he
    obtain ⟨x, e1⟩ := map_fst_inv e1
    have r' := changed i _ v v' hv rfl e2
    subst e2
    have hl : (((Op.at' ls j).take b).drop a).length = b - a := by simp; omega
    refine follows_grow hc hv (fun hg => BV.insertRange_same hw r (ro.holdsSeq hw hab hb) (by rw [hl]; exact hg) (by rw [hl]; exact hlim.1) e1) r' ?_
    simp
    omega
  | erase i d =>
    obtain ⟨v, hv, _, r⟩ := e.get (i := i) hpre.1
    obtain ⟨v', e1, rfl⟩ := onVec_inv hv he
    obtain ⟨a, e1⟩ := map_fst_inv e1
    exact follows_same hc hv (BV.erase_same e1)
  | eraseRange i a b =>
    obtain ⟨v, hv, _, r⟩ := e.get (i := i) hpre.1
    obtain ⟨v', e1, rfl⟩ := onVec_inv hv he
    obtain ⟨x, e1⟩ := map_fst_inv e1
    exact follows_same hc hv (BV.eraseRange_same hw r (IsPos.begin_add hw v a) (IsPos.begin_add hw v b) hpre.2.1 hpre.2.2 e1)
  | clear i =>
    obtain ⟨v, hv, _, r⟩ := e.get (i := i) hpre
    obtain ⟨v', e1, rfl⟩ := onVec_inv hv he
    exact follows_same hc hv (BV.clear_same e1)
  | set i k x =>
    obtain ⟨v, hv, _, r⟩ := e.get (i := i) hpre.1
    obtain ⟨v', e1, rfl⟩ := onVec_inv hv he
    rw [set_inv e1]
    exact follows_same hc hv ⟨rfl, rfl⟩
  | copyAssign i j =>
    obtain ⟨hi, hj⟩ := hpre
    obtain ⟨v, hv, _, r⟩ := e.get hi
    obtain ⟨o, ho, _, ro⟩ := e.get hj
    obtain ⟨v', e1, e2⟩ := onVec2_inv hv ho he
    have r' := changed i _ v v' hv rfl e2
    subst e2
    exact follows_drop hc hv r'.cap_ge
  | moveAssign i j =>
    obtain ⟨hi, hj, hij⟩ := hpre
    obtain ⟨v, hv, _, r⟩ := e.get hi
    obtain ⟨o, ho, _, ro⟩ := e.get hj
    unfold Op.exec at he
    dsimp only at he
    rw [hv, ho] at he
    obtain ⟨⟨x, y⟩, h1, e1, e2⟩ := runV_bind_inv he
    cases e2
    cases e1
    dsimp only
    have gi : ((vs.set i o).set j BV.default)[i]? = some o := by rw [set_get_ne hij]; exact set_get hv
    refine ⟨⟨by simp [Op.fate, hc.1], fun k u c hu hk => ?_⟩, fun p p' a hp ha => ?_⟩
    · rcases get_set hk with ⟨rfl, rfl⟩ | ⟨hkj, hk⟩
      · exact Nat.zero_le _
      · rcases get_set hk with ⟨rfl, rfl⟩ | ⟨hki, hk⟩
        · change ((vs.set k o).set j BV.default)[k]? = some u at hu
          rw [gi] at hu
          cases hu
          exact hc.le ho
        · rw [set_get_ne hkj, set_get_ne hki] at hu
          exact hc.2 k u c hu hk
    · unfold Op.fate at hp
      dsimp only at hp
      obtain ⟨u, hu, rfl⟩ := ha
      split_ifs at hp with h1 h2
      · cases hp
        rw [h1, ho] at hu
        cases hu
        exact ⟨o, gi, rfl⟩
      · cases hp
        exact ⟨u, by rw [set_get_ne h1, set_get_ne h2]; exact hu, rfl⟩
  | reserve i n =>
    obtain ⟨v, hv, hl0, r⟩ := e.get (i := i) hpre
    obtain ⟨v', e1, e2⟩ := onVec_inv hv he
    have r' := changed i (Op.at' ls i) v v' hv (set_at' ls i).symm e2
    subst e2
    unfold Op.fate
    dsimp only
    have hres : wordCount w n ≤ v'.vec.cap := by
      have hwp := wpV_reserve (P := P) (n := n) (Q := fun v' _ => wordCount w n ≤ v'.vec.cap) hw e.wf r fun _ _ _ _ hk _ => hk
      obtain ⟨v1, h1, e3, h3⟩ := hwp
      rw [e1] at e3
      cases e3
      exact h3
    split_ifs with h1 h2
    · refine follows_same hc hv ?_
      unfold BV.reserve Vec.reserve at e1
      rw [if_pos (wordCount_le_of_le hw (Nat.le_trans h1 (hc.le hv)))] at e1
      cases e1
      exact ⟨rfl, rfl⟩
    · exact follows_drop hc hv ((Obj.wordCount_le_iff hw h2).1 hres)
    · exact follows_drop hc hv r'.cap_ge
  | shrinkToFit i =>
    obtain ⟨v, hv, _, r⟩ := e.get (i := i) hpre
    obtain ⟨v', e1, e2⟩ := onVec_inv hv he
    have r' := changed i (Op.at' ls i) v v' hv (set_at' ls i).symm e2
    subst e2
    exact follows_drop hc hv r'.cap_ge
  | shrink i n =>
    obtain ⟨v, hv, _, r⟩ := e.get (i := i) hpre.1
    obtain ⟨v', e1, rfl⟩ := onVec_inv hv he
    exact follows_same hc hv (BV.resize_same hw (Nat.le_trans hpre.2 r.cap_ge) hlim.1 e1)
  | destroy i =>
    obtain ⟨v, hv, _, r⟩ := e.get (i := i) hpre
    obtain ⟨v', e1, rfl⟩ := onVec_inv hv he
    exact follows_drop hc hv (Nat.zero_le _)

end

/-! ### Calls that take iterators from variables -/

section
variable {h : Heap w} {vs : List BV} {ls : List (List Bool)} {S : ShiftSem w} {P : Policy} {s : CodeSlots w}

/-- The iterator that the call leaves in a variable. -/
def ResAt (w : Nat) (s s' : CodeSlots w) (vs' : List BV) (ans : Ans) : Res → Prop
  | .none => s' = s
  | .answer r i => ∃ n v x, ans = .pos n ∧ vs'[i]? = some v ∧ x.Valid ∧ x.addr = v.vec.ptr * (w : Int) + n ∧ s' = s.putIt r x
  | .pos r i d => ∃ v x, vs'[i]? = some v ∧ IsPos v x d ∧ s' = s.putIt r x

/-- The call with iterators does what the call with positions does. -/
def AtOk (S : ShiftSem w) (P : Policy) (h : Heap w) (vs : List BV) (s : CodeSlots w) (a : AtCall w) (c : Call w) (res : Res) : Prop :=
  ∃ vs' h' ans s', a.exec S P vs s h = .ok (((vs', s'), ans.seen), h') ∧ c.exec S P vs h = .ok ((vs', ans), h') ∧ ResAt w s s' vs' ans res

theorem atOk_answer {a : AtCall w} {c : Call w} {r i : Nat} {v : BV} {x : M w (BitIter w)} (hv : vs[i]? = some v)
    (ha : a.exec S P vs s = keepIt vs s r x) (hc : c.exec S P vs = onMem x >>= fun y => pure (vs, .pos (y.diff v.begin)))
    (hx : ∃ y h', onMem x h = .ok (y, h') ∧ y.Valid) : AtOk S P h vs s a c (.answer r i) := by
  obtain ⟨y, h', e1, hy⟩ := hx
  refine ⟨vs, h', .pos (y.diff v.begin), s.putIt r y, ?_, ?_, _, v, y, rfl, hv, hy, ?_, rfl⟩
  · rw [ha]; unfold keepIt; rw [runV_bind_ok e1]; rfl
  · rw [hc, runV_bind_ok e1]; rfl
  · rw [BitIter.diff_eq, BV.begin_addr]; omega

theorem atOk_none {α : Type} {a : AtCall w} {c : Call w} {x : V w α} {f : α → List BV} {g : α → Ans} (hg : ∀ y, (g y).seen = g y)
    (ha : a.exec S P vs s = x >>= fun y => pure ((f y, s), g y)) (hc : c.exec S P vs = x >>= fun y => pure (f y, g y))
    (hx : ∃ r h', c.exec S P vs h = .ok (r, h')) : AtOk S P h vs s a c .none := by
  obtain ⟨⟨vs', ans⟩, h', e1⟩ := hx
  rw [hc] at e1
  obtain ⟨y, h1, e2, e3⟩ := runV_bind_inv e1
  cases e3
  refine ⟨f y, h', g y, s, ?_, ?_, rfl⟩
  · rw [ha, runV_bind_ok e2, hg]; rfl
  · rw [hc, runV_bind_ok e2]; rfl

theorem atOk_mem {a : AtCall w} {op : Op w} {r i d : Nat} {v : BV} {f : BV → V w (BV × BitIter w)} (hv : vs[i]? = some v)
    (ha : a.exec S P vs s = keepMem vs s i r f) (hc : op.exec S P vs = (Prod.fst <$> f v) >>= fun v' => pure (vs.set i v'))
    (hx : wpV (f v) h fun y _ => IsPos y.1 y.2 d) : AtOk S P h vs s a (.vec op) (.pos r i d) := by
  obtain ⟨⟨v', y⟩, h', e1, hy⟩ := hx
  refine ⟨vs.set i v', h', .unit, s.putIt r y, ?_, ?_, v', y, set_get hv, hy, rfl⟩
  · rw [ha]; unfold keepMem withVec; rw [hv]; dsimp only; rw [runV_bind_ok e1]; rfl
  · have e2 : (Prod.fst <$> f v) h = .ok (v', h') := by
      show (Except.bind (f v h) fun p => _) = _
      rw [e1]; rfl
    have e3 : op.exec S P vs h = .ok (vs.set i v', h') := by rw [hc, runV_bind_ok e2]; rfl
    show (op.exec S P vs >>= fun vs' => pure (vs', Ans.unit)) h = _
    rw [runV_bind_ok e3]; rfl

/-- A variable with a position holds the iterator to it. -/
theorem slot_it (hw : 0 < w) {l : Slots Loc Loc Loc} {t : Slots Int Int Int} (hs : SlotsAt 0 s t) (hl : SlotsLoc w vs l t) {k i d : Nat} {v : BV}
    (hk : l.it k = some (i, (d : Int))) (hv : vs[i]? = some v) : s.it k = some (Call.it v d) := by
  obtain ⟨a, h1, u, hu, rfl⟩ := hl.it k _ hk
  rw [hv] at hu
  cases hu
  rcases hs.it k with ⟨_, h2⟩ | ⟨x, b, h2, h3, h4⟩
  · rw [h1] at h2; cases h2
  · rw [h1] at h3
    cases h3
    rw [h2]
    have hp := IsPos.begin_add hw v d
    rw [BitIter.addr_inj h4.1 hp.1 (by rw [h4.2, hp.2, Int.zero_add])]
    rfl

theorem at_exec (hw : 0 < w) {l : Slots Loc Loc Loc} {t : Slots Int Int Int} {a : AtCall w} {c : Call w} {res : Res} (e : EnvOk h vs ls)
    (hs : SlotsAt 0 s t) (hl : SlotsLoc w vs l t) (his : a.Is l c res) (hpre : c.Pre ls) (hlim : c.Lim S ls) : AtOk S P h vs s a c res := by
  have pos := fun (v : BV) (d : Nat) => IsPos.begin_add hw v d
  have hex : ∃ r h', c.exec S P vs h = .ok (r, h') := by
    obtain ⟨vs', ans, h', _, e1, _⟩ := C65_step_partial hw S P h vs ls c e hpre hlim
    exact ⟨_, _, e1⟩
  cases his with
  | @copy f l' d r i j a b c k1 k2 k3 =>
    obtain ⟨p1, p2, hov⟩ := hpre
    obtain ⟨o, ho, ro, hsq⟩ := e.source hw p1
    obtain ⟨v, hv, rv, _⟩ := e.source hw p2
    have hln := slice_length (Op.at' ls j) (a := a) p1.2.2
    have q1 := slot_it hw hs hl k1 ho
    have q2 := slot_it hw hs hl k2 ho
    have q3 := slot_it hw hs hl k3 hv
    refine atOk_answer hv (by simp only [AtCall.exec, withIt, q1, q2, q3]; rfl) (by simp only [Call.exec, withVec, ho, hv]) ?_
    obtain ⟨y, h', e1, h1, _⟩ := C64_copy S h v _ _ _ _ _ c e.wf rv hsq (pos v c) (by rw [hln]; exact p2.2.2)
      (e.overlap hw hv ho rv ro p1.2.1 p1.2.2 p2.2.2 hov)
    exact ⟨y, h', e1, h1.1⟩
  | @move f l' d r i j a b c k1 k2 k3 =>
    obtain ⟨p1, p2, hov⟩ := hpre
    obtain ⟨o, ho, ro, hsq⟩ := e.source hw p1
    obtain ⟨v, hv, rv, _⟩ := e.source hw p2
    have hln := slice_length (Op.at' ls j) (a := a) p1.2.2
    have q1 := slot_it hw hs hl k1 ho
    have q2 := slot_it hw hs hl k2 ho
    have q3 := slot_it hw hs hl k3 hv
    refine atOk_answer hv (by simp only [AtCall.exec, withIt, q1, q2, q3]; rfl) (by simp only [Call.exec, withVec, ho, hv]) ?_
    obtain ⟨y, h', e1, h1, _⟩ := C64_move S h v _ _ _ _ _ c e.wf rv hsq (pos v c) (by rw [hln]; exact p2.2.2)
      (e.overlap hw hv ho rv ro p1.2.1 p1.2.2 p2.2.2 hov)
    exact ⟨y, h', e1, h1.1⟩
  | @copyBackward f l' d r i j a b c k1 k2 k3 =>
    obtain ⟨p1, p2, hov⟩ := hpre
    obtain ⟨o, ho, ro, hsq⟩ := e.source hw p1
    obtain ⟨v, hv, rv, _⟩ := e.source hw p2
    have hln := slice_length (Op.at' ls j) (a := a) p1.2.2
    have q1 := slot_it hw hs hl k1 ho
    have q2 := slot_it hw hs hl k2 ho
    have q3 := slot_it hw hs hl k3 hv
    refine atOk_answer hv (by simp only [AtCall.exec, withIt, q1, q2, q3]; rfl) (by simp only [Call.exec, withVec, ho, hv]) ?_
    obtain ⟨y, h', e1, h1, _⟩ := C64_copy_backward_partial S h v _ _ _ _ _ c e.wf rv hsq (by rw [hln]; exact pos v (c + (b - a)))
      (by rw [hln]; exact p2.2.2) (e.overlapB hw hv ho rv ro p1.2.1 p1.2.2 p2.2.2 hov)
      (by
        refine hlim.imp (fun hc hx => hc ?_) id
        obtain ⟨x1, x2, x3⟩ := hx
        unfold Call.it at x1 x2 x3
        rw [(pos o b).eq hw, (pos v (c + (b - a))).eq hw] at x2
        rw [(pos o a).eq hw, (pos o b).eq hw] at x3
        dsimp only at x2 x3
        exact ⟨(pos o a).pos_zero.1 x1, x2, by omega⟩)
    exact ⟨y, h', e1, h1.1⟩
  | @fill f l' i a b x k1 k2 =>
    obtain ⟨v, hv, rv, _⟩ := e.source hw hpre
    have q1 := slot_it hw hs hl k1 hv
    have q2 := slot_it hw hs hl k2 hv
    exact atOk_none (x := onMem (BitLib.fill S (Call.it v a) (Call.it v b) x)) (f := fun _ => vs) (g := fun _ => .unit) (fun _ => rfl)
      (by simp only [AtCall.exec, withIt, q1, q2]) (by simp only [Call.exec, withVec, hv]) hex
  | @reverse f l' i a b k1 k2 =>
    obtain ⟨v, hv, rv, _⟩ := e.source hw hpre
    have q1 := slot_it hw hs hl k1 hv
    have q2 := slot_it hw hs hl k2 hv
    exact atOk_none (x := onMem (BitLib.reverse S (Call.it v a) (Call.it v b))) (f := fun _ => vs) (g := fun _ => .unit) (fun _ => rfl)
      (by simp only [AtCall.exec, withIt, q1, q2]) (by simp only [Call.exec, withVec, hv]) hex
  | @rotate f m l' r i a k b k1 k2 k3 =>
    obtain ⟨p1, h1, h2⟩ := hpre
    obtain ⟨v, hv, rv, _⟩ := e.source hw p1
    have q1 := slot_it hw hs hl k1 hv
    have q2 := slot_it hw hs hl k2 hv
    have q3 := slot_it hw hs hl k3 hv
    refine atOk_answer hv (by simp only [AtCall.exec, withIt, q1, q2, q3]; rfl) (by simp only [Call.exec, withVec, hv]) ?_
    obtain ⟨y, h', e1, h3, _⟩ := C64_rotate_partial S h v _ _ _ _ a k b e.wf rv (pos v a) (pos v k) (pos v b) h1 hlim.1 p1.2.2 hlim.2
    exact ⟨y, h', e1, h3.1⟩
  | @shiftLeft f l' n r i a b k1 k2 =>
    obtain ⟨v, hv, rv, hsq⟩ := e.source hw hpre
    obtain ⟨hi, hab, hb⟩ := hpre
    have q1 := slot_it hw hs hl k1 hv
    have q2 := slot_it hw hs hl k2 hv
    refine atOk_answer hv (by simp only [AtCall.exec, withIt, q1, q2]; rfl) (by simp only [Call.exec, withVec, hv]) ?_
    by_cases hc : 0 < n ∧ a + n < b
    · obtain ⟨y, h', e1, h1, _⟩ := C64_shift_left_partial S h v _ _ _ a b n e.wf rv (pos v a) (pos v b) hc.1 hc.2 hb
        (hlim.imp (fun hx hy => hx ⟨hy.1, hy.2, by omega, by omega⟩) id)
      exact ⟨y, h', e1, h1.1⟩
    · by_cases h0 : n = 0
      · have e1 := C16_shift_left_nonpos S h.mem (Call.it v a) (Call.it v b) (n : Int) hsq.range (by omega)
        exact ⟨Call.it v b, h, by unfold onMem; rw [e1], (pos v b).1⟩
      · have e1 := C16_shift_left_all S h.mem (Call.it v a) (Call.it v b) (n : Int) hsq.range (by omega)
          (by rw [hsq.lenEq, slice_length _ hb]; omega)
        exact ⟨Call.it v a, h, by unfold onMem; rw [e1], (pos v a).1⟩
  | @shiftRight f l' n r i a b k1 k2 =>
    obtain ⟨v, hv, rv, hsq⟩ := e.source hw hpre
    obtain ⟨hi, hab, hb⟩ := hpre
    have q1 := slot_it hw hs hl k1 hv
    have q2 := slot_it hw hs hl k2 hv
    refine atOk_answer hv (by simp only [AtCall.exec, withIt, q1, q2]; rfl) (by simp only [Call.exec, withVec, hv]) ?_
    by_cases hc : 0 < n ∧ a + n < b
    · obtain ⟨y, h', e1, h1, _⟩ := C64_shift_right_partial S h v _ _ _ a b n e.wf rv (pos v a) (pos v b) hc.1 hc.2 hb
        (hlim.imp (fun hx hy => hx ⟨hy.1, hy.2, by omega, by omega⟩) id)
      exact ⟨y, h', e1, h1.1⟩
    · by_cases h0 : n = 0
      · have e1 := C17_shift_right_nonpos S h.mem (Call.it v a) (Call.it v b) (n : Int) hsq.range (by omega)
        exact ⟨Call.it v a, h, by unfold onMem; rw [e1], (pos v a).1⟩
      · have e1 := C17_shift_right_all S h.mem (Call.it v a) (Call.it v b) (n : Int) hsq.range (by omega)
          (by rw [hsq.lenEq, slice_length _ hb]; omega)
        exact ⟨Call.it v b, h, by unfold onMem; rw [e1], (pos v b).1⟩
  | @swapRanges f l' d r i j a b k k1 k2 k3 =>
    obtain ⟨p1, p2, hdis⟩ := hpre
    obtain ⟨v, hv, rv, hsq⟩ := e.source hw p1
    obtain ⟨o, ho, ro, _⟩ := e.source hw p2
    have q1 := slot_it hw hs hl k1 hv
    have q2 := slot_it hw hs hl k2 hv
    have q3 := slot_it hw hs hl k3 ho
    refine atOk_answer ho (by simp only [AtCall.exec, withIt, q1, q2, q3]; rfl) (by simp only [Call.exec, withVec, ho, hv]) ?_
    by_cases hij : i = j
    · subst hij
      rw [hv] at ho
      cases ho
      obtain ⟨y, h', e1, h1, _⟩ := C64_swap_ranges_same S h v _ _ _ _ a b k e.wf rv (pos v a) (pos v b) (pos v k) p1.2.1 p1.2.2 p2.2.2 (hdis rfl)
      exact ⟨y, h', e1, h1.1⟩
    · obtain ⟨y, m', e1, h1, _⟩ := C64_swap_ranges S h v o _ _ _ _ _ a b k rv ro (e.sep i j v o hv ho hij) (pos v a) (pos v b) (pos o k)
        p1.2.1 p1.2.2 p2.2.2
      exact ⟨y, _, e1, h1.1⟩
  | @transform op g f l' d r i j a b c k1 k2 k3 =>
    obtain ⟨hop, p1, p2, hov⟩ := hpre
    obtain ⟨o, ho, ro, hsq⟩ := e.source hw p1
    obtain ⟨v, hv, rv, _⟩ := e.source hw p2
    have hln := slice_length (Op.at' ls j) (a := a) p1.2.2
    have q1 := slot_it hw hs hl k1 ho
    have q2 := slot_it hw hs hl k2 ho
    have q3 := slot_it hw hs hl k3 hv
    refine atOk_answer hv (by simp only [AtCall.exec, withIt, q1, q2, q3]; rfl) (by simp only [Call.exec, withVec, ho, hv]) ?_
    obtain ⟨y, h', e1, h1, _⟩ := C64_transform S op g hop h v _ _ _ _ _ c e.wf rv hsq (pos v c) (by rw [hln]; exact p2.2.2)
      (e.overlap hw hv ho rv ro p1.2.1 p1.2.2 p2.2.2 hov)
    exact ⟨y, h', e1, h1.1⟩
  | @transform2 op g f l' f2 d r i j j2 a b c x k1 k2 k3 k4 =>
    obtain ⟨hop, p1, p3, p2, hov, hov2⟩ := hpre
    obtain ⟨o, ho, ro, hsq⟩ := e.source hw p1
    obtain ⟨o2, ho2, ro2, hsq2⟩ := e.source hw p3
    obtain ⟨v, hv, rv, _⟩ := e.source hw p2
    have hln := slice_length (Op.at' ls j) (a := a) p1.2.2
    have hln2 := slice_length (Op.at' ls j2) (a := c) p3.2.2
    have q1 := slot_it hw hs hl k1 ho
    have q2 := slot_it hw hs hl k2 ho
    have q3 := slot_it hw hs hl k3 ho2
    have q4 := slot_it hw hs hl k4 hv
    refine atOk_answer hv (by simp only [AtCall.exec, withIt, q1, q2, q3, q4]; rfl) (by simp only [Call.exec, withVec, ho, ho2, hv]) ?_
    obtain ⟨y, h', e1, h1, _⟩ := C64_transform2 S op g hop h v _ _ _ _ _ _ _ _ x e.wf rv hsq hsq2 (by omega) (pos v x)
      (by rw [hln]; exact p2.2.2) (e.overlap hw hv ho rv ro p1.2.1 p1.2.2 p2.2.2 hov)
      (e.overlap hw hv ho2 rv ro2 p3.2.1 p3.2.2 (by have := p2.2.2; omega) hov2)
    exact ⟨y, h', e1, h1.1⟩
  | @find f l' r i a b x k1 k2 =>
    obtain ⟨v, hv, rv, _⟩ := e.source hw hpre
    have q1 := slot_it hw hs hl k1 hv
    have q2 := slot_it hw hs hl k2 hv
    refine atOk_answer hv (by simp only [AtCall.exec, withIt, q1, q2]; rfl) (by simp only [Call.exec, withVec, hv]) ?_
    obtain ⟨y, e1, h1⟩ := C64_find S h v _ _ _ a b x rv (pos v a) (pos v b) hpre.2.1 hpre.2.2
    exact ⟨y, h, e1, h1.1⟩
  | @count f l' i a b x k1 k2 =>
    obtain ⟨v, hv, rv, _⟩ := e.source hw hpre
    have q1 := slot_it hw hs hl k1 hv
    have q2 := slot_it hw hs hl k2 hv
    exact atOk_none (x := onMem (BitLib.count S (Call.it v a) (Call.it v b) x)) (f := fun _ => vs) (g := fun n => .num n) (fun _ => rfl)
      (by simp only [AtCall.exec, withIt, q1, q2]) (by simp only [Call.exec, withVec, hv]) hex
  | @equal f l' f2 i j a b c k1 k2 k3 =>
    obtain ⟨p1, p2⟩ := hpre
    obtain ⟨v, hv, rv, _⟩ := e.source hw p1
    obtain ⟨o, ho, ro, _⟩ := e.source hw p2
    have q1 := slot_it hw hs hl k1 hv
    have q2 := slot_it hw hs hl k2 hv
    have q3 := slot_it hw hs hl k3 ho
    exact atOk_none (x := onMem (BitLib.equal S (Call.it v a) (Call.it v b) (Call.it o c))) (f := fun _ => vs) (g := fun n => .bool n) (fun _ => rfl)
      (by simp only [AtCall.exec, withIt, q1, q2, q3]) (by simp only [Call.exec, withVec, hv, ho]) hex
  | @newBits f l' j a b k1 k2 =>
    obtain ⟨o, ho, ro, _⟩ := e.source hw hpre
    have q1 := slot_it hw hs hl k1 ho
    have q2 := slot_it hw hs hl k2 ho
    exact atOk_none (x := newVec vs (BV.ofBits S P (Call.it o a) (Call.it o b))) (f := fun vs' => vs') (g := fun _ => .unit) (fun _ => rfl)
      (by simp only [AtCall.exec, withIt, q1, q2]) (by simp only [Call.exec, Op.exec, ho]; rfl) hex
  | @insert i p r d x k1 =>
    obtain ⟨v, hv, _, rv⟩ := e.get (i := i) hpre.1
    have q1 := slot_it hw hs hl k1 hv
    exact atOk_mem (f := fun v' => v'.insert S P (Call.it v d) x) hv (by simp only [AtCall.exec, withIt, q1])
      (by simp only [Op.exec, onVec, hv]; rfl) (wpV_insert S hw e.wf rv (pos v d) hpre.2 hlim.2 fun _ _ _ _ _ hp => hp)
  | @insertN i p n r d x k1 =>
    obtain ⟨v, hv, _, rv⟩ := e.get (i := i) hpre.1
    have q1 := slot_it hw hs hl k1 hv
    exact atOk_mem (f := fun v' => v'.insertN S P (Call.it v d) n x) hv (by simp only [AtCall.exec, withIt, q1])
      (by simp only [Op.exec, onVec, hv]; rfl)
      (wpV_insertN S hw e.wf rv (pos v d) hpre.2 (floatOk_small hw hlim.1) hlim.2 fun _ _ _ _ _ hp => hp)
  | @insertRange i p f l' r j d a b k1 k2 k3 =>
    obtain ⟨hi, hd, hj, hij, hab, hb⟩ := hpre
    obtain ⟨v, hv, _, rv⟩ := e.get hi
    obtain ⟨o, ho, _, ro⟩ := e.get hj
    have q1 := slot_it hw hs hl k1 hv
    have q2 := slot_it hw hs hl k2 ho
    have q3 := slot_it hw hs hl k3 ho
    have hlen : (((Op.at' ls j).take b).drop a).length = b - a := by simp; omega
    exact atOk_mem (f := fun v' => v'.insertRange S P (Call.it v d) (Call.it o a) (Call.it o b)) hv (by simp only [AtCall.exec, withIt, q1, q2, q3])
      (by simp only [Op.exec, onVec2, hv, ho]; rfl)
      (wpV_insertRange S hw e.wf rv (pos v d) hd (ro.holdsSeq hw hab hb) (ro.outside hw (e.sep i j v o hv ho hij) hb)
        (floatOk_small hw (by rw [hlen]; exact hlim.1)) (by rw [hlen]; exact hlim.2) fun _ _ _ _ _ hp => hp)
  | @erase i p r d k1 =>
    obtain ⟨v, hv, _, rv⟩ := e.get (i := i) hpre.1
    have q1 := slot_it hw hs hl k1 hv
    exact atOk_mem (f := fun v' => v'.erase S (Call.it v d)) hv (by simp only [AtCall.exec, withIt, q1])
      (by simp only [Op.exec, onVec, hv]; rfl) (wpV_erase S hw e.wf rv (pos v d) hpre.2 hlim.2 fun _ _ _ _ _ hp => hp)
  | @eraseRange i f l' r a b k1 k2 =>
    obtain ⟨v, hv, _, rv⟩ := e.get (i := i) hpre.1
    have q1 := slot_it hw hs hl k1 hv
    have q2 := slot_it hw hs hl k2 hv
    exact atOk_mem (f := fun v' => v'.eraseRange S P (Call.it v a) (Call.it v b)) hv (by simp only [AtCall.exec, withIt, q1, q2])
      (by simp only [Op.exec, onVec, hv]; rfl)
      (wpV_eraseRange S hw e.wf rv (pos v a) (pos v b) hpre.2.1 hpre.2.2 (.inr (Nat.lt_of_le_of_lt (Nat.sub_le _ _) hlim.1)) hlim.2
        fun _ _ _ _ _ hp => hp)

/-- The algorithms and observers leave the vectors where they are. -/
theorem exec_alg {c : Call w} {vs' : List BV} {h' : Heap w} {ans : Ans} (hc : ∀ op, c ≠ .vec op) (he : c.exec S P vs h = .ok ((vs', ans), h')) :
    vs' = vs := by
  have one : ∀ {α : Type} {x : V w α} {g : α → Ans}, (x >>= fun y => pure (vs, g y)) h = .ok ((vs', ans), h') → vs' = vs := by
    intro α x g hx
    obtain ⟨y, h1, _, e2⟩ := runV_bind_inv hx
    cases e2
    rfl
  have nest : ∀ {i : Nat} {f : BV → V w (List BV × Ans)}, (∀ v, f v h = .ok ((vs', ans), h') → vs' = vs) →
      withVec vs i f h = .ok ((vs', ans), h') → vs' = vs := by
    intro i f hf hx
    unfold withVec at hx
    cases hv : vs[i]? with
    | none => rw [hv] at hx; cases hx
    | some v => rw [hv] at hx; exact hf v hx
  cases c with
  | vec op => exact absurd rfl (hc op)
  | size i =>
    refine nest (fun v hx => ?_) he
    cases hx
    rfl
  | _ => first | exact nest (fun _ => one) he | exact nest (fun _ => nest fun _ => one) he | exact nest (fun _ => nest fun _ => nest fun _ => one) he

theorem follows_call (hw : 0 < w) {c : Call w} {caps : List Nat} {vs' : List BV} {h' : Heap w} {ans : Ans} (e : EnvOk h vs ls)
    (hc : CapsOk w vs caps) (hpre : c.Pre ls) (hlim : c.Lim S ls) (he : c.exec S P vs h = .ok ((vs', ans), h')) :
    Follows w vs vs' (c.fate ls caps) := by
  by_cases hv : ∃ op, c = .vec op
  · obtain ⟨op, rfl⟩ := hv
    have he : (op.exec S P vs >>= fun vs' => pure (vs', Ans.unit)) h = .ok ((vs', ans), h') := he
    obtain ⟨vs1, h1, e1, e2⟩ := runV_bind_inv he
    cases e2
    exact follows_op hw S P op e hc hpre hlim e1
  · have h1 : ∀ op, c ≠ .vec op := fun op hx => hv ⟨op, hx⟩
    rw [exec_alg h1 he, show c.fate ls caps = Fate.same caps by cases c <;> first | exact absurd rfl (h1 _) | rfl]
    exact follows_refl hc

theorem SlotsLoc.move {vs' : List BV} {l : Slots Loc Loc Loc} {t : Slots Int Int Int} (hl : SlotsLoc w vs l t) {f : Fate} (hf : Follows w vs vs' f) :
    SlotsLoc w vs' (l.move f.keep) t := by
  have key : ∀ {x : Option Loc} {y : Option Int} {p : Loc}, (∀ p, x = some p → ∃ a, y = some a ∧ LocAt w vs p a) → x.bind f.keep = some p →
      ∃ a, y = some a ∧ LocAt w vs' p a := by
    intro x y p h1 h2
    rw [Option.bind_eq_some_iff] at h2
    obtain ⟨q, h3, h4⟩ := h2
    obtain ⟨a, h5, h6⟩ := h1 q h3
    exact ⟨a, h5, hf.2 q p a h4 h6⟩
  exact ⟨fun k p hp => key (hl.it k) hp, fun k p hp => key (hl.ref k) hp, fun k p hp => key (hl.ptr k) hp⟩

end

/-! ### Storage that is gone -/

/-- The bits of the storage of `v` are gone. -/
def Gone (v : Vec) (h' : Heap w) : Prop :=
  ∀ a, v.ptr * (w : Int) ≤ a → a < v.ptr * (w : Int) + (v.cap : Int) * (w : Int) → bitAt h'.mem a = none

theorem realloc_gone (hw : 0 < w) {v : Vec} {h : Heap w} (cap : Nat) (hok : VecOk h v) :
    ∃ v' h', v.realloc cap h = .ok (v', h') ∧ v'.ptr = h.next ∧ v'.size = v.size ∧ Gone v h' := by
  refine ⟨_, _, rfl, rfl, rfl, ?_⟩
  intro a h1 h2
  have := hok.below
  dsimp only
  rw [bitAt_place_move hw, if_neg (by omega), bitAt_place_none hw, if_pos ⟨h1, h2⟩]

theorem destroy_gone (hw : 0 < w) (v : BV) (h : Heap w) : ∃ h', v.destroy h = .ok ((), h') ∧ Gone v.vec h' := by
  refine ⟨_, rfl, ?_⟩
  intro a h1 h2
  dsimp only
  rw [bitAt_place_none hw, if_pos ⟨h1, h2⟩]

theorem reserve_gone (hw : 0 < w) (P : Policy) {v : BV} {h : Heap w} {l : List Bool} {n : Nat} (hr : Rep h v l) (hn : n < 2 ^ 32)
    (hc : v.capacity w < n) : ∃ v' h', v.reserve P n h = .ok (v', h') ∧ Gone v.vec h' := by
  obtain ⟨v', h', e, _, _, g⟩ := realloc_gone hw (P.alloc (wordCount w n)) hr.ok
  refine ⟨⟨v', v.length⟩, h', ?_, g⟩
  have hlt : ¬ wordCount w n ≤ v.vec.cap := by
    rw [Obj.wordCount_le_iff hw hn]
    unfold BV.capacity at hc
    omega
  unfold BV.reserve Vec.reserve
  rw [if_neg hlt, runV_bind_ok e]
  rfl

theorem push_gone (hw : 0 < w) (S : ShiftSem w) (P : Policy) {v : BV} {h : Heap w} {l : List Bool} (b : Bool) (hwf : h.WF) (hr : Rep h v l)
    (hc : l.length = v.capacity w) : ∃ v' h', v.pushBack S P b h = .ok (v', h') ∧ Gone v.vec h' := by
  have hl := hr.len
  have hf := hr.fit
  have hcap := hr.ok.cap
  unfold BV.capacity at hc
  have hcw := Nat.mul_le_mul_right w hcap
  have hsz : v.vec.size = v.vec.cap := Nat.eq_of_mul_eq_mul_right hw (by omega)
  obtain ⟨v1, h1, e, hp, hs, g⟩ := realloc_gone hw (P.grow v.vec.cap (v.vec.size + 1)) hr.ok
  have hb := hr.ok.below
  have hroom : ∃ v2 h2, v.room P h = .ok (v2, h2) ∧ v2.ptr = h.next ∧ Gone v.vec h2 := by
    refine ⟨{ v1 with size := v1.size + 1 }, { h1 with mem := h1.mem.place (v1.ptr + (v1.size : Int)) 1 fun _ => some 0#w }, ?_, hp, ?_⟩
    · unfold BV.room Vec.pushBack Vec.ensure
      rw [if_pos (by omega), if_neg (by omega), runV_bind_ok e]
    · intro a a1 a2
      dsimp only
      have h3 : (0 : Int) ≤ (v1.size : Int) * (w : Int) := by positivity
      rw [bitAt_place hw, if_neg (by rw [hp, Int.add_mul]; omega)]
      exact g a a1 a2
  obtain ⟨v2, h2, e2, hp2, g2⟩ := hroom
  obtain ⟨_, _, e3, s3, o3, f3, _⟩ := wpV_room (P := P) hw hwf hr (Q := fun vec h' => VStep h v.vec h' vec ∧ VecOk h' vec ∧ v.length + 1 ≤ vec.size * w ∧ True)
    (fun _ _ s o f _ => ⟨s, o, f, trivial⟩)
  rw [e2] at e3
  cases e3
  have hfi : (v.length : Int) + 1 ≤ (v2.size : Int) * (w : Int) := by exact_mod_cast f3
  have hset := wpV_setBit (v := ⟨v2, v.length⟩) (b := b) (i := (v.length : Int)) S hw s3.wf o3 (by omega) (by dsimp only; omega)
    (Q := fun _ h' => VStep h2 v2 h' v2) (fun h' s _ _ => s)
  obtain ⟨_, h4, e4, s4⟩ := hset
  refine ⟨⟨v2, v.length + 1⟩, h4, ?_, ?_⟩
  · unfold BV.pushBack
    rw [runV_bind_ok e2]
    dsimp only
    rw [← bind_assoc, runV_bind_ok e4]
    rfl
  · intro a a1 a2
    have hn := s3.next
    have hpw : v2.ptr * (w : Int) = h.next * (w : Int) := by rw [hp2]
    rw [s4.frame a (by omega) (.inl (by omega))]
    exact g2 a a1 a2

end BitLib
