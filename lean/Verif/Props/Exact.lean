import Verif.Props.Programs
import Verif.Lemmas.Throw
import Verif.Props.Overshift
import Verif.Props.Rotate
/-
C80: the limits used in C35 and C65 are exact. `Op.Within` gives, for the state of the program at a call, the condition under which the call
does what it does to plain lists. `Op.Lim` (C35) implies it; outside of it the call is undefined or leaves a vector without
storage for its elements.
-/
namespace BitLib
variable {w : Nat}

/-- Number of words in use by vector `i`. -/
def wordsOf (vs : List BV) (i : Nat) : Nat := ((vs[i]?).map fun v => v.vec.size).getD 0

/-- When a valid call on vectors `vs` holding `ls` does its work. `full` says that shifting a word by its width is defined. -/
def Op.Within (full : Prop) (vs : List BV) (ls : List (List Bool)) (op : Op w) : Prop :=
  match op with
  | newCount n | newCountVal n _ | shrink _ n => n < 2 ^ 32
  | insert .. | erase .. => op.NoFullWord w ls ∨ full
  | insertN i _ n _ => n = 0 ∨ (FloatOk w (wordsOf vs i) (at' ls i).length n ∧ (op.NoFullWord w ls ∨ full))
  | insertRange i _ _ a b => a = b ∨ (FloatOk w (wordsOf vs i) (at' ls i).length (b - a) ∧ (op.NoFullWord w ls ∨ full))
  | eraseRange i a b => a = b ∨ ((at' ls i).length - (b - a) < 2 ^ 32 ∧ (op.NoFullWord w ls ∨ full))
  | _ => True

/-- A call that is right: it ends, and the vectors hold what the lists hold. -/
def Op.Right (S : ShiftSem w) (P : Policy) (h : Heap w) (vs : List BV) (ls : List (List Bool)) (op : Op w) : Prop :=
  ∃ vs' h', op.exec S P vs h = .ok (vs', h') ∧ EnvOk h' vs' (op.apply ls)

theorem map_inv {α β : Type} {x : V w α} {g : α → β} {h h' : Heap w} {b : β} (he : (g <$> x) h = .ok (b, h')) :
    ∃ a, x h = .ok (a, h') ∧ b = g a := by
  cases hx : x h with
  | error e =>
    have : (g <$> x) h = .error e := by show (Except.bind (x h) fun p => _) = _; rw [hx]; rfl
    rw [this] at he; cases he
  | ok p =>
    have : (g <$> x) h = .ok (g p.1, p.2) := by show (Except.bind (x h) fun p => _) = _; rw [hx]; rfl
    rw [this] at he; cases he
    exact ⟨p.1, rfl, rfl⟩

theorem onVec_inv {vs vs' : List BV} {i : Nat} {f : BV → V w BV} {h h' : Heap w} {v : BV} (hv : vs[i]? = some v)
    (he : onVec vs i f h = .ok (vs', h')) : ∃ v', f v h = .ok (v', h') ∧ vs' = vs.set i v' := by
  unfold onVec at he
  rw [hv] at he
  obtain ⟨v', h1, e1, e2⟩ := runV_bind_inv he
  cases e2
  exact ⟨v', e1, rfl⟩

theorem newVec_inv {vs vs' : List BV} {f : V w BV} {h h' : Heap w} (he : newVec vs f h = .ok (vs', h')) :
    ∃ v', f h = .ok (v', h') ∧ vs' = vs ++ [v'] := by
  obtain ⟨v', h1, e1, e2⟩ := runV_bind_inv he
  cases e2
  exact ⟨v', e1, rfl⟩

theorem EnvOk.at_set {h : Heap w} {vs : List BV} {ls : List (List Bool)} {i : Nat} {v : BV} {l : List Bool} (hi : i < ls.length)
    (e : EnvOk h (vs.set i v) (ls.set i l)) : Rep h v l := by
  have hl := e.len
  simp at hl
  exact e.rep i v l (by rw [List.getElem?_set, if_pos rfl, if_pos (by omega)]) (by rw [List.getElem?_set, if_pos rfl, if_pos hi])

theorem EnvOk.at_push {h : Heap w} {vs : List BV} {ls : List (List Bool)} {v : BV} {l : List Bool}
    (e : EnvOk h (vs ++ [v]) (ls ++ [l])) : Rep h v l := by
  have hl := e.len
  simp at hl
  exact e.rep vs.length v l (by simp) (by rw [hl]; simp)

theorem fresh_size {P : Policy} {n : Nat} {f : Nat → Option (BitVec w)} {h h' : Heap w} {v : Vec} (e : Vec.fresh P n f h = .ok (v, h')) :
    v.size = n := by
  unfold Vec.fresh at e
  cases e
  rfl

theorem wpV_onVec_at {h : Heap w} {vs : List BV} {ls : List (List Bool)} (e : EnvOk h vs ls) {i : Nat} {v : BV} (hv : vs[i]? = some v)
    {f : BV → V w BV} {l' : List Bool}
    (hf : wpV (f v) h fun v' h' => (∃ u, VStep h v.vec h' u ∧ (v'.vec = u ∨ v'.vec.cap = 0)) ∧ Rep h' v' l') :
    wpV (onVec vs i f) h fun vs' h' => EnvOk h' vs' (ls.set i l') := by
  unfold onVec
  rw [hv]
  show wpV (f v >>= _) h _
  rw [wpV_bind]
  refine wpV_mono hf ?_
  rintro v' h' ⟨⟨u, s, hu⟩, r'⟩
  exact wpV_pure (e.update hv s hu r')

/-- C80: for a call whose precondition holds, in any state of a program: the call is right exactly if it is within `Op.Within`. For the
two kinds of word types: shifts of a word by its width are undefined (32 and 64 bits) or defined (8 and 16 bits). -/
theorem C80_step (hw : 0 < w) (hw' : w ≤ 2 ^ 32) (S : ShiftSem w) (hS : S = Unpromoted w ∨ S.FullShiftOk) (P : Policy) (h : Heap w) (vs : List BV)
    (ls : List (List Bool)) (op : Op w) (e : EnvOk h vs ls) (hpre : op.Pre ls) :
    op.Right S P h vs ls ↔ op.Within S.FullShiftOk vs ls := by
  have hwords : ∀ {i : Nat} {v : BV}, vs[i]? = some v → wordsOf vs i = v.vec.size := by
    intro i v hv; unfold wordsOf; rw [hv]; rfl
  constructor
  · rintro ⟨vs', h', e1, ok⟩
    cases op with
    | newCount n =>
      obtain ⟨v', e2, rfl⟩ := newVec_inv e1
      have r := ok.at_push
      obtain ⟨u, h1, e3, e4⟩ := runV_bind_inv e2
      cases e4
      have := r.fit
      rw [show (⟨u, n⟩ : BV).vec.size = _ from fresh_size e3] at this
      exact (C34_exact hw hw' n).1 this
    | newCountVal n x =>
      obtain ⟨v', e2, rfl⟩ := newVec_inv e1
      have r := ok.at_push
      obtain ⟨u, h1, e3, e4⟩ := runV_bind_inv e2
      cases e4
      have := r.fit
      rw [show (⟨u, n⟩ : BV).vec.size = _ from fresh_size e3] at this
      exact (C34_exact hw hw' n).1 this
    | shrink i n =>
      obtain ⟨v, hv, _, r⟩ := e.get hpre.1
      obtain ⟨v', e2, rfl⟩ := onVec_inv hv e1
      have r' := ok.at_set hpre.1
      obtain ⟨u, h1, e3, e4⟩ := runV_bind_inv e2
      cases e4
      have := r'.fit
      rw [show (⟨u, n⟩ : BV).vec.size = _ from resize_size e3] at this
      exact (C34_exact hw hw' n).1 this
    | insert i d x =>
      refine hS.symm.imp ?_ ?_ |>.symm
      · exact id
      · rintro rfl hc
        obtain ⟨v, hv, _, r⟩ := e.get hpre.1
        obtain ⟨v', e2, rfl⟩ := onVec_inv hv e1
        obtain ⟨p, e3, rfl⟩ := map_inv e2
        rw [failsV_insert hw e.wf r (IsPos.begin_add hw v d) hpre.2 hc.1 hc.2.1 hc.2.2] at e3
        cases e3
    | erase i d =>
      refine hS.symm.imp ?_ ?_ |>.symm
      · exact id
      · rintro rfl hc
        obtain ⟨v, hv, _, r⟩ := e.get hpre.1
        obtain ⟨v', e2, rfl⟩ := onVec_inv hv e1
        obtain ⟨p, e3, rfl⟩ := map_inv e2
        rw [failsV_erase hw r (IsPos.begin_add hw v d) hc.1 hc.2.1 hc.2.2] at e3
        cases e3
    | insertN i d n x =>
      by_cases h0 : n = 0
      · exact .inl h0
      · obtain ⟨v, hv, _, r⟩ := e.get hpre.1
        obtain ⟨v', e2, rfl⟩ := onVec_inv hv e1
        have r' := ok.at_set hpre.1
        obtain ⟨p, e3, rfl⟩ := map_inv e2
        have hfl := insertN_float (by omega) e3 r'.fit
        rw [r.len] at hfl
        refine .inr ⟨by rw [hwords hv]; exact hfl, ?_⟩
        refine (hS.symm.imp id ?_).symm
        rintro rfl hc
        rw [failsV_insertN hw e.wf r (IsPos.begin_add hw v d) hpre.2 hfl (by omega) hc.1 hc.2.1 hc.2.2] at e3
        cases e3
    | insertRange i d j a b =>
      by_cases h0 : a = b
      · exact .inl h0
      · obtain ⟨hi, hd, hj, hij, hab, hb⟩ := hpre
        obtain ⟨v, hv, _, r⟩ := e.get hi
        obtain ⟨o, ho, _, ro⟩ := e.get hj
        have hlen : (((Op.at' ls j).take b).drop a).length = b - a := by simp; omega
        have hs := ro.holdsSeq hw hab hb
        have hs' := hs.len
        rw [hlen] at hs'
        have e1' : (Prod.fst <$> v.insertRange S P (v.begin.add (d : Int)) (o.begin.add (a : Int)) (o.begin.add (b : Int)) >>=
            fun v' => pure (vs.set i v')) h = .ok (vs', h') := by
          have := e1
          unfold Op.exec onVec2 at this
          dsimp only at this
          rw [hv, ho] at this
          exact this
        obtain ⟨v', h1, e2, e4⟩ := runV_bind_inv e1'
        cases e4
        have r' := ok.at_set hi
        obtain ⟨p, e3, rfl⟩ := map_inv e2
        have hfl := insertRange_float (n := b - a) (by omega) hs' e3 r'.fit
        rw [r.len] at hfl
        refine .inr ⟨by rw [hwords hv]; exact hfl, ?_⟩
        refine (hS.symm.imp id ?_).symm
        rintro rfl hc
        rw [failsV_insertRange hw e.wf r (IsPos.begin_add hw v d) hd hs (by rw [hlen]; exact hfl) (by
          intro hx; rw [hx] at hlen; simp at hlen; omega) hc.1 (by rw [hlen]; exact hc.2.1) (by rw [hlen]; exact hc.2.2)] at e3
        cases e3
    | eraseRange i a b =>
      obtain ⟨hi, hab, hb⟩ := hpre
      by_cases h0 : a = b
      · exact .inl h0
      · obtain ⟨v, hv, _, r⟩ := e.get hi
        obtain ⟨v', e2, rfl⟩ := onVec_inv hv e1
        have r' := ok.at_set hi
        obtain ⟨p, e3, rfl⟩ := map_inv e2
        refine .inr ⟨eraseRange_small hw hw' r (IsPos.begin_add hw v a) (IsPos.begin_add hw v b) (by omega) hb e3 r', ?_⟩
        refine (hS.symm.imp id ?_).symm
        rintro rfl hc
        rw [failsV_eraseRange hw r (IsPos.begin_add hw v a) (IsPos.begin_add hw v b) (by omega) hc.1 hc.2.1 hc.2.2.2] at e3
        cases e3
    | _ => trivial
  · intro hin
    -- calls without a limit on the state are those of C35
    have easy : op.Lim S ls → op.Right S P h vs ls := fun hl => C35_step_partial hw S P h vs ls op e hpre hl
    cases op with
    | insertN i d n x =>
      obtain ⟨v, hv, _, r⟩ := e.get hpre.1
      refine wpV_onVec_at e hv (wpV_map ?_)
      rcases hin with rfl | ⟨hfl, hfw⟩
      · unfold BV.insertN
        rw [wpV_bind]
        refine wpV_onMem ?_
        obtain ⟨q1, q2⟩ := IsPos.begin_add hw v d
        rw [wp_distance]
        refine ⟨by rw [BV.begin_addr]; omega, ?_⟩
        rw [if_pos rfl]
        refine wpV_pure ⟨⟨_, VStep.refl e.wf _, .inl rfl⟩, ?_⟩
        simpa using r
      · rw [hwords hv] at hfl
        exact wpV_insertN S hw e.wf r (IsPos.begin_add hw v d) hpre.2 hfl hfw fun _ _ _ s r _ => ⟨⟨_, s, .inl rfl⟩, r⟩
    | insertRange i d j a b =>
      obtain ⟨hi, hd, hj, hij, hab, hb⟩ := hpre
      obtain ⟨v, hv, _, r⟩ := e.get hi
      obtain ⟨o, ho, _, ro⟩ := e.get hj
      have hlen : (((Op.at' ls j).take b).drop a).length = b - a := by simp; omega
      unfold Op.Right Op.exec
      dsimp only
      unfold onVec2
      rw [hv, ho]
      show wpV (_ >>= _) h _
      rw [wpV_bind]
      refine wpV_map ?_
      rcases hin with rfl | ⟨hfl, hfw⟩
      · unfold BV.insertRange
        rw [wpV_bind]
        refine wpV_onMem ?_
        obtain ⟨q1, q2⟩ := IsPos.begin_add hw v d
        rw [wp_distance]
        refine ⟨by rw [BV.begin_addr]; omega, ?_⟩
        rw [wpV_bind]
        refine wpV_onMem ?_
        rw [wp_distance]
        refine ⟨Int.le_refl _, ?_⟩
        rw [if_pos (by rw [Int.sub_self]; rfl)]
        refine wpV_pure (wpV_pure (e.update hv (VStep.refl e.wf _) (.inl rfl) ?_))
        simpa using r
      · rw [hwords hv] at hfl
        refine wpV_insertRange S hw e.wf r (IsPos.begin_add hw v d) hd (ro.holdsSeq hw hab hb)
          (ro.outside hw (e.sep i j v o hv ho hij) hb) (by rw [hlen]; exact hfl) (by rw [hlen]; exact hfw) ?_
        intro v' it h' s r' _
        exact wpV_pure (e.update hv s (.inl rfl) r')
    | eraseRange i a b =>
      obtain ⟨v, hv, _, r⟩ := e.get hpre.1
      refine wpV_onVec_at e hv (wpV_map (wpV_eraseRange S hw e.wf r (IsPos.begin_add hw v a) (IsPos.begin_add hw v b) hpre.2.1 hpre.2.2 ?_ ?_
        fun _ _ _ s r _ => ⟨⟨_, s, .inl rfl⟩, r⟩))
      · exact hin.imp id fun hx => hx.1
      · rcases hin with rfl | hx
        · exact .inl fun hc => by omega
        · exact hx.2
    | newCount n => exact easy ⟨hin, .inl trivial⟩
    | newCountVal n x => exact easy ⟨hin, .inl trivial⟩
    | shrink i n => exact easy ⟨hin, .inl trivial⟩
    | insert i d x => exact easy ⟨trivial, hin⟩
    | erase i d => exact easy ⟨trivial, hin⟩
    | _ => exact easy ⟨trivial, .inl trivial⟩

/-- Every call of a history is right. -/
def RightAlong (S : ShiftSem w) (P : Policy) : List (Op w) → Heap w → List BV → List (List Bool) → Prop
  | [], _, _, _ => True
  | op :: ops, h, vs, ls => ∃ vs' h', op.exec S P vs h = .ok (vs', h') ∧ EnvOk h' vs' (op.apply ls) ∧ RightAlong S P ops h' vs' (op.apply ls)

/-- Every call of a history is within the limits in the state in which it is made. -/
def WithinAlong (S : ShiftSem w) (P : Policy) : List (Op w) → Heap w → List BV → List (List Bool) → Prop
  | [], _, _, _ => True
  | op :: ops, h, vs, ls => op.Within S.FullShiftOk vs ls ∧
      ∀ vs' h', op.exec S P vs h = .ok (vs', h') → WithinAlong S P ops h' vs' (op.apply ls)

/-- C80: a history of valid calls goes right, call by call, exactly if every call is within the limits. -/
theorem C80_history (hw : 0 < w) (hw' : w ≤ 2 ^ 32) (S : ShiftSem w) (hS : S = Unpromoted w ∨ S.FullShiftOk) (P : Policy) (h : Heap w)
    (vs : List BV) (ls : List (List Bool)) (ops : List (Op w)) (e : EnvOk h vs ls) (hpre : Along (fun ls op => op.Pre ls) ops ls) :
    RightAlong S P ops h vs ls ↔ WithinAlong S P ops h vs ls := by
  induction ops generalizing h vs ls with
  | nil => exact Iff.rfl
  | cons op ops ih =>
    have st := C80_step hw hw' S hS P h vs ls op e hpre.1
    constructor
    · rintro ⟨vs', h', e1, ok, rest⟩
      refine ⟨st.1 ⟨vs', h', e1, ok⟩, fun vs2 h2 e2 => ?_⟩
      rw [e1] at e2
      cases e2
      exact (ih h' vs' _ ok hpre.2).1 rest
    · rintro ⟨h1, h2⟩
      obtain ⟨vs', h', e1, ok⟩ := st.2 h1
      exact ⟨vs', h', e1, ok, (ih h' vs' _ ok hpre.2).2 (h2 vs' h' e1)⟩

/-! ### Calls of algorithms -/

/-- Whether bit `a` of vector `i`, counted from the start of its storage, may be accessed. -/
def hasBit (h : Heap w) (vs : List BV) (i a : Nat) : Bool :=
  ((vs[i]?).map fun v => (bitAt h.mem (v.vec.ptr * (w : Int) + (a : Int))).isSome).getD false

/-- When a valid call does its work. -/
def Call.Within (full : Prop) (h : Heap w) (vs : List BV) (ls : List (List Bool)) (c : Call w) : Prop :=
  match c with
  | vec op => op.Within full vs ls
  | copyBackward _ a b _ d => ¬ (a % w = 0 ∧ b % w = (d + (b - a)) % w ∧ a / w + 2 ≤ b / w) ∨ full
  | reverse _ a b => ¬ (a % w ≠ 0 ∧ b = (a / w + 1) * w) ∨ full
  | rotate i a k b => k < b ∨ a = b ∨ b % w ≠ 0 ∨ (w < b - a ∧ hasBit h vs i b)
  | shiftLeft _ a b n | shiftRight _ a b n => ¬ (a % w = 0 ∧ b - a = w ∧ 0 < n ∧ n < w) ∨ full
  | count i a b _ => a < b ∨ hasBit h vs i a
  | debugString i => (Op.at' ls i).length < 2 ^ 31
  | _ => True

/-- A call that is right: it ends, the vectors hold what the lists hold, and the answer is the one of the lists. -/
def Call.Right (S : ShiftSem w) (P : Policy) (h : Heap w) (vs : List BV) (ls : List (List Bool)) (c : Call w) : Prop :=
  ∃ vs' ans h' ls', c.exec S P vs h = .ok ((vs', ans), h') ∧ c.Spec ls ls' ans ∧ EnvOk h' vs' ls'

/-- Excluded: a `rotate` in which a round overflows (C19), which is wrong for some elements and right for others. -/
def Call.RotateFits : Call w → Prop
  | rotate _ a k b => k < b → RotFits w ((k : Int) - a) ((b : Int) - k)
  | _ => True

theorem withVec_inv {α : Type} {vs : List BV} {i : Nat} {f : BV → V w α} {h h' : Heap w} {v : BV} {x : α} (hv : vs[i]? = some v)
    (he : withVec vs i f h = .ok (x, h')) : f v h = .ok (x, h') := by
  unfold withVec at he
  rw [hv] at he
  exact he

theorem onMem_error {α : Type} {p : M w α} {h h' : Heap w} {u : UB} {x : α} (hp : p h.mem = .error u) (he : onMem p h = .ok (x, h')) : False := by
  unfold onMem at he
  rw [hp] at he
  cases he

/-- C80: for a call whose precondition holds, in any state of a program: the call is right exactly if it is within `Call.Within`. -/
theorem C80_call (hw : 0 < w) (hw' : w ≤ 2 ^ 32) (pw : Nat) (hp : w ≤ pw) (hpw : pw + w ≤ 2 ^ 64) (P : Policy) (h : Heap w) (vs : List BV)
    (ls : List (List Bool)) (c : Call w) (e : EnvOk h vs ls) (hpre : c.Pre ls) (hrot : c.RotateFits) :
    c.Right (.strict pw hp) P h vs ls ↔ c.Within (ShiftSem.strict pw hp).FullShiftOk h vs ls := by
  have pos := fun (v : BV) (d : Nat) => IsPos.begin_add hw v d
  have hS : pw = w ∨ (ShiftSem.strict pw hp).FullShiftOk := by
    rcases Nat.lt_or_eq_of_le hp with h1 | h1
    · exact .inr (.inl h1)
    · exact .inl h1.symm
  have hbit : ∀ {i : Nat} {v : BV} (a : Nat), vs[i]? = some v → hasBit h vs i a = (bitAt h.mem (v.vec.ptr * (w : Int) + (a : Int))).isSome := by
    intro i v a hv; unfold hasBit; rw [hv]; rfl
  constructor
  · rintro ⟨vs', ans, h', ls', e1, sp, ok⟩
    cases c with
    | vec op =>
      obtain ⟨vs1, h1, e2, e3⟩ := runV_bind_inv e1
      cases e3
      obtain ⟨rfl, _⟩ := sp
      refine (C80_step hw hw' (.strict pw hp) ?_ P h vs ls op e hpre).1 ⟨_, _, e2, ok⟩
      rcases hS with rfl | hS
      · exact .inl rfl
      · exact .inr hS
    | copyBackward j a b i d =>
      refine (hS.symm.imp id ?_).symm
      rintro rfl ⟨c1, c2, c3⟩
      obtain ⟨p1, p2, hov⟩ := hpre
      obtain ⟨o, ho, ro, hs⟩ := e.source hw p1
      obtain ⟨v, hv, rv, hs2⟩ := e.source hw p2
      obtain ⟨r, h1, e2, _⟩ := runV_bind_inv (withVec_inv hv (withVec_inv ho e1))
      have hl := slice_length (Op.at' ls j) (a := a) p1.2.2
      have hlen := hs.lenEq
      have q1 := (pos v d).2
      have q2 := (pos v (d + (b - a))).2
      refine onMem_error ((C18_copy_backward_exact h.mem _ _ _ hs.range (pos v (d + (b - a))).1 ?_ (e.overlapB hw hv ho rv ro p1.2.1 p1.2.2 p2.2.2 hov)).2 ?_) e2
      · intro x h3 h4
        refine hs2.range.mapped x ?_ h4
        have h7 : (Call.it v d : BitIter pw).addr = _ := (pos v d).2
        have := p1.2.1
        have h8 : (Call.it o a : BitIter pw).addr = _ := (pos o a).2
        have h9 : (Call.it o b : BitIter pw).addr = _ := (pos o b).2
        unfold len at h3
        omega
      · unfold Call.it
        rw [(pos o a).eq hw, (pos o b).eq hw, (pos v (d + (b - a))).eq hw]
        exact ⟨c1, c2, by dsimp only; omega⟩
    | reverse i a b =>
      refine (hS.symm.imp id ?_).symm
      rintro rfl ⟨c1, c2⟩
      obtain ⟨v, hv, rv, hs⟩ := e.source hw hpre
      obtain ⟨r, h1, e2, _⟩ := runV_bind_inv (withVec_inv hv e1)
      have hlt : a < b := by
        rcases Nat.lt_or_eq_of_le hpre.2.1 with hx | hx
        · exact hx
        · subst hx; exact absurd (by rw [c2]; exact Nat.mul_mod_left _ _) c1
      have q1 := (pos v a).2
      have q2 := (pos v b).2
      refine onMem_error ((C18_reverse_exact h.mem _ _ hs.range ?_).2 ⟨fun h6 => c1 ((pos v a).pos_zero.1 h6), ?_⟩) e2
      · unfold Call.it; omega
      · unfold Call.it
        rw [q2, (pos v a).eq hw]
        have h6 : (v.vec.ptr + ((a / pw : Nat) : Int) + 1) * (pw : Int) = v.vec.ptr * (pw : Int) + (((a / pw + 1) * pw : Nat) : Int) := by
          push_cast; ring
        dsimp only
        rw [h6, ← c2]
    | rotate i a k b =>
      by_contra hc
      simp only [Call.Within, not_or, not_and, ne_eq, Nat.not_lt, not_not] at hc
      obtain ⟨c1, c2, c3, c4⟩ := hc
      obtain ⟨p1, h1, h2⟩ := hpre
      obtain ⟨v, hv, rv, hs⟩ := e.source hw p1
      obtain ⟨r, h3, e2, e3⟩ := runV_bind_inv (withVec_inv hv e1)
      have hkb : k = b := by omega
      subst hkb
      have q1 := (pos v a).2
      have q2 := (pos v k).2
      have hl := hs.lenEq
      rw [slice_length _ p1.2.2] at hl
      have hne : (Call.it v a : BitIter w).addr < (Call.it v k : BitIter w).addr := by unfold Call.it; omega
      obtain ⟨o1, o2, o3, o4⟩ := C20_outcomes pw hp hpw h.mem (Call.it v a) (Call.it v k) hs.range hne ((pos v k).pos_zero.2 c3)
      rw [hl] at o1 o2 o3 o4
      rcases Nat.lt_trichotomy (k - a) w with hx | hx | hx
      · exact onMem_error (o3 (by omega)) e2
      · rcases Nat.lt_or_eq_of_le hp with h5 | h5
        · unfold onMem at e2
          rw [o1 (by omega) h5] at e2
          cases e2
          cases e3
          have := sp.2
          injection this with this
          rw [show (Call.it v k : BitIter w).diff v.begin = (k : Int) from (pos v k).diff] at this
          omega
        · exact onMem_error (o2 (by omega) h5) e2
      · have := c4 hx
        rw [hbit k hv] at this
        refine onMem_error (o4 (by omega) ?_) e2
        rw [show (Call.it v k : BitIter w).addr = v.vec.ptr * (w : Int) + (k : Int) from q2]
        simpa using this
    | shiftLeft i a b n =>
      refine (hS.symm.imp id ?_).symm
      rintro rfl ⟨c1, c2, c3, c4⟩
      obtain ⟨v, hv, rv, hs⟩ := e.source hw hpre
      obtain ⟨r, h1, e2, _⟩ := runV_bind_inv (withVec_inv hv e1)
      exact onMem_error ((C18_shift_left_exact h.mem _ _ (n : Int) hs.range).2
        ⟨(pos v a).pos_zero.2 c1, by rw [hs.lenEq, slice_length _ hpre.2.2]; omega, by omega, by omega⟩) e2
    | shiftRight i a b n =>
      refine (hS.symm.imp id ?_).symm
      rintro rfl ⟨c1, c2, c3, c4⟩
      obtain ⟨v, hv, rv, hs⟩ := e.source hw hpre
      obtain ⟨r, h1, e2, _⟩ := runV_bind_inv (withVec_inv hv e1)
      exact onMem_error ((C18_shift_right_exact h.mem _ _ (n : Int) hs.range).2
        ⟨(pos v a).pos_zero.2 c1, by rw [hs.lenEq, slice_length _ hpre.2.2]; omega, by omega, by omega⟩) e2
    | count i a b x =>
      by_contra hc
      simp only [Call.Within, not_or] at hc
      obtain ⟨v, hv, rv, hs⟩ := e.source hw hpre
      obtain ⟨r, h1, e2, _⟩ := runV_bind_inv (withVec_inv hv e1)
      rw [show onMem (BitLib.count (.strict pw hp) (Call.it v a) (Call.it v b) x) h = _ from
        C64_count_exact (.strict pw hp) h v _ _ _ a b x rv (pos v a) (pos v b) hpre.2.1 hpre.2.2, if_neg ?_] at e2
      · cases e2
      · rw [show (Call.it v a : BitIter w).addr = _ from (pos v a).2]
        rintro (h5 | h5)
        · exact hc.1 h5
        · exact hc.2 (by rw [hbit a hv]; exact h5)
    | debugString i =>
      by_contra hc
      simp only [Call.Within] at hc
      obtain ⟨v, hv, _, rv⟩ := e.get hpre
      obtain ⟨r, h1, e2, _⟩ := runV_bind_inv (withVec_inv hv e1)
      rw [(C37_exact hw (.strict pw hp) h v _ rv).2 (by omega)] at e2
      cases e2
    | _ => trivial
  · intro hin
    have easy : c.Lim (.strict pw hp) ls → c.Right (.strict pw hp) P h vs ls := fun hl =>
      C65_step_partial hw (.strict pw hp) P h vs ls c e hpre hl
    cases c with
    | vec op =>
      obtain ⟨vs', h', e1, ok⟩ := (C80_step hw hw' (.strict pw hp) (by
        rcases hS with rfl | hS
        · exact .inl rfl
        · exact .inr hS) P h vs ls op e hpre).2 hin
      exact ⟨vs', .unit, h', _, by
        show ((op.exec _ P vs >>= _) h) = _
        rw [runV_bind_ok e1]; rfl, ⟨rfl, rfl⟩, ok⟩
    | rotate i a k b =>
      by_cases hkb : k < b
      · exact easy ⟨hkb, hrot hkb⟩
      · obtain ⟨p1, h1, h2⟩ := hpre
        have hkb' : k = b := by omega
        subst hkb'
        obtain ⟨v, hv, rv, hs⟩ := e.source hw p1
        have q1 := (pos v a).2
        have q2 := (pos v k).2
        have hl := hs.lenEq
        rw [slice_length _ p1.2.2] at hl
        have ex := (C20_exact pw hp hpw h.mem (Call.it v a) (Call.it v k) hs.range).2 (by
          rcases hin with hx | hx | hx | hx
          · omega
          · left; rw [hx]
          · right; left; exact fun h6 => hx ((pos v k).pos_zero.1 h6)
          · right; right
            rw [hbit k hv] at hx
            refine ⟨by rw [hl]; omega, ?_⟩
            rw [show (Call.it v k : BitIter w).addr = v.vec.ptr * (w : Int) + (k : Int) from q2]
            exact hx.2)
        refine ⟨vs, .pos (a : Int), h, ls, ?_, ⟨?_, ?_⟩, e⟩
        · unfold Call.exec
          show withVec vs i _ h = _
          unfold withVec
          rw [hv]
          show (onMem _ >>= _) h = _
          rw [runV_bind_ok (a := Call.it v a) (h' := h) (by unfold onMem; rw [ex])]
          show Except.ok _ = _
          rw [show (Call.it v a : BitIter w).diff v.begin = (a : Int) from (pos v a).diff]
        · rw [show slice (Op.at' ls i) k k = [] from List.length_eq_zero_iff.1 (by rw [slice_length _ p1.2.2]; omega), List.nil_append]
          refine (list_set_self ?_).symm
          rw [(e.get p1.1).choose_spec.2.1]
          congr 1
          unfold splice slice
          rw [List.length_drop, List.length_take]
          have := p1.2.2
          rw [show a + (min k (Op.at' ls i).length - a) = k by omega]
          rw [show (Op.at' ls i).take a = ((Op.at' ls i).take k).take a by rw [List.take_take]; congr 1; omega, List.take_append_drop,
            List.take_append_drop]
        · simp
    | count i a b x =>
      obtain ⟨v, hv, rv, hs⟩ := e.source hw hpre
      have e2 := C64_count_exact (.strict pw hp) h v _ _ _ a b x rv (pos v a) (pos v b) hpre.2.1 hpre.2.2
      rw [if_pos (by
        rcases hin with hx | hx
        · exact .inl hx
        · right; rw [(pos v a).2, ← hbit a hv]; exact hx)] at e2
      refine ⟨vs, _, h, ls, ?_, ⟨rfl, rfl⟩, e⟩
      show withVec vs i _ h = _
      unfold withVec
      rw [hv]
      exact runV_bind_ok e2
    | copyBackward j a b i d => exact easy hin
    | reverse i a b => exact easy hin
    | shiftLeft i a b n => exact easy hin
    | shiftRight i a b n => exact easy hin
    | debugString i => exact easy hin
    | _ => exact easy trivial

/-- Every call of a program is right. -/
def RightAlongC (S : ShiftSem w) (P : Policy) : List (Call w) → Heap w → List BV → List (List Bool) → Prop
  | [], _, _, _ => True
  | c :: cs, h, vs, ls => ∃ vs' ans h' ls', c.exec S P vs h = .ok ((vs', ans), h') ∧ c.Spec ls ls' ans ∧ EnvOk h' vs' ls' ∧
      RightAlongC S P cs h' vs' ls'

/-- Every call of a program is within the limits in the state in which it is made. -/
def WithinAlongC (S : ShiftSem w) (P : Policy) : List (Call w) → Heap w → List BV → List (List Bool) → Prop
  | [], _, _, _ => True
  | c :: cs, h, vs, ls => c.Within S.FullShiftOk h vs ls ∧
      ∀ vs' ans h' ls', c.exec S P vs h = .ok ((vs', ans), h') → c.Spec ls ls' ans → WithinAlongC S P cs h' vs' ls'

/-- C80: a program of valid calls goes right, call by call, exactly if every call is within the limits. -/
theorem C80_program (hw : 0 < w) (hw' : w ≤ 2 ^ 32) (pw : Nat) (hp : w ≤ pw) (hpw : pw + w ≤ 2 ^ 64) (P : Policy) (h : Heap w) (vs : List BV)
    (ls : List (List Bool)) (cs : List (Call w)) (e : EnvOk h vs ls) (hpre : AlongC (fun ls c => c.Pre ls ∧ c.RotateFits) cs ls) :
    RightAlongC (.strict pw hp) P cs h vs ls ↔ WithinAlongC (.strict pw hp) P cs h vs ls := by
  induction cs generalizing h vs ls with
  | nil => exact Iff.rfl
  | cons c cs ih =>
    have st := C80_call hw hw' pw hp hpw P h vs ls c e hpre.1.1 hpre.1.2
    constructor
    · rintro ⟨vs', ans, h', ls', e1, sp, ok, rest⟩
      refine ⟨st.1 ⟨vs', ans, h', ls', e1, sp, ok⟩, fun vs2 a2 h2 l2 e2 sp2 => ?_⟩
      rw [e1] at e2
      cases e2
      obtain ⟨rfl, _⟩ := sp.unique sp2
      exact (ih h' vs' ls' ok (hpre.2 ls' ans sp)).1 rest
    · rintro ⟨h1, h2⟩
      obtain ⟨vs', ans, h', ls', e1, sp, ok⟩ := st.2 h1
      exact ⟨vs', ans, h', ls', e1, sp, ok, (ih h' vs' ls' ok (hpre.2 ls' ans sp)).2 (h2 vs' ans h' ls' e1 sp)⟩

theorem exEnv : EnvOk exH [exV] [exL] := by
  refine ⟨exH_wf, rfl, ?_, ?_⟩
  · intro i v l h1 h2
    rcases i with _ | i
    · cases h1; cases h2; exact exRep
    · cases h1
  · intro i j v o h1 h2 h3
    rcases i with _ | i
    · rcases j with _ | j
      · exact absurd rfl h3
      · cases h2
    · cases h1

theorem not_full8 : ¬ (ShiftSem.strict 8 (Nat.le_refl 8) : ShiftSem 8).FullShiftOk := by
  rintro (h | h)
  · exact absurd h (by decide)
  · exact absurd (h 1#8 8).1 (by decide)

/-! Bits 0 to 7 of an 11-element vector are a whole 8-bit word: shifting them by 3 is not right without promotion to `int`, shifting
bits 0 to 8 is. -/
example (P : Policy) : ¬ (Call.shiftLeft 0 0 8 3 : Call 8).Right (.strict 8 (Nat.le_refl 8)) P exH [exV] [exL] := fun hr =>
  ((C80_call (by decide) (by decide) 8 (Nat.le_refl 8) (by decide) P exH [exV] [exL] (.shiftLeft 0 0 8 3) exEnv
    ⟨by decide, by decide, by decide⟩ trivial).1 hr).elim (fun h => h (by decide)) not_full8

example (P : Policy) : (Call.shiftLeft 0 0 9 3 : Call 8).Right (.strict 8 (Nat.le_refl 8)) P exH [exV] [exL] :=
  (C80_call (by decide) (by decide) 8 (Nat.le_refl 8) (by decide) P exH [exV] [exL] (.shiftLeft 0 0 9 3) exEnv
    ⟨by decide, by decide, by decide⟩ trivial).2 (.inl (by decide))

example (P : Policy) : (Call.shiftLeft 0 0 8 3 : Call 8).Right (.strict 32 (by decide)) P exH [exV] [exL] :=
  (C80_call (by decide) (by decide) 32 (by decide) (by decide) P exH [exV] [exL] (.shiftLeft 0 0 8 3) exEnv
    ⟨by decide, by decide, by decide⟩ trivial).2 (.inr (.inl (by decide)))

/-! Rotating a whole vector to its end is right, as it ends inside a word; rotating its first word to the end of the word is not. -/
example (P : Policy) : (Call.rotate 0 2 11 11 : Call 8).Right (.strict 32 (by decide)) P exH [exV] [exL] :=
  (C80_call (by decide) (by decide) 32 (by decide) (by decide) P exH [exV] [exL] (.rotate 0 2 11 11) exEnv
    ⟨⟨by decide, by decide, by decide⟩, by decide, by decide⟩ (fun h => absurd h (by decide))).2 (.inr (.inr (.inl (by decide))))

example (P : Policy) : ¬ (Call.rotate 0 2 8 8 : Call 8).Right (.strict 32 (by decide)) P exH [exV] [exL] := fun hr => by
  have := (C80_call (by decide) (by decide) 32 (by decide) (by decide) P exH [exV] [exL] (.rotate 0 2 8 8) exEnv
    ⟨⟨by decide, by decide, by decide⟩, by decide, by decide⟩ (fun h => absurd h (by decide))).1 hr
  rcases this with h | h | h | ⟨h, _⟩
  · exact absurd h (by decide)
  · exact absurd h (by decide)
  · exact absurd h (by decide)
  · exact absurd h (by decide)

/-! A history that fails at its second call: 2^32 elements get no storage. -/
example (P : Policy) : ¬ RightAlong (.strict 8 (Nat.le_refl 8) : ShiftSem 8) P [.newEmpty, .newCount (2 ^ 32)] exH [exV] [exL] := fun hr => by
  have := (C80_history (by decide) (by decide) _ (.inl rfl) P exH [exV] [exL] [.newEmpty, .newCount (2 ^ 32)] exEnv
    ⟨trivial, trivial, trivial⟩).1 hr
  obtain ⟨vs, h, e1, _⟩ := hr
  exact absurd (this.2 vs h e1).1 (Nat.lt_irrefl _)

/-- A program that shifts a whole aligned word in its second call goes wrong for words that are not promoted. -/
example (P : Policy) : ¬ RightAlongC (.strict 8 (Nat.le_refl 8) : ShiftSem 8) P [.fill 0 0 3 true, .shiftLeft 0 0 8 3] exH [exV] [exL] := fun hr => by
  have hpre : AlongC (fun ls c => c.Pre ls ∧ c.RotateFits) [(.fill 0 0 3 true : Call 8), .shiftLeft 0 0 8 3] [exL] := by
    refine ⟨⟨⟨by decide, by decide, by decide⟩, trivial⟩, ?_⟩
    rintro ls' a ⟨rfl, rfl⟩
    exact ⟨⟨⟨by decide, by decide, by decide⟩, trivial⟩, fun _ _ _ => trivial⟩
  obtain ⟨vs', ans, h', ls', e1, sp, ok, rest⟩ := hr
  obtain ⟨vs2, a2, h2, l2, e2, sp2, ok2, _⟩ := rest
  have := (C80_call (by decide) (by decide) 8 (Nat.le_refl 8) (by decide) P h' vs' ls' (.shiftLeft 0 0 8 3) ok (hpre.2 _ _ sp).1.1 trivial).1
    ⟨vs2, a2, h2, l2, e2, sp2, ok2⟩
  rcases this with h1 | h1
  · exact h1 (by decide)
  · exact not_full8 h1

end BitLib
