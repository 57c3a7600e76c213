import Verif.Props.Throw
import Verif.Props.Exact
/-
C72, exactly: with an allocator that may refuse, a valid call is right (it does its work, or throws and leaves everything as it was) if and only if it
throws or is within the limits of C80.
-/
namespace BitLib
variable {w : Nat}

/-- The call throws. -/
def Op.Throws (S : ShiftSem w) (A : Alloc) (P : Policy) (h : Heap w) (vs : List BV) (op : Op w) : Prop :=
  ∃ e h' vs', op.execT S A P h vs = .ok (.error e, h', vs')

theorem memberT_ok {α : Type} {A : Alloc} {vs vs' : List BV} {i : Nat} {h h' : Heap w} {v : BV} {p : BV → T w α} {need : Option (Nat × Nat)}
    {x : Except Stop ((BV × α) × Heap w)} (hv : vs[i]? = some v) (ht : Tries A (h, v) need (p v (h, v)) (Obj.asObj x))
    (he : memberT vs i h p = .ok (.ok (), h', vs')) : ∃ v' a, x = .ok ((v', a), h') ∧ vs' = vs.set i v' := by
  unfold memberT at he
  rw [hv] at he
  dsimp only at he
  rcases ht with ⟨n, cap, e, h1, h2, h3⟩ | ⟨h1, h2⟩
  · rw [h3] at he; cases he
  · rw [h2] at he
    rcases x with (x | x) | ⟨⟨v', a⟩, h1⟩
    · cases he
    · cases he
    · cases he
      exact ⟨v', a, rfl, rfl⟩

theorem memberT_throw {α : Type} {A : Alloc} {vs vs' : List BV} {i : Nat} {h h' : Heap w} {v : BV} {p : BV → T w α} {need : Option (Nat × Nat)}
    {x : Except Stop ((BV × α) × Heap w)} {e : Exn} (hv : vs[i]? = some v) (ht : Tries A (h, v) need (p v (h, v)) (Obj.asObj x))
    (he : memberT vs i h p = .ok (.error e, h', vs')) : h' = h ∧ vs' = vs ∧ (e = .badAlloc ∨ e = .lengthError) := by
  unfold memberT at he
  rw [hv] at he
  dsimp only at he
  rcases ht with ⟨n, cap, e', h1, h2, h3⟩ | ⟨h1, h2⟩
  · rw [h3] at he
    cases he
    exact ⟨rfl, list_set_self hv, h2.kind⟩
  · rw [h2] at he
    rcases x with (x | x) | ⟨⟨v', a⟩, h1⟩ <;> cases he

theorem newT_ok {A : Alloc} {vs vs' : List BV} {h h' : Heap w} {p : T w Unit} {need : Option (Nat × Nat)} {x : Except Stop (BV × Heap w)}
    (ht : Obj.NewTries A h need (Obj.construct p h) (Obj.asNew x)) (he : newT vs h p = .ok (.ok (), h', vs')) :
    ∃ v', x = .ok (v', h') ∧ vs' = vs ++ [v'] := by
  unfold newT at he
  rcases ht with ⟨n, cap, e, h1, h2, h3⟩ | ⟨h1, h2⟩
  · rw [h3] at he; cases he
  · rw [h2] at he
    rcases x with (x | x) | ⟨v', h1⟩
    · cases he
    · cases he
    · cases he
      exact ⟨v', rfl, rfl⟩

theorem newT_throw {A : Alloc} {vs vs' : List BV} {h h' : Heap w} {p : T w Unit} {need : Option (Nat × Nat)} {x : Except Stop (BV × Heap w)} {e : Exn}
    (ht : Obj.NewTries A h need (Obj.construct p h) (Obj.asNew x)) (he : newT vs h p = .ok (.error e, h', vs')) :
    h' = h ∧ vs' = vs ∧ (e = .badAlloc ∨ e = .lengthError) := by
  unfold newT at he
  rcases ht with ⟨n, cap, e', h1, h2, h3⟩ | ⟨h1, h2⟩
  · rw [h3] at he
    cases he
    exact ⟨rfl, rfl, h2.kind⟩
  · rw [h2] at he
    rcases x with (x | x) | ⟨v', h1⟩ <;> cases he

theorem onVec_run {vs : List BV} {i : Nat} {f : BV → V w BV} {h h' : Heap w} {v v' : BV} (hv : vs[i]? = some v) (hf : f v h = .ok (v', h')) :
    onVec vs i f h = .ok (vs.set i v', h') := by
  unfold onVec
  rw [hv]
  show (Except.bind (f v h) fun p => _) = _
  rw [hf]
  rfl

theorem newVec_run {vs : List BV} {f : V w BV} {h h' : Heap w} {v' : BV} (hf : f h = .ok (v', h')) : newVec vs f h = .ok (vs ++ [v'], h') := by
  show (Except.bind (f h) fun p => _) = _
  rw [hf]
  rfl

theorem map_fst_run {α : Type} {x : V w (BV × α)} {h h' : Heap w} {v' : BV} {a : α} (he : x h = .ok ((v', a), h')) :
    (Prod.fst <$> x) h = .ok (v', h') := by
  show (Except.bind (x h) fun p => Except.ok (p.1.1, p.2)) = _
  rw [he]
  rfl

theorem asUnit_obj (x : Except Stop (BV × Heap w)) : Obj.asUnit x = Obj.asObj (x.map fun p => ((p.1, ()), p.2)) := by
  rcases x with (x | x) | ⟨v, h⟩ <;> rfl

/-- C72: with any allocator and in any state of a program, a valid call is right, that is, it does to the vectors what it does to plain lists or
throws `bad_alloc` or `length_error` and leaves all lists as they were, if and only if it is within the limits of `Op.Within`, or is a call that may ask for storage and throws. -/
theorem C72_exact (hw : 0 < w) (hw' : w ≤ 2 ^ 32) (S : ShiftSem w) (hS : S = Unpromoted w ∨ S.FullShiftOk) (A : Alloc) (P : Policy) (h : Heap w)
    (vs : List BV) (ls : List (List Bool)) (op : Op w) (e : EnvOk h vs ls) (hpre : op.Pre ls) :
    StepOk op ls (op.execT S A P h vs) ↔ op.Within S.FullShiftOk vs ls ∨ (op.Asks ∧ op.Throws S A P h vs) := by
  have key : op.Within S.FullShiftOk vs ls → StepOk op ls (op.execT S A P h vs) := by
    intro hin
    obtain ⟨vs', h', hx, he⟩ := (C80_step hw hw' S hS P h vs ls op e hpre).2 hin
    refine stepOk_of_right hw S A P h vs ls op e hpre ?_ hx he
    rintro i n rfl
    exact hin
  constructor
  · rintro (⟨h', vs', hx, he⟩ | ⟨x, h', vs', hx, -, ha, -⟩)
    · left
      have fin : op.exec S P vs h = .ok (vs', h') → op.Within S.FullShiftOk vs ls := fun hr =>
        (C80_step hw hw' S hS P h vs ls op e hpre).1 ⟨vs', h', hr, he⟩
      cases op with
      | newCount n =>
        obtain ⟨v', h1, rfl⟩ := newT_ok (Obj.ofCount_tries A P h n) hx
        exact fin (newVec_run h1)
      | newCountVal n x =>
        obtain ⟨v', h1, rfl⟩ := newT_ok (Obj.ofCountVal_tries A P h n x) hx
        exact fin (newVec_run h1)
      | insert i d x =>
        obtain ⟨v, hv, _, r⟩ := e.get (i := i) hpre.1
        obtain ⟨v', a, h1, rfl⟩ := memberT_ok (p := fun v => Obj.insert S A P (v.begin.add (d : Int)) x) hv
          (Obj.insert_tries S A P h v _ x (distance_begin (IsPos.begin_add hw v d))) hx
        exact fin (onVec_run hv (map_fst_run h1))
      | insertN i d n x =>
        obtain ⟨v, hv, _, r⟩ := e.get (i := i) hpre.1
        obtain ⟨v', a, h1, rfl⟩ := memberT_ok (p := fun v => Obj.insertN S A P (v.begin.add (d : Int)) n x) hv
          (Obj.insertN_tries S A P h v _ n x (distance_begin (IsPos.begin_add hw v d))) hx
        exact fin (onVec_run hv (map_fst_run h1))
      | insertRange i d j a b =>
        obtain ⟨hi, hd, hj, hij, hab, hb⟩ := hpre
        obtain ⟨v, hv, _, r⟩ := e.get hi
        obtain ⟨o, ho, _, ro⟩ := e.get hj
        unfold Op.execT at hx
        dsimp only at hx
        rw [ho] at hx
        obtain ⟨v', c, h1, rfl⟩ := memberT_ok (p := fun v => Obj.insertRange S A P (v.begin.add (d : Int)) (o.begin.add (a : Int)) (o.begin.add (b : Int))) hv
          (Obj.insertRange_tries S A P h v _ _ _ (distance_begin (IsPos.begin_add hw v d)) (distance_seq (ro.holdsSeq hw hab hb))) hx
        refine fin ?_
        unfold Op.exec onVec2
        dsimp only
        rw [hv, ho]
        show (Except.bind ((Prod.fst <$> _ : V w BV) h) fun p => _) = _
        rw [map_fst_run h1]; rfl
      | erase i d =>
        obtain ⟨v, hv, _, r⟩ := e.get (i := i) hpre.1
        obtain ⟨v', a, h1, rfl⟩ := memberT_ok (A := A) (p := fun v => Obj.erase S (v.begin.add (d : Int))) hv (.none (Obj.erase_eq S h v _)) hx
        exact fin (onVec_run hv (map_fst_run h1))
      | eraseRange i a b =>
        obtain ⟨v, hv, _, r⟩ := e.get (i := i) hpre.1
        have hl := r.len
        have hseq := distance_seq (r.holdsSeq hw hpre.2.1 hpre.2.2)
        have hlen : (((Op.at' ls i).take b).drop a).length ≤ (Op.at' ls i).length := by simp
        obtain ⟨v', c, h1, rfl⟩ := memberT_ok (A := A) (p := fun v => Obj.eraseRange S A P (v.begin.add (a : Int)) (v.begin.add (b : Int))) hv
          (.none (Obj.eraseRange_eq S A P h v _ _ hw r.fit hseq (by omega) (by rw [hl]; exact_mod_cast hlen))) hx
        exact fin (onVec_run hv (map_fst_run h1))
      | shrink i n =>
        obtain ⟨v, hv, _, r⟩ := e.get (i := i) hpre.1
        have ht := Obj.resize_tries A P h v n
        rw [asUnit_obj] at ht
        obtain ⟨v', a, h1, rfl⟩ := memberT_ok (p := fun _ => Obj.resize A P n) hv ht hx
        refine fin (onVec_run hv ?_)
        rcases hr : v.resize P n h with y | ⟨u, h2⟩
        · rw [hr] at h1; cases h1
        · rw [hr] at h1; cases h1; rfl
      | _ => trivial
    · exact .inr ⟨ha, x, h', vs', hx⟩
  · rintro (hin | ⟨ha, x, h', vs', hx⟩)
    · exact key hin
    · have fin : h' = h ∧ vs' = vs ∧ (x = .badAlloc ∨ x = .lengthError) → StepOk op ls (op.execT S A P h vs) := by
        rintro ⟨rfl, rfl, hk⟩
        exact .inr ⟨x, _, _, hx, hk, ha, e⟩
      cases op with
      | newCount n => exact fin (newT_throw (Obj.ofCount_tries A P h n) hx)
      | newCountVal n x => exact fin (newT_throw (Obj.ofCountVal_tries A P h n x) hx)
      | insert i d x =>
        obtain ⟨v, hv, _, r⟩ := e.get (i := i) hpre.1
        exact fin (memberT_throw (p := fun v => Obj.insert S A P (v.begin.add (d : Int)) x) hv
          (Obj.insert_tries S A P h v _ x (distance_begin (IsPos.begin_add hw v d))) hx)
      | insertN i d n x =>
        obtain ⟨v, hv, _, r⟩ := e.get (i := i) hpre.1
        exact fin (memberT_throw (p := fun v => Obj.insertN S A P (v.begin.add (d : Int)) n x) hv
          (Obj.insertN_tries S A P h v _ n x (distance_begin (IsPos.begin_add hw v d))) hx)
      | insertRange i d j a b =>
        obtain ⟨hi, hd, hj, hij, hab, hb⟩ := hpre
        obtain ⟨v, hv, _, r⟩ := e.get hi
        obtain ⟨o, ho, _, ro⟩ := e.get hj
        have hx' := hx
        unfold Op.execT at hx'
        dsimp only at hx'
        rw [ho] at hx'
        exact fin (memberT_throw (p := fun v => Obj.insertRange S A P (v.begin.add (d : Int)) (o.begin.add (a : Int)) (o.begin.add (b : Int))) hv
          (Obj.insertRange_tries S A P h v _ _ _ (distance_begin (IsPos.begin_add hw v d)) (distance_seq (ro.holdsSeq hw hab hb))) hx')
      | erase i d => exact absurd ha id
      | eraseRange i a b => exact absurd ha id
      | shrink i n => exact absurd ha id
      | _ => exact key trivial

namespace Strat

/-- Every call is valid, however the calls before it ended. -/
def Pre : Strat w → List (List Bool) → Prop
  | stop, _ => True
  | call op next, ls => op.Pre ls ∧ (next none).Pre (op.apply ls) ∧ ∀ e, (next (some e)).Pre ls

/-- In the run of the program on the vectors, every call is right: it does to the vectors what it does to plain lists, or throws and leaves all
lists as they were. -/
def RightAlong (S : ShiftSem w) (A : Alloc) (P : Policy) : Strat w → Heap w → List BV → List (List Bool) → Prop
  | stop, _, _, _ => True
  | call op next, h, vs, ls => StepOk op ls (op.execT S A P h vs) ∧
      (∀ h' vs', op.execT S A P h vs = .ok (.ok (), h', vs') → (next none).RightAlong S A P h' vs' (op.apply ls)) ∧
      (∀ e h' vs', op.execT S A P h vs = .ok (.error e, h', vs') → (next (some e)).RightAlong S A P h' vs' ls)

/-- In the run of the program on the vectors, every call is within the limits or throws. -/
def WithinAlong (S : ShiftSem w) (A : Alloc) (P : Policy) : Strat w → Heap w → List BV → List (List Bool) → Prop
  | stop, _, _, _ => True
  | call op next, h, vs, ls => (op.Within S.FullShiftOk vs ls ∨ (op.Asks ∧ op.Throws S A P h vs)) ∧
      (∀ h' vs', op.execT S A P h vs = .ok (.ok (), h', vs') → (next none).WithinAlong S A P h' vs' (op.apply ls)) ∧
      (∀ e h' vs', op.execT S A P h vs = .ok (.error e, h', vs') → (next (some e)).WithinAlong S A P h' vs' ls)

end Strat

/-- C72: a program that catches exceptions is right from its first to its last call exactly if every call it makes is within the limits or throws. -/
theorem C72_program_exact (hw : 0 < w) (hw' : w ≤ 2 ^ 32) (S : ShiftSem w) (hS : S = Unpromoted w ∨ S.FullShiftOk) (A : Alloc) (P : Policy)
    (p : Strat w) (h : Heap w) (vs : List BV) (ls : List (List Bool)) (e : EnvOk h vs ls) (hpre : p.Pre ls) :
    p.RightAlong S A P h vs ls ↔ p.WithinAlong S A P h vs ls := by
  induction p generalizing h vs ls with
  | stop => exact Iff.rfl
  | call op next ih =>
    obtain ⟨h1, h2, h3⟩ := hpre
    have st := C72_exact hw hw' S hS A P h vs ls op e h1
    have ok : StepOk op ls (op.execT S A P h vs) →
        (∀ h' vs', op.execT S A P h vs = .ok (.ok (), h', vs') → EnvOk h' vs' (op.apply ls)) ∧
        (∀ x h' vs', op.execT S A P h vs = .ok (.error x, h', vs') → EnvOk h' vs' ls) := by
      rintro (⟨ha, va, hx, he⟩ | ⟨x, ha, va, hx, -, -, he⟩)
      · refine ⟨fun h' vs' hy => ?_, fun x h' vs' hy => ?_⟩
        · rw [hx] at hy; cases hy; exact he
        · rw [hx] at hy; cases hy
      · refine ⟨fun h' vs' hy => ?_, fun x h' vs' hy => ?_⟩
        · rw [hx] at hy; cases hy
        · rw [hx] at hy; cases hy; exact he
    constructor
    · rintro ⟨a, b, c⟩
      exact ⟨st.1 a, fun h' vs' hx => (ih _ h' vs' _ ((ok a).1 h' vs' hx) h2).1 (b h' vs' hx),
        fun x h' vs' hx => (ih _ h' vs' _ ((ok a).2 x h' vs' hx) (h3 x)).1 (c x h' vs' hx)⟩
    · rintro ⟨a, b, c⟩
      have a := st.2 a
      exact ⟨a, fun h' vs' hx => (ih _ h' vs' _ ((ok a).1 h' vs' hx) h2).2 (b h' vs' hx),
        fun x h' vs' hx => (ih _ h' vs' _ ((ok a).2 x h' vs' hx) (h3 x)).2 (c x h' vs' hx)⟩

/-- C72: such a program runs to its end without undefined behaviour, and the vectors hold what the calls that returned did to plain lists. -/
theorem C72_program_ends (S : ShiftSem w) (A : Alloc) (P : Policy) (p : Strat w) (h : Heap w) (vs : List BV) (ls : List (List Bool)) (e : EnvOk h vs ls)
    (hr : p.RightAlong S A P h vs ls) : ∃ t h' vs', p.run S A P h vs = .ok (t, h', vs') ∧ p.Fits t ∧ EnvOk h' vs' (p.result t ls) := by
  induction p generalizing h vs ls with
  | stop => exact ⟨[], h, vs, rfl, rfl, e⟩
  | call op next ih =>
    obtain ⟨h1, h2, h3⟩ := hr
    unfold Strat.run
    rcases h1 with ⟨h', vs', he, e'⟩ | ⟨x, h', vs', he, hk, ha, e'⟩
    · rw [he]
      obtain ⟨t, h'', vs'', e1, e2, e3⟩ := ih none h' vs' _ e' (h2 h' vs' he)
      dsimp only
      rw [e1]
      exact ⟨none :: t, h'', vs'', rfl, e2, e3⟩
    · rw [he]
      obtain ⟨t, h'', vs'', e1, e2, e3⟩ := ih (some x) h' vs' _ e' (h3 x h' vs' he)
      dsimp only
      rw [e1]
      exact ⟨some x :: t, h'', vs'', rfl, ⟨ha, hk, e2⟩, e3⟩

/-! ### Examples -/

theorem exFEnv : EnvOk exH [exF] [exFL] := by
  refine ⟨exH_wf, rfl, ?_, ?_⟩
  · intro i v l h1 h2
    rcases i with _ | i
    · cases h1; cases h2; exact exFRep
    · cases h1
  · intro i j v o h1 h2 h3
    rcases i with _ | i
    · rcases j with _ | j
      · exact absurd rfl h3
      · cases h2
    · cases h1

theorem unpromoted8_not_full : ¬ (Unpromoted 8).FullShiftOk := by
  rintro (h | h)
  · exact absurd h (by decide)
  · exact absurd (h 1#8 8).1 (by decide)

/-- C72: a valid call is not always right: with words that are not promoted, erasing the first element of the last of two full words is
undefined, whatever the allocator. -/
theorem C72_step_refuted (A : Alloc) (P : Policy) :
    ¬ ∀ (h : Heap 8) (vs : List BV) (ls : List (List Bool)) (op : Op 8), EnvOk h vs ls → op.Pre ls →
      StepOk op ls (op.execT (Unpromoted 8) A P h vs) := fun all => by
  have hp : (Op.erase 0 8 : Op 8).Pre [exFL] := ⟨by decide, by decide⟩
  rcases (C72_exact (by decide) (by decide) _ (.inl rfl) A P exH [exF] [exFL] (.erase 0 8) exFEnv hp).1 (all _ _ _ _ exFEnv hp) with h | h
  · rcases h with h | h
    · exact h (by decide)
    · exact unpromoted8_not_full h
  · exact h.1

/-! With words that are promoted the same call is right. -/
example (A : Alloc) (P : Policy) :
    StepOk (.erase 0 8 : Op 8) [exFL] ((Op.erase 0 8 : Op 8).execT (.strict 32 (by decide)) A P exH [exF]) :=
  (C72_exact (by decide) (by decide) (.strict 32 (by decide)) (.inr (.inl (by decide))) A P exH [exF] [exFL] (.erase 0 8) exFEnv
    ⟨by decide, by decide⟩).2 (.inl (.inr (.inl (by decide))))

/-! A vector of 2^32 + 40 elements is beyond the limits, but right with an allocator that refuses the five words it asks for: the call throws
and nothing has happened. -/
example : ¬ (Op.newCount (2 ^ 32 + 40) : Op 8).Within (Unpromoted 8).FullShiftOk [exF] [exFL] ∧
    StepOk (.newCount (2 ^ 32 + 40) : Op 8) [exFL] ((Op.newCount (2 ^ 32 + 40) : Op 8).execT (Unpromoted 8) stingy doubling exH [exF]) :=
  ⟨fun h => absurd h (by show ¬ 2 ^ 32 + 40 < 2 ^ 32; decide),
   (C72_exact (by decide) (by decide) _ (.inl rfl) stingy doubling exH [exF] [exFL] (.newCount (2 ^ 32 + 40)) exFEnv trivial).2
    (.inr ⟨trivial, by
      rcases Obj.ofCount_tries stingy doubling exH (2 ^ 32 + 40) with ⟨_, _, e, _, _, h3⟩ | ⟨h1, _⟩
      · exact ⟨e, exH, [exF], by unfold Op.execT newT; dsimp only; rw [h3]⟩
      · exact absurd (.inr ⟨by decide, rfl, rfl⟩) (h1 5 5 .badAlloc rfl)⟩)⟩

/-- Append; if that throws, erase an element. -/
def exStratErase (d : Nat) : Strat 8 :=
  .call (.push 0 true) fun
    | none => .stop
    | some _ => .call (.erase 0 d) fun _ => .stop

/-! With the allocator that refuses, the program gets to `erase`: it is right for element 3 and wrong for element 8. -/
example : (exStratErase 3).RightAlong (Unpromoted 8) stingy doubling exH [exF] [exFL] ∧
    ¬ (exStratErase 8).RightAlong (Unpromoted 8) stingy doubling exH [exF] [exFL] := by
  have hp : (Op.push 0 true : Op 8).execT (Unpromoted 8) stingy doubling exH [exF] = .ok (.error .badAlloc, exH, [exF]) := rfl
  constructor
  · refine (C72_program_exact (by decide) (by decide) _ (.inl rfl) stingy doubling (exStratErase 3) exH [exF] [exFL] exFEnv
      ⟨by show 0 < 1; decide, trivial, fun _ => ⟨⟨by decide, by decide⟩, trivial, fun _ => trivial⟩⟩).2 ⟨.inl trivial, ?_, ?_⟩
    · intro h' vs' hx; rw [hp] at hx; cases hx
    · intro x h' vs' hx
      rw [hp] at hx
      cases hx
      exact ⟨.inl (.inl (show ¬ (3 % 8 = 0 ∧ 16 - 3 = 8 ∧ 1 < 8) by decide)), fun _ _ _ => trivial, fun _ _ _ _ => trivial⟩
  · intro hr
    have hr := (C72_program_exact (by decide) (by decide) _ (.inl rfl) stingy doubling (exStratErase 8) exH [exF] [exFL] exFEnv
      ⟨by show 0 < 1; decide, trivial, fun _ => ⟨⟨by decide, by decide⟩, trivial, fun _ => trivial⟩⟩).1 hr
    rcases (hr.2.2 _ _ _ hp).1 with (h | h) | h
    · exact h (by decide)
    · exact unpromoted8_not_full h
    · exact h.1

end BitLib
