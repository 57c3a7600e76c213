import Verif.SpecTrace
import Verif.Lemmas.Erase
import Verif.Lemmas.Iter
/- Two calls that differ in the contents of the memory only make the same accesses. -/
namespace BitLib
variable {w : Nat} {α β γ δ : Type}

namespace Code

theorem trace_bind (c : Code w α) (f : α → Code w β) : ∀ (m m1 : Mem w) (r : α), c.run m = .ok (r, m1) →
    (c >>= f).trace m = c.trace m ++ (f r).trace m1 := by
  induction c with
  | ret a =>
    intro m m1 r h
    obtain ⟨rfl, rfl⟩ := Prod.mk.inj (Except.ok.inj h)
    rfl
  | stop e => intro m m1 r h; cases h
  | load a k ih =>
    intro m m1 r h
    have h : ((BitLib.load a : M w _) m >>= fun p => (k p.1).run p.2) = .ok (r, m1) := h
    show (Code.load a fun x => (k x).bind f).trace m = (Code.load a k).trace m ++ _
    rw [Code.trace, Code.trace]
    unfold BitLib.load at h
    cases hx : m a with
    | none => simp only [hx] at h; cases h
    | some x =>
      simp only [hx] at h ⊢
      rw [List.cons_append, ← ih x m m1 r h]
      rfl
  | store a x k ih =>
    intro m m1 r h
    have h : ((BitLib.store a x : M w _) m >>= fun p => k.run p.2) = .ok (r, m1) := h
    show (Code.store a x (k.bind f)).trace m = (Code.store a x k).trace m ++ _
    rw [Code.trace, Code.trace]
    unfold BitLib.store at h
    cases hx : m a with
    | none => simp only [hx] at h; cases h
    | some y =>
      simp only [hx] at h ⊢
      rw [List.cons_append, ← ih (m.set a x) m1 r h]
      rfl

theorem run_bind (c : Code w α) (f : α → Code w β) (m m2 : Mem w) (s : β) (h : (c >>= f).run m = .ok (s, m2)) :
    ∃ r m1, c.run m = .ok (r, m1) ∧ (f r).run m1 = .ok (s, m2) := by
  have h : (c.run m >>= fun p => (f p.1).run p.2) = .ok (s, m2) := by rw [← h]; exact (Code.bind_run c f m).symm
  cases hc : c.run m with
  | error e => rw [hc] at h; cases h
  | ok p => rw [hc] at h; exact ⟨p.1, p.2, rfl, h⟩

/-- The two calls make the same accesses, whatever the two memories hold, and their results are related by `R`, provided that both
end and that their results are related by `C`. -/
def ObIf (C R : α → β → Prop) (c : Code w α) (d : Code w β) : Prop :=
  ∀ m m' r r' n n', c.run m = .ok (r, n) → d.run m' = .ok (r', n') → C r r' → R r r' ∧ c.trace m = d.trace m'

/-- Without a condition. -/
abbrev Ob (R : α → β → Prop) (c : Code w α) (d : Code w β) : Prop := ObIf (fun _ _ => True) R c d

theorem ob_bind {R : α → β → Prop} {Q : γ → δ → Prop} {D : γ → δ → Prop} {c : Code w α} {d : Code w β} {f : α → Code w γ} {g : β → Code w δ}
    (h : Ob R c d) (hf : ∀ r r', R r r' → ObIf D Q (f r) (g r')) : ObIf D Q (c >>= f) (d >>= g) := by
  intro m m' s s' n n' h1 h2 hd
  obtain ⟨r, m1, a1, a2⟩ := run_bind c f m n s h1
  obtain ⟨r', m1', b1, b2⟩ := run_bind d g m' n' s' h2
  obtain ⟨hR, ht⟩ := h m m' r r' m1 m1' a1 b1 trivial
  obtain ⟨hQ, hu⟩ := hf r r' hR m1 m1' s s' n n' a2 b2 hd
  exact ⟨hQ, by rw [trace_bind c f m m1 r a1, trace_bind d g m' m1' r' b1, ht, hu]⟩

theorem ob_mono {C R D Q : α → β → Prop} {c : Code w α} {d : Code w β} (h : ObIf C R c d) (hc : ∀ r r', D r r' → C r r')
    (hR : ∀ r r', R r r' → Q r r') : ObIf D Q c d := by
  intro m m' r r' n n' h1 h2 hd
  obtain ⟨a, b⟩ := h m m' r r' n n' h1 h2 (hc _ _ hd)
  exact ⟨hR _ _ a, b⟩

end Code

open Code (Ob ObIf ob_bind ob_mono)
namespace Gen
variable {C R : α → β → Prop} {D Q : γ → δ → Prop}

theorem o_pure {a : α} {b : β} (h : R a b) : ObIf C R (pure a : Code w α) (pure b) := by
  intro m m' r r' n n' h1 h2 _
  obtain ⟨rfl, -⟩ := Prod.mk.inj (Except.ok.inj h1)
  obtain ⟨rfl, -⟩ := Prod.mk.inj (Except.ok.inj h2)
  exact ⟨h, rfl⟩
theorem o_ub (e : UB) (d : Code w β) : ObIf C R (ub e : Code w α) d := by
  intro m m' r r' n n' h1; cases h1
theorem o_bind_pure {a : α} {b : β} {f : α → Code w γ} {g : β → Code w δ} (h : ObIf D Q (f a) (g b)) :
    ObIf D Q (pure a >>= f) (pure b >>= g) := h
theorem o_lift {e : Except UB α} {e' : Except UB β} (h : ∀ r r', R r r') : ObIf C R (lift e : Code w α) (lift e') := by
  cases e with
  | error e => intro m m' r r' n n' h1; cases h1
  | ok a =>
    cases e' with
    | error e => intro m m' r r' n n' h1 h2; cases h2
    | ok b => exact o_pure (h _ _)
theorem o_bind_lift {e : Except UB α} {e' : Except UB β} {f : α → Code w γ} {g : β → Code w δ} (h : ∀ a b, ObIf D Q (f a) (g b)) :
    ObIf D Q (lift e >>= f) (lift e' >>= g) := by
  cases e with
  | error e => intro m m' r r' n n' h1; cases h1
  | ok a =>
    cases e' with
    | error e => intro m m' r r' n n' h1 h2; cases h2
    | ok b => exact h _ _
theorem o_load {C R : BitVec w → BitVec w → Prop} {a : Int} (h : ∀ x y, R x y) : ObIf C R (load a : Code w _) (load a) := by
  intro m m' r r' n n' h1 h2 _
  refine ⟨h _ _, ?_⟩
  show (Code.load a _).trace m = (Code.load a _).trace m'
  rw [r_load] at h1 h2
  unfold BitLib.load at h1 h2
  unfold Code.trace
  cases hx : m a <;> cases hy : m' a <;> simp_all [Code.trace]
theorem o_store {C R : Unit → Unit → Prop} {a : Int} {x y : BitVec w} (h : R () ()) : ObIf C R (store a x : Code w _) (store a y) := by
  intro m m' r r' n n' h1 h2 _
  refine ⟨h, ?_⟩
  show (Code.store a _ _).trace m = (Code.store a _ _).trace m'
  rw [r_store] at h1 h2
  unfold BitLib.store at h1 h2
  unfold Code.trace
  cases hx : m a <;> cases hy : m' a <;> simp_all [Code.trace]
theorem o_bind_load {a : Int} {f : BitVec w → Code w γ} {g : BitVec w → Code w δ} (h : ∀ x y, ObIf D Q (f x) (g y)) :
    ObIf D Q (load a >>= f) (load a >>= g) := ob_bind (o_load (R := fun _ _ => True) fun _ _ => trivial) fun x y _ => h x y
theorem o_bind_store {a : Int} {x y : BitVec w} {f : Unit → Code w γ} {g : Unit → Code w δ} (h : ObIf D Q (f ()) (g ())) :
    ObIf D Q (store a x >>= f) (store a y >>= g) :=
  ob_bind (o_store (R := fun _ _ => True) trivial) fun _ _ _ => h
theorem o_ite {p : Prop} [Decidable p] {c c' : Code w α} {d d' : Code w β} (h1 : p → ObIf C R c d) (h2 : ¬p → ObIf C R c' d') :
    ObIf C R (if p then c else c') (if p then d else d') := by
  by_cases h : p
  · rw [if_pos h, if_pos h]; exact h1 h
  · rw [if_neg h, if_neg h]; exact h2 h
theorem o_assert {R : Unit → Unit → Prop} {C : Unit → Unit → Prop} {p : Prop} [Decidable p] (h : R () ()) :
    ObIf C R (assertM p : Code w Unit) (assertM p) := o_ite (fun _ => o_pure h) fun _ => o_ub _ _
theorem o_bind_assert {p : Prop} [Decidable p] {f : Unit → Code w γ} {g : Unit → Code w δ} (h : ObIf D Q (f ()) (g ())) :
    ObIf D Q (assertM p >>= f) (assertM p >>= g) :=
  ob_bind (o_assert (R := fun _ _ => True) trivial) fun _ _ _ => h

/-- Positions: the results agree. -/
abbrev OEq (c d : Code w α) : Prop := Ob (fun a b => a = b) c d
/-- Contents: nothing is said about the results. -/
abbrev OAny (c d : Code w α) : Prop := Ob (fun _ _ => True) c d

theorem o_then {c d : Code w α} {f : α → Code w γ} {g : α → Code w δ} (h : OEq c d) (hf : ∀ r, ObIf D Q (f r) (g r)) :
    ObIf D Q (c >>= f) (d >>= g) := ob_bind h fun r _ e => e ▸ hf r
theorem o_last {C R : α → α → Prop} {c d : Code w α} (h : OEq c d) (hR : ∀ r, R r r) : ObIf C R c d := ob_mono h (fun _ _ _ => trivial) fun r _ e => e ▸ hR r
theorem o_thenA {c d : Code w α} {f : α → Code w γ} {g : α → Code w δ} (h : OAny c d) (hf : ∀ r s, ObIf D Q (f r) (g s)) :
    ObIf D Q (c >>= f) (d >>= g) := ob_bind h fun r s _ => hf r s
theorem o_lastA {C R : α → α → Prop} {c d : Code w α} (h : OAny c d) (hR : ∀ r s, R r s) : ObIf C R c d := ob_mono h (fun _ _ _ => trivial) fun r s _ => hR r s

/-- Compares two texts statement by statement. -/
macro "ob1" : tactic => `(tactic| with_reducible first
  | (refine o_bind_load ?_; intro _ _; try dsimp only)
  | (refine o_bind_store ?_; try dsimp only)
  | (refine o_bind_lift ?_; intro _ _; try dsimp only)
  | (refine o_ite ?_ ?_ <;> (intro _; try dsimp only))
  | (refine o_pure ?_; first | exact True.intro | exact rfl)
  | (refine o_bind_assert ?_; try dsimp only)
  | (refine o_bind_pure ?_; try dsimp only)
  | exact o_ub _ _
  | (refine o_store ?_; first | exact True.intro | exact rfl)
  | (refine o_lift ?_; intro _ _; exact True.intro)
  | (refine o_assert ?_; first | exact True.intro | exact rfl))
/-- A call of a function that is compared by the given lemma. -/
macro "obE" t:term : tactic => `(tactic| with_reducible first
  | (refine o_then $t ?_; intro _; try dsimp only)
  | (refine o_last $t ?_; intro _; first | exact True.intro | exact rfl))
macro "obA" t:term : tactic => `(tactic| with_reducible first
  | (refine o_thenA $t ?_; intro _ _; try dsimp only)
  | (refine o_lastA $t ?_; intro _ _; exact True.intro))

theorem o_wordDist {a : Int} {b : Int} : OEq (@wordDist w (Code w) _ _ a b) (@wordDist w (Code w) _ _ a b) := by
  unfold wordDist
  repeat first | ob1

theorem o_stdCopyN  : ∀ (n : Nat) (a : Int) (b : Int), OEq (@stdCopyN w (Code w) _ _ n a b) (@stdCopyN w (Code w) _ _ n a b) := by
  intro n
  induction n with
  | zero => intros; unfold stdCopyN; repeat ob1
  | succ n ih =>
    intros
    unfold stdCopyN
    repeat first | ob1 | obE (ih _ _)

theorem o_stdCopy {a : Int} {b : Int} {c : Int} : OEq (@stdCopy w (Code w) _ _ a b c) (@stdCopy w (Code w) _ _ a b c) := by
  unfold stdCopy
  repeat first | ob1 | obE (o_wordDist) | obE (o_stdCopyN _ _ _)

theorem o_stdCopyBackwardN  : ∀ (n : Nat) (a : Int) (b : Int), OEq (@stdCopyBackwardN w (Code w) _ _ n a b) (@stdCopyBackwardN w (Code w) _ _ n a b) := by
  intro n
  induction n with
  | zero => intros; unfold stdCopyBackwardN; repeat ob1
  | succ n ih =>
    intros
    unfold stdCopyBackwardN
    repeat first | ob1 | obE (ih _ _)

theorem o_stdCopyBackward {a : Int} {b : Int} {c : Int} : OEq (@stdCopyBackward w (Code w) _ _ a b c) (@stdCopyBackward w (Code w) _ _ a b c) := by
  unfold stdCopyBackward
  repeat first | ob1 | obE (o_wordDist) | obE (o_stdCopyBackwardN _ _ _)

theorem o_stdFillN {x x' : BitVec w} : ∀ (n : Nat) (a : Int), OEq (@stdFillN w (Code w) _ _ x n a) (@stdFillN w (Code w) _ _ x' n a) := by
  intro n
  induction n with
  | zero => intros; unfold stdFillN; repeat ob1
  | succ n ih =>
    intros
    unfold stdFillN
    repeat first | ob1 | obE (ih _)

theorem o_stdFill {a : Int} {b : Int} {x x' : BitVec w} : OEq (@stdFill w (Code w) _ _ a b x) (@stdFill w (Code w) _ _ a b x') := by
  unfold stdFill
  repeat first | ob1 | obE (o_wordDist) | obE (o_stdFillN _ _)

theorem o_stdReverseN  : ∀ (n : Nat) (a : Int) (b : Int), OEq (@stdReverseN w (Code w) _ _ n a b) (@stdReverseN w (Code w) _ _ n a b) := by
  intro n
  induction n using Nat.strongRecOn with
  | _ n ih =>
    intro a b
    match n with
    | 0 => unfold stdReverseN; repeat ob1
    | 1 => unfold stdReverseN; repeat ob1
    | n + 2 => unfold stdReverseN; repeat first | ob1 | obE (ih n (by omega) _ _)

theorem o_stdReverse {a : Int} {b : Int} : OEq (@stdReverse w (Code w) _ _ a b) (@stdReverse w (Code w) _ _ a b) := by
  unfold stdReverse
  repeat first | ob1 | obE (o_wordDist) | obE (o_stdReverseN _ _ _)

theorem o_stdTransformN {op op' : BitVec w → BitVec w} : ∀ (n : Nat) (a : Int) (b : Int), OEq (@stdTransformN w (Code w) _ _ op n a b) (@stdTransformN w (Code w) _ _ op' n a b) := by
  intro n
  induction n with
  | zero => intros; unfold stdTransformN; repeat ob1
  | succ n ih =>
    intros
    unfold stdTransformN
    repeat first | ob1 | obE (ih _ _)

theorem o_stdTransform {a : Int} {b : Int} {c : Int} {op op' : BitVec w → BitVec w} : OEq (@stdTransform w (Code w) _ _ a b c op) (@stdTransform w (Code w) _ _ a b c op') := by
  unfold stdTransform
  repeat first | ob1 | obE (o_wordDist) | obE (o_stdTransformN _ _ _)

theorem o_stdTransform2N {op op' : BitVec w → BitVec w → BitVec w} : ∀ (n : Nat) (a : Int) (b : Int) (c : Int), OEq (@stdTransform2N w (Code w) _ _ op n a b c) (@stdTransform2N w (Code w) _ _ op' n a b c) := by
  intro n
  induction n with
  | zero => intros; unfold stdTransform2N; repeat ob1
  | succ n ih =>
    intros
    unfold stdTransform2N
    repeat first | ob1 | obE (ih _ _ _)

theorem o_stdTransform2 {a : Int} {b : Int} {c : Int} {d : Int} {op op' : BitVec w → BitVec w → BitVec w} : OEq (@stdTransform2 w (Code w) _ _ a b c d op) (@stdTransform2 w (Code w) _ _ a b c d op') := by
  unfold stdTransform2
  repeat first | ob1 | obE (o_wordDist) | obE (o_stdTransform2N _ _ _ _)

theorem o_stdSwapRangesN  : ∀ (n : Nat) (a : Int) (b : Int), OEq (@stdSwapRangesN w (Code w) _ _ n a b) (@stdSwapRangesN w (Code w) _ _ n a b) := by
  intro n
  induction n with
  | zero => intros; unfold stdSwapRangesN; repeat ob1
  | succ n ih =>
    intros
    unfold stdSwapRangesN
    repeat first | ob1 | obE (ih _ _)

theorem o_stdSwapRanges {a : Int} {b : Int} {c : Int} : OEq (@stdSwapRanges w (Code w) _ _ a b c) (@stdSwapRanges w (Code w) _ _ a b c) := by
  unfold stdSwapRanges
  repeat first | ob1 | obE (o_wordDist) | obE (o_stdSwapRangesN _ _ _)

theorem o_BitIter_mk {a : Int} {p : Nat} : OEq (@BitIter.mk? w (Code w) _ _ a p) (@BitIter.mk? w (Code w) _ _ a p) := by
  unfold BitIter.mk?
  repeat first | ob1

theorem o_assertViable {f : BitIter w} {l : BitIter w} : OEq (@assertViable w (Code w) _ f l) (@assertViable w (Code w) _ f l) := by
  unfold assertViable
  repeat first | ob1

theorem o_distance {f : BitIter w} {l : BitIter w} : OEq (@distance w (Code w) _ _ f l) (@distance w (Code w) _ _ f l) := by
  unfold distance
  repeat first | ob1 | obE (o_assertViable)

theorem o_bitexch3 {a : Int} {b : Int} {k k' : BitVec w} : OEq (@bitexch3 w (Code w) _ _ a b k) (@bitexch3 w (Code w) _ _ a b k') := by
  unfold bitexch3
  repeat first | ob1

theorem o_bitexch4 {S : ShiftSem w} {a : Int} {b : Int} {s : Nat} {l : Nat} : OEq (@bitexch4 w (Code w) _ _ S a b s l) (@bitexch4 w (Code w) _ _ S a b s l) := by
  unfold bitexch4
  repeat first | ob1 | obE (o_bitexch3)

theorem o_exchStepL {S : ShiftSem w} {a : Int} {b : Int} {n : Nat} {k k' : BitVec w} {s : Nat} : OEq (@exchStepL w (Code w) _ _ S a b n k s) (@exchStepL w (Code w) _ _ S a b n k' s) := by
  unfold exchStepL
  repeat first | ob1

theorem o_exchStepR {S : ShiftSem w} {a : Int} {b : Int} {n : Nat} {k k' : BitVec w} {s : Nat} : OEq (@exchStepR w (Code w) _ _ S a b n k s) (@exchStepR w (Code w) _ _ S a b n k' s) := by
  unfold exchStepR
  repeat first | ob1

theorem o_bitexch5 {S : ShiftSem w} {a : Int} {b : Int} {s : Nat} {t : Nat} {l : Nat} : OEq (@bitexch5 w (Code w) _ _ S a b s t l) (@bitexch5 w (Code w) _ _ S a b s t l) := by
  unfold bitexch5
  repeat first | ob1 | obE (o_exchStepL) | obE (o_exchStepR)

theorem o_blendAt {S : ShiftSem w} {a : Int} {x x' : BitVec w} {s : Nat} {l : Nat} : OEq (@blendAt w (Code w) _ _ S a x s l) (@blendAt w (Code w) _ _ S a x' s l) := by
  unfold blendAt
  repeat first | ob1

theorem o_blendLowAt {S : ShiftSem w} {a : Int} {x x' : BitVec w} {n : Nat} : OEq (@blendLowAt w (Code w) _ _ S a x n) (@blendLowAt w (Code w) _ _ S a x' n) := by
  unfold blendLowAt
  repeat first | ob1

theorem o_getWord {S : ShiftSem w} {f : BitIter w} {l : Nat} : OAny (@getWord w (Code w) _ _ S f l) (@getWord w (Code w) _ _ S f l) := by
  unfold getWord
  repeat first | ob1

theorem o_writeWord {S : ShiftSem w} {x x' : BitVec w} {d : BitIter w} {l : Nat} : OEq (@writeWord w (Code w) _ _ S x d l) (@writeWord w (Code w) _ _ S x' d l) := by
  unfold writeWord
  repeat first | ob1 | obE (o_blendAt)

theorem o_wordShiftLeft {a : Int} {b : Int} {n : Int} : OEq (@wordShiftLeft w (Code w) _ _ a b n) (@wordShiftLeft w (Code w) _ _ a b n) := by
  unfold wordShiftLeft
  repeat first | ob1 | obE (o_stdCopy)

theorem o_wordShiftRight {a : Int} {b : Int} {n : Int} : OEq (@wordShiftRight w (Code w) _ _ a b n) (@wordShiftRight w (Code w) _ _ a b n) := by
  unfold wordShiftRight
  repeat first | ob1 | obE (o_stdCopyBackward)

theorem o_copyHead {S : ShiftSem w} {f : BitIter w} {d : BitIter w} {n : Nat} : OEq (@copyHead w (Code w) _ _ S f d n) (@copyHead w (Code w) _ _ S f d n) := by
  unfold copyHead
  repeat first | ob1 | obE (o_blendAt) | obA (o_getWord)

theorem o_copyTail {S : ShiftSem w} {n : Nat} {f : BitIter w} {a : Int} : OEq (@copyTail w (Code w) _ _ S n f a) (@copyTail w (Code w) _ _ S n f a) := by
  unfold copyTail
  repeat first | ob1 | obE (o_blendLowAt) | obA (o_getWord)

theorem o_copyLoop {S : ShiftSem w} : ∀ (k : Nat) (n : Nat) (f : BitIter w) (a : Int), OEq (@copyLoop w (Code w) _ _ S k n f a) (@copyLoop w (Code w) _ _ S k n f a) := by
  intro k
  induction k with
  | zero => intros; unfold copyLoop; repeat ob1
  | succ k ih =>
    intros
    unfold copyLoop
    repeat first | ob1 | obA (o_getWord) | obE (o_copyTail) | obE (ih _ _ _)

theorem o_copy {S : ShiftSem w} {f : BitIter w} {l : BitIter w} {d : BitIter w} : OEq (@copy w (Code w) _ _ S f l d) (@copy w (Code w) _ _ S f l d) := by
  unfold copy
  repeat first | ob1 | obE (o_wordDist) | obE (o_stdCopy) | obE (o_assertViable) | obE (o_distance) | obE (o_copyHead) | obE (o_copyTail) | obE (o_copyLoop _ _ _ _)

theorem o_moveHead {S : ShiftSem w} {f : BitIter w} {d : BitIter w} {n : Nat} : OEq (@moveHead w (Code w) _ _ S f d n) (@moveHead w (Code w) _ _ S f d n) := by
  unfold moveHead
  repeat first | ob1 | obE (o_blendAt) | obA (o_getWord)

theorem o_moveTail {S : ShiftSem w} {n : Nat} {f : BitIter w} {a : Int} : OEq (@moveTail w (Code w) _ _ S n f a) (@moveTail w (Code w) _ _ S n f a) := by
  unfold moveTail
  repeat first | ob1 | obE (o_blendLowAt) | obA (o_getWord)

theorem o_moveLoop {S : ShiftSem w} : ∀ (k : Nat) (n : Nat) (f : BitIter w) (a : Int), OEq (@moveLoop w (Code w) _ _ S k n f a) (@moveLoop w (Code w) _ _ S k n f a) := by
  intro k
  induction k with
  | zero => intros; unfold moveLoop; repeat ob1
  | succ k ih =>
    intros
    unfold moveLoop
    repeat first | ob1 | obA (o_getWord) | obE (o_moveTail) | obE (ih _ _ _)

theorem o_move {S : ShiftSem w} {f : BitIter w} {l : BitIter w} {d : BitIter w} : OEq (@move w (Code w) _ _ S f l d) (@move w (Code w) _ _ S f l d) := by
  unfold move
  repeat first | ob1 | obE (o_wordDist) | obE (o_stdCopy) | obE (o_assertViable) | obE (o_distance) | obE (o_moveHead) | obE (o_moveTail) | obE (o_moveLoop _ _ _ _)

theorem o_copyBackwardHead {S : ShiftSem w} {f : BitIter w} {d : BitIter w} {n : Nat} : OEq (@copyBackwardHead w (Code w) _ _ S f d n) (@copyBackwardHead w (Code w) _ _ S f d n) := by
  unfold copyBackwardHead
  repeat first | ob1 | obE (o_blendAt) | obA (o_getWord)

theorem o_copyBackwardTail {S : ShiftSem w} {n : Nat} {f : BitIter w} {a : Int} : OEq (@copyBackwardTail w (Code w) _ _ S n f a) (@copyBackwardTail w (Code w) _ _ S n f a) := by
  unfold copyBackwardTail
  repeat first | ob1 | obE (o_blendAt) | obA (o_getWord)

theorem o_copyBackwardLoop {S : ShiftSem w} : ∀ (k : Nat) (n : Nat) (f : BitIter w) (a : Int), OEq (@copyBackwardLoop w (Code w) _ _ S k n f a) (@copyBackwardLoop w (Code w) _ _ S k n f a) := by
  intro k
  induction k with
  | zero => intros; unfold copyBackwardLoop; repeat ob1
  | succ k ih =>
    intros
    unfold copyBackwardLoop
    repeat first | ob1 | obA (o_getWord) | obE (o_copyBackwardTail) | obE (ih _ _ _)

theorem o_copyBackward {S : ShiftSem w} {f : BitIter w} {l : BitIter w} {d : BitIter w} : OEq (@copyBackward w (Code w) _ _ S f l d) (@copyBackward w (Code w) _ _ S f l d) := by
  unfold copyBackward
  repeat first | ob1 | obE (o_stdCopyBackward) | obE (o_assertViable) | obE (o_distance) | obE (o_copyBackwardHead) | obE (o_copyBackwardTail) | obE (o_copyBackwardLoop _ _ _ _)

theorem o_transformHead {S : ShiftSem w} {op op' : BitVec w → BitVec w} {f : BitIter w} {d : BitIter w} {n : Nat} : OEq (@transformHead w (Code w) _ _ S op f d n) (@transformHead w (Code w) _ _ S op' f d n) := by
  unfold transformHead
  repeat first | ob1 | obE (o_blendAt) | obA (o_getWord)

theorem o_transformTail {S : ShiftSem w} {op op' : BitVec w → BitVec w} {n : Nat} {f : BitIter w} {a : Int} : OEq (@transformTail w (Code w) _ _ S op n f a) (@transformTail w (Code w) _ _ S op' n f a) := by
  unfold transformTail
  repeat first | ob1 | obE (o_blendLowAt) | obA (o_getWord)

theorem o_transformLoop {S : ShiftSem w} {op op' : BitVec w → BitVec w} : ∀ (k : Nat) (n : Nat) (f : BitIter w) (a : Int), OEq (@transformLoop w (Code w) _ _ S op k n f a) (@transformLoop w (Code w) _ _ S op' k n f a) := by
  intro k
  induction k with
  | zero => intros; unfold transformLoop; repeat ob1
  | succ k ih =>
    intros
    unfold transformLoop
    repeat first | ob1 | obA (o_getWord) | obE (o_transformTail) | obE (ih _ _ _)

theorem o_transform {S : ShiftSem w} {op op' : BitVec w → BitVec w} {f : BitIter w} {l : BitIter w} {d : BitIter w} : OEq (@transform w (Code w) _ _ S op f l d) (@transform w (Code w) _ _ S op' f l d) := by
  unfold transform
  repeat first | ob1 | obE (o_wordDist) | obE (o_stdTransform) | obE (o_assertViable) | obE (o_distance) | obE (o_transformHead) | obE (o_transformTail) | obE (o_transformLoop _ _ _ _)

theorem o_transform2Head {S : ShiftSem w} {op op' : BitVec w → BitVec w → BitVec w} {f : BitIter w} {g : BitIter w} {d : BitIter w} {n : Nat} : OEq (@transform2Head w (Code w) _ _ S op f g d n) (@transform2Head w (Code w) _ _ S op' f g d n) := by
  unfold transform2Head
  repeat first | ob1 | obE (o_blendAt) | obA (o_getWord)

theorem o_transform2Tail {S : ShiftSem w} {op op' : BitVec w → BitVec w → BitVec w} {n : Nat} {f : BitIter w} {g : BitIter w} {a : Int} : OEq (@transform2Tail w (Code w) _ _ S op n f g a) (@transform2Tail w (Code w) _ _ S op' n f g a) := by
  unfold transform2Tail
  repeat first | ob1 | obE (o_blendLowAt) | obA (o_getWord)

theorem o_transform2Loop {S : ShiftSem w} {op op' : BitVec w → BitVec w → BitVec w} : ∀ (k : Nat) (n : Nat) (f : BitIter w) (g : BitIter w) (a : Int), OEq (@transform2Loop w (Code w) _ _ S op k n f g a) (@transform2Loop w (Code w) _ _ S op' k n f g a) := by
  intro k
  induction k with
  | zero => intros; unfold transform2Loop; repeat ob1
  | succ k ih =>
    intros
    unfold transform2Loop
    repeat first | ob1 | obA (o_getWord) | obE (o_transform2Tail) | obE (ih _ _ _ _)

theorem o_transform2 {S : ShiftSem w} {op op' : BitVec w → BitVec w → BitVec w} {f : BitIter w} {l : BitIter w} {g : BitIter w} {d : BitIter w} : OEq (@transform2 w (Code w) _ _ S op f l g d) (@transform2 w (Code w) _ _ S op' f l g d) := by
  unfold transform2
  repeat first | ob1 | obE (o_wordDist) | obE (o_stdTransform2) | obE (o_assertViable) | obE (o_distance) | obE (o_transform2Head) | obE (o_transform2Tail) | obE (o_transform2Loop _ _ _ _ _)

theorem o_fill {S : ShiftSem w} {f : BitIter w} {l : BitIter w} {v v' : Bool} : OEq (@fill w (Code w) _ _ S f l v) (@fill w (Code w) _ _ S f l v') := by
  unfold fill
  repeat first | ob1 | obE (o_stdFill) | obE (o_assertViable) | obE (o_distance) | obE (o_writeWord)

theorem o_popcntWords  : ∀ (n : Nat) (a : Int), OAny (@popcntWords w (Code w) _ _ n a) (@popcntWords w (Code w) _ _ n a) := by
  intro n
  induction n with
  | zero => intros; unfold popcntWords; repeat ob1
  | succ n ih =>
    intros
    unfold popcntWords
    repeat first | ob1 | obA (ih _)

theorem o_count {S : ShiftSem w} {f : BitIter w} {l : BitIter w} {v v' : Bool} : OAny (@count w (Code w) _ _ S f l v) (@count w (Code w) _ _ S f l v') := by
  unfold count
  repeat first | ob1 | obE (o_wordDist) | obE (o_assertViable) | obA (o_popcntWords _ _)

theorem o_shiftLeftAlign {S : ShiftSem w} {f : BitIter w} {g : BitIter w} {d : Int} {n : Int} : OEq (@shiftLeftAlign w (Code w) _ _ S f g d n) (@shiftLeftAlign w (Code w) _ _ S f g d n) := by
  unfold shiftLeftAlign
  repeat first | ob1 | obE (o_blendAt)

theorem o_shiftLeftLoop {S : ShiftSem w} {o : Nat} {e : Int} : ∀ (k : Nat) (a : Int) (b : Int), OEq (@shiftLeftLoop w (Code w) _ _ S o e k a b) (@shiftLeftLoop w (Code w) _ _ S o e k a b) := by
  intro k
  induction k with
  | zero => intros; unfold shiftLeftLoop; repeat ob1
  | succ k ih =>
    intros
    unfold shiftLeftLoop
    repeat first | ob1 | obE (ih _ _)

theorem o_shiftLeftMain {S : ShiftSem w} {f : BitIter w} {g : BitIter w} {l : BitIter w} {n : Int} : OEq (@shiftLeftMain w (Code w) _ _ S f g l n) (@shiftLeftMain w (Code w) _ _ S f g l n) := by
  unfold shiftLeftMain
  repeat first | ob1 | obE (o_distance) | obE (o_blendAt) | obA (o_getWord) | obE (o_writeWord) | obE (o_wordShiftLeft) | obE (o_shiftLeftLoop _ _ _)

theorem o_shiftLeft {S : ShiftSem w} {f : BitIter w} {l : BitIter w} {n : Int} : OEq (@shiftLeft w (Code w) _ _ S f l n) (@shiftLeft w (Code w) _ _ S f l n) := by
  unfold shiftLeft
  repeat first | ob1 | obE (o_assertViable) | obE (o_distance) | obE (o_blendAt) | obA (o_getWord) | obE (o_writeWord) | obE (o_shiftLeftAlign) | obE (o_shiftLeftMain)

theorem o_shiftRightLoop {S : ShiftSem w} {o : Nat} {e : Int} : ∀ (k : Nat) (a : Int) (b : Int), OEq (@shiftRightLoop w (Code w) _ _ S o e k a b) (@shiftRightLoop w (Code w) _ _ S o e k a b) := by
  intro k
  induction k with
  | zero => intros; unfold shiftRightLoop; repeat ob1
  | succ k ih =>
    intros
    unfold shiftRightLoop
    repeat first | ob1 | obE (ih _ _)

theorem o_shiftRightWords {S : ShiftSem w} {f : BitIter w} {g : BitIter w} {l : BitIter w} {o : Nat} : OEq (@shiftRightWords w (Code w) _ _ S f g l o) (@shiftRightWords w (Code w) _ _ S f g l o) := by
  unfold shiftRightWords
  repeat first | ob1 | obE (o_shiftRightLoop _ _ _)

theorem o_shiftRightTail {S : ShiftSem w} {f : BitIter w} {g : BitIter w} {l : BitIter w} {n : Int} : OEq (@shiftRightTail w (Code w) _ _ S f g l n) (@shiftRightTail w (Code w) _ _ S f g l n) := by
  unfold shiftRightTail
  repeat first | ob1 | obE (o_distance) | obA (o_getWord) | obE (o_writeWord)

theorem o_shiftRightMain {S : ShiftSem w} {f : BitIter w} {g : BitIter w} {l : BitIter w} {n : Int} : OEq (@shiftRightMain w (Code w) _ _ S f g l n) (@shiftRightMain w (Code w) _ _ S f g l n) := by
  unfold shiftRightMain
  repeat first | ob1 | obE (o_distance) | obE (o_wordShiftRight) | obE (o_shiftRightWords) | obE (o_shiftRightTail)

theorem o_shiftRight {S : ShiftSem w} {f : BitIter w} {l : BitIter w} {n : Int} : OEq (@shiftRight w (Code w) _ _ S f l n) (@shiftRight w (Code w) _ _ S f l n) := by
  unfold shiftRight
  repeat first | ob1 | obE (o_distance) | obE (o_blendAt) | obA (o_getWord) | obE (o_writeWord) | obE (o_shiftRightMain)

theorem o_reverseShift {S : ShiftSem w} {a : Int} {b : Int} {c : Int} {p : Nat} {q : Nat} : OEq (@reverseShift w (Code w) _ _ S a b c p q) (@reverseShift w (Code w) _ _ S a b c p q) := by
  unfold reverseShift
  repeat first | ob1 | obE (o_shiftLeft) | obE (o_shiftRight)

theorem o_reverseFirst {S : ShiftSem w} {a : Int} {p : Nat} {x x' : BitVec w} : OEq (@reverseFirst w (Code w) _ _ S a p x) (@reverseFirst w (Code w) _ _ S a p x') := by
  unfold reverseFirst
  repeat first | ob1

theorem o_reverseLast {S : ShiftSem w} {a : Int} {p : Nat} {x x' : BitVec w} : OEq (@reverseLast w (Code w) _ _ S a p x) (@reverseLast w (Code w) _ _ S a p x') := by
  unfold reverseLast
  repeat first | ob1

theorem o_reverse {S : ShiftSem w} {f : BitIter w} {l : BitIter w} : OEq (@reverse w (Code w) _ _ S f l) (@reverse w (Code w) _ _ S f l) := by
  unfold reverse
  repeat first | ob1 | obE (o_stdReverse) | obE (o_stdTransform) | obE (o_assertViable) | obE (o_blendAt) | obE (o_reverseShift) | obE (o_reverseFirst) | obE (o_reverseLast)

theorem o_swapLoop {S : ShiftSem w} {e : Int} {p : Nat} : ∀ (k : Nat) (a : Int) (b : Int), OEq (@swapLoop w (Code w) _ _ S e p k a b) (@swapLoop w (Code w) _ _ S e p k a b) := by
  intro k
  induction k with
  | zero => intros; unfold swapLoop; repeat ob1
  | succ k ih =>
    intros
    unfold swapLoop
    repeat first | ob1 | obE (o_bitexch5) | obE (ih _ _)

theorem o_swapSingle {S : ShiftSem w} {f : BitIter w} {l : BitIter w} {g : BitIter w} : OEq (@swapSingle w (Code w) _ _ S f l g) (@swapSingle w (Code w) _ _ S f l g) := by
  unfold swapSingle
  repeat first | ob1 | obE (o_distance) | obE (o_bitexch5)

theorem o_swapAligned {S : ShiftSem w} {f : BitIter w} {l : BitIter w} {g : BitIter w} : OEq (@swapAligned w (Code w) _ _ S f l g) (@swapAligned w (Code w) _ _ S f l g) := by
  unfold swapAligned
  repeat first | ob1 | obE (o_stdSwapRanges) | obE (o_BitIter_mk) | obE (o_bitexch4)

theorem o_swapMisHead {S : ShiftSem w} {f : BitIter w} {g : BitIter w} : OEq (@swapMisHead w (Code w) _ _ S f g) (@swapMisHead w (Code w) _ _ S f g) := by
  unfold swapMisHead
  repeat first | ob1 | obE (o_bitexch5)

theorem o_swapMisaligned {S : ShiftSem w} {f : BitIter w} {l : BitIter w} {g : BitIter w} : OEq (@swapMisaligned w (Code w) _ _ S f l g) (@swapMisaligned w (Code w) _ _ S f l g) := by
  unfold swapMisaligned
  repeat first | ob1 | obE (o_BitIter_mk) | obE (o_bitexch5) | obE (o_swapLoop _ _ _) | obE (o_swapMisHead)

theorem o_swapRanges {S : ShiftSem w} {f : BitIter w} {l : BitIter w} {g : BitIter w} : OEq (@swapRanges w (Code w) _ _ S f l g) (@swapRanges w (Code w) _ _ S f l g) := by
  unfold swapRanges
  repeat first | ob1 | obE (o_assertViable) | obE (o_swapSingle) | obE (o_swapAligned) | obE (o_swapMisaligned)

theorem o_rotFwdSwaps {S : ShiftSem w} {k : Int} : ∀ (n : Nat) (p : BitIter w) (q : BitIter w), OEq (@rotFwdSwaps w (Code w) _ _ S k n p q) (@rotFwdSwaps w (Code w) _ _ S k n p q) := by
  intro n
  induction n with
  | zero => intros; unfold rotFwdSwaps; repeat ob1
  | succ n ih =>
    intros
    unfold rotFwdSwaps
    repeat first | ob1 | obE (o_swapRanges) | obE (ih _ _)

theorem o_rotBwdSwaps {S : ShiftSem w} {k : Int} : ∀ (n : Nat) (p : BitIter w) (q : BitIter w), OEq (@rotBwdSwaps w (Code w) _ _ S k n p q) (@rotBwdSwaps w (Code w) _ _ S k n p q) := by
  intro n
  induction n with
  | zero => intros; unfold rotBwdSwaps; repeat ob1
  | succ n ih =>
    intros
    unfold rotBwdSwaps
    repeat first | ob1 | obE (o_swapRanges) | obE (ih _ _)

theorem o_rotLoop {S : ShiftSem w} : ∀ (fuel : Nat) (p : BitIter w) (k : Int) (n : Int), OEq (@rotLoop w (Code w) _ _ S fuel p k n) (@rotLoop w (Code w) _ _ S fuel p k n) := by
  intro fuel
  induction fuel with
  | zero => intros; unfold rotLoop; repeat ob1
  | succ fuel ih =>
    intros
    unfold rotLoop
    repeat first | ob1 | obA (o_getWord) | obE (o_writeWord) | obE (o_shiftLeft) | obE (o_shiftRight) | obE (o_swapRanges) | obE (o_rotFwdSwaps _ _ _) | obE (o_rotBwdSwaps _ _ _) | obE (ih _ _ _)

theorem o_rotateViaRaw {S : ShiftSem w} {f : BitIter w} {g : BitIter w} {l : BitIter w} : OEq (@rotateViaRaw w (Code w) _ _ S f g l) (@rotateViaRaw w (Code w) _ _ S f g l) := by
  unfold rotateViaRaw
  repeat first | ob1 | obE (o_swapRanges) | obE (o_rotLoop _ _ _ _)

theorem o_rotateSingle {S : ShiftSem w} {f : BitIter w} {g : BitIter w} {l : BitIter w} : OEq (@rotateSingle w (Code w) _ _ S f g l) (@rotateSingle w (Code w) _ _ S f g l) := by
  unfold rotateSingle
  repeat first | ob1 | obE (o_blendAt)

theorem o_rotate {S : ShiftSem w} {f : BitIter w} {g : BitIter w} {l : BitIter w} : OEq (@rotate w (Code w) _ _ S f g l) (@rotate w (Code w) _ _ S f g l) := by
  unfold rotate
  repeat first | ob1 | obE (o_assertViable) | obE (o_distance) | obA (o_getWord) | obE (o_writeWord) | obE (o_shiftLeft) | obE (o_shiftRight) | obE (o_rotateViaRaw) | obE (o_rotateSingle)

/-! ### find: the result determines the accesses -/

theorem o_bind_if {c : Code w α} {d : Code w β} {f : α → Code w γ} {g : β → Code w δ} (h : ObIf C R c d)
    (hc : ∀ r r' m m' s s' n n', (f r).run m = .ok (s, n) → (g r').run m' = .ok (s', n') → D s s' → C r r')
    (hf : ∀ r r', C r r' → R r r' → ObIf D Q (f r) (g r')) : ObIf D Q (c >>= f) (d >>= g) := by
  intro m m' s s' n n' h1 h2 hd
  obtain ⟨r, m1, a1, a2⟩ := Code.run_bind c f m n s h1
  obtain ⟨r', m1', b1, b2⟩ := Code.run_bind d g m' n' s' h2
  have hC := hc r r' m1 m1' s s' n n' a2 b2 hd
  obtain ⟨hR, ht⟩ := h m m' r r' m1 m1' a1 b1 hC
  obtain ⟨hQ, hu⟩ := hf r r' hC hR m1 m1' s s' n n' a2 b2 hd
  exact ⟨hQ, by rw [Code.trace_bind c f m m1 r a1, Code.trace_bind d g m' m1' r' b1, ht, hu]⟩

/-- Every result of the code satisfies `P`. -/
def Res (P : α → Prop) (c : Code w α) : Prop := ∀ m r n, c.run m = .ok (r, n) → P r

theorem res_pure {P : α → Prop} {a : α} (h : P a) : Res P (pure a : Code w α) := by
  intro m r n h1
  obtain ⟨rfl, -⟩ := Prod.mk.inj (Except.ok.inj h1)
  exact h
theorem res_bind {P : α → Prop} {c : Code w β} {f : β → Code w α} (h : ∀ b, Res P (f b)) : Res P (c >>= f) := by
  intro m r n h1
  obtain ⟨b, m1, -, a2⟩ := Code.run_bind c f m n r h1
  exact h b m1 r n a2
theorem res_bind' {P : α → Prop} {O : β → Prop} {c : Code w β} {f : β → Code w α} (hc : Res O c) (h : ∀ b, O b → Res P (f b)) : Res P (c >>= f) := by
  intro m r n h1
  obtain ⟨b, m1, a1, a2⟩ := Code.run_bind c f m n r h1
  exact h b (hc m b m1 a1) m1 r n a2
theorem res_ite {P : α → Prop} {p : Prop} [Decidable p] {c d : Code w α} (h1 : p → Res P c) (h2 : ¬p → Res P d) : Res P (if p then c else d) := by
  split
  · exact h1 ‹_›
  · exact h2 ‹_›
theorem res_ub {P : α → Prop} (e : UB) : Res P (ub e : Code w α) := by intro m r n h; cases h

theorem res_mk {a : Int} {p : Nat} : Res (fun r => r.base = a) (@BitIter.mk? w (Code w) _ _ a p) := by
  unfold BitIter.mk?
  exact res_bind fun _ => res_pure rfl

theorem res_stdFindIfN {p : BitVec w → Bool} : ∀ (n : Nat) (a : Int), Res (fun r => a ≤ r) (@stdFindIfN w (Code w) _ _ p n a) := by
  intro n
  induction n with
  | zero => intro a; unfold stdFindIfN; exact res_pure (Int.le_refl _)
  | succ n ih =>
    intro a
    unfold stdFindIfN
    refine res_bind fun x => res_ite (fun _ => res_pure (Int.le_refl _)) fun _ m r k h => ?_
    have := ih (a + 1) m r k h
    show a ≤ r
    have : a + 1 ≤ r := this
    omega

theorem o_stdFindIfN {p p' : BitVec w → Bool} : ∀ (n : Nat) (a : Int),
    ObIf (fun r r' => r = r') (fun _ _ => True) (@stdFindIfN w (Code w) _ _ p n a) (@stdFindIfN w (Code w) _ _ p' n a) := by
  intro n
  induction n with
  | zero => intro a; unfold stdFindIfN; exact o_pure trivial
  | succ n ih =>
    intro a
    unfold stdFindIfN
    refine o_bind_load fun x y => ?_
    by_cases hx : p x = true <;> by_cases hy : p' y = true
    · rw [if_pos hx, if_pos hy]; exact o_pure trivial
    · rw [if_pos hx, if_neg hy]
      intro m m' r r' k k' h1 h2 he
      obtain ⟨rfl, -⟩ := Prod.mk.inj (Except.ok.inj h1)
      have : a + 1 ≤ r' := res_stdFindIfN n (a + 1) m' r' k' h2
      omega
    · rw [if_neg hx, if_pos hy]
      intro m m' r r' k k' h1 h2 he
      obtain ⟨rfl, -⟩ := Prod.mk.inj (Except.ok.inj h2)
      have : a + 1 ≤ r := res_stdFindIfN n (a + 1) m r k h1
      omega
    · rw [if_neg hx, if_neg hy]; exact ih _

theorem o_stdFindIf {p p' : BitVec w → Bool} {a b : Int} :
    ObIf (fun r r' => r = r') (fun _ _ => True) (@stdFindIf w (Code w) _ _ a b p) (@stdFindIf w (Code w) _ _ a b p') := by
  unfold stdFindIf
  exact o_then o_wordDist fun n => o_stdFindIfN n a

theorem res_findRest {it : Int} {l : BitIter w} {v : Bool} : Res (fun r : BitIter w => r.base = it)
    (if it ≠ l.base then do
      let x ← load it
      BitIter.mk? it (tzFor v x)
    else if l.pos ≠ 0 then do
      let x ← load it
      BitIter.mk? it (min (tzFor v x) l.pos)
    else pure l : Code w (BitIter w)) :=
  res_ite (fun _ => res_bind fun _ => res_mk) fun h => res_ite (fun _ => res_bind fun _ => res_mk) fun _ => res_pure (by
    rw [not_not] at h; exact h.symm)

theorem o_findRest {it : Int} {l : BitIter w} {v v' : Bool} :
    ObIf (fun r r' => r = r') (fun _ _ => True) (if it ≠ l.base then do
      let x ← load it
      BitIter.mk? it (tzFor v x)
    else if l.pos ≠ 0 then do
      let x ← load it
      BitIter.mk? it (min (tzFor v x) l.pos)
    else pure l : Code w (BitIter w)) (if it ≠ l.base then do
      let x ← load it
      BitIter.mk? it (tzFor v' x)
    else if l.pos ≠ 0 then do
      let x ← load it
      BitIter.mk? it (min (tzFor v' x) l.pos)
    else pure l) := by
  have hmk : ∀ {p q : Nat}, ObIf (fun r r' => r = r') (fun _ _ => True) (@BitIter.mk? w (Code w) _ _ it p) (@BitIter.mk? w (Code w) _ _ it q) := by
    intro p q
    unfold BitIter.mk?
    rw [assertM_code, assertM_code]
    by_cases hp : p < w
    · by_cases hq : q < w
      · rw [if_pos hp, if_pos hq]; exact o_pure trivial
      · rw [if_pos hp, if_neg hq]; intro m m' r r' n n' h1 h2; cases h2
    · rw [if_neg hp]; intro m m' r r' n n' h1; cases h1
  exact o_ite (fun _ => o_bind_load fun _ _ => hmk) fun _ => o_ite (fun _ => o_bind_load fun _ _ => hmk) fun _ => o_pure trivial

theorem o_findWords {a : Int} {l : BitIter w} {v v' : Bool} :
    ObIf (fun r r' => r = r') (fun _ _ => True) (@findWords w (Code w) _ _ a l v) (@findWords w (Code w) _ _ a l v') := by
  unfold findWords
  refine o_bind_if o_stdFindIf (fun r r' m m' s s' n n' h1 h2 he => ?_) fun r r' he _ => ?_
  · have e1 : s.base = r := res_findRest m s n h1
    have e2 : s'.base = r' := res_findRest m' s' n' h2
    rw [← e1, ← e2, he]
  · subst he
    exact o_findRest

theorem res_findWords {a : Int} {l : BitIter w} {v : Bool} : Res (fun r : BitIter w => a ≤ r.base) (@findWords w (Code w) _ _ a l v) := by
  unfold findWords
  refine res_bind' (O := fun r => a ≤ r) ?_ fun r hr m s n h => ?_
  · unfold stdFindIf
    exact res_bind fun n => res_stdFindIfN n a
  · rw [show s.base = r from res_findRest m s n h]
    exact hr

theorem o_find {S : ShiftSem w} {f l : BitIter w} {v v' : Bool} (hf : f.Valid) :
    ObIf (fun r r' => r = r') (fun _ _ => True) (@find w (Code w) _ _ S f l v) (@find w (Code w) _ _ S f l v') := by
  unfold find
  refine o_ite (fun _ => o_bind_load fun x y => o_bind_lift fun s t => o_ite (fun _ => o_then o_distance fun _ => o_pure trivial) fun _ => ?_)
    fun _ => o_findWords
  have hp : f.pos < w := hf
  have hw : 0 < w := lt_of_le_of_lt (Nat.zero_le _) hf
  have hb : (f.add ((w - f.pos : Nat) : Int)).base = f.base + 1 := by
    rw [BitIter.add_eq hw]
    show f.base + _ / _ = _
    rw [show ((f.pos : Int) + ((w - f.pos : Nat) : Int)) = w by omega, Int.ediv_self (by omega)]
  have hs : ∀ k : Nat, k + f.pos < w → (f.add (k : Int)).base = f.base := by
    intro k hk
    rw [BitIter.add_eq hw]
    show f.base + _ / _ = _
    rw [Int.ediv_eq_zero_of_lt (by omega) (by omega), Int.add_zero]
  by_cases hx : tzFor v s + f.pos < w <;> by_cases hy : tzFor v' t + f.pos < w
  · rw [if_pos hx, if_pos hy]; exact o_pure trivial
  · rw [if_pos hx, if_neg hy]
    intro m m' r r' k k' h1 h2 he
    obtain ⟨rfl, -⟩ := Prod.mk.inj (Except.ok.inj h1)
    have := res_findWords m' r' k' h2
    rw [hb, ← he, hs _ hx] at this
    omega
  · rw [if_neg hx, if_pos hy]
    intro m m' r r' k k' h1 h2 he
    obtain ⟨rfl, -⟩ := Prod.mk.inj (Except.ok.inj h2)
    have := res_findWords m r k h1
    rw [hb, he, hs _ hy] at this
    omega
  · rw [if_neg hx, if_neg hy]; exact o_findWords

/-! ### equal: the accesses of a comparison that fails are the first ones of a comparison that does not -/

/-- The accesses of `c` are the first ones of `d`, if the result of `d` is `true`, and all of them if the result of `c` is `true`, too. -/
def Pf (c d : Code w Bool) : Prop :=
  ∀ m m' r r' n n', c.run m = .ok (r, n) → d.run m' = .ok (r', n') → r' = true → c.trace m <+: d.trace m' ∧ (r = true → c.trace m = d.trace m')

theorem pf_bind {c : Code w α} {d : Code w β} {f : α → Code w Bool} {g : β → Code w Bool} (h : Ob R c d)
    (hf : ∀ r r', R r r' → Pf (f r) (g r')) : Pf (c >>= f) (d >>= g) := by
  intro m m' s s' n n' h1 h2 hd
  obtain ⟨r, m1, a1, a2⟩ := Code.run_bind c f m n s h1
  obtain ⟨r', m1', b1, b2⟩ := Code.run_bind d g m' n' s' h2
  obtain ⟨hR, ht⟩ := h m m' r r' m1 m1' a1 b1 trivial
  obtain ⟨hQ, hu⟩ := hf r r' hR m1 m1' s s' n n' a2 b2 hd
  rw [Code.trace_bind c f m m1 r a1, Code.trace_bind d g m' m1' r' b1, ht]
  exact ⟨(List.prefix_append_right_inj _).2 hQ, fun e => by rw [hu e]⟩

theorem pf_ob {c d : Code w Bool} (h : OAny c d) : Pf c d := fun m m' r r' n n' h1 h2 _ =>
  have e := (h m m' r r' n n' h1 h2 trivial).2
  ⟨e ▸ List.prefix_refl _, fun _ => e⟩

theorem pf_ite {p : Prop} [Decidable p] {c c' d d' : Code w Bool} (h1 : p → Pf c d) (h2 : ¬p → Pf c' d') :
    Pf (if p then c else c') (if p then d else d') := by
  by_cases h : p
  · rw [if_pos h, if_pos h]; exact h1 h
  · rw [if_neg h, if_neg h]; exact h2 h

theorem pf_test {p q : Prop} [Decidable p] [Decidable q] {c d : Code w Bool} (h : Pf c d) :
    Pf (if p then c else pure false) (if q then d else pure false) := by
  by_cases hq : q
  · rw [if_pos hq]
    by_cases hp : p
    · rw [if_pos hp]; exact h
    · rw [if_neg hp]
      intro m m' r r' n n' h1 h2 _
      obtain ⟨rfl, -⟩ := Prod.mk.inj (Except.ok.inj h1)
      exact ⟨List.nil_prefix, fun e => by cases e⟩
  · rw [if_neg hq]
    intro m m' r r' n n' h1 h2 e
    obtain ⟨rfl, -⟩ := Prod.mk.inj (Except.ok.inj h2)
    cases e

theorem pf_then {c d e f : Code w Bool} (h : Pf c d) (h2 : Pf e f) :
    Pf (do let b ← c; if b then e else pure false) (do let b ← d; if b then f else pure false) := by
  intro m m' s s' n n' h1 h2' hd
  obtain ⟨r, m1, a1, a2⟩ := Code.run_bind c _ m n s h1
  obtain ⟨r', m1', b1, b2⟩ := Code.run_bind d _ m' n' s' h2'
  have hr' : r' = true := by
    cases r' with
    | true => rfl
    | false =>
      obtain ⟨rfl, -⟩ := Prod.mk.inj (Except.ok.inj b2)
      exact hd
  obtain ⟨hp, he⟩ := h m m' r r' m1 m1' a1 b1 hr'
  rw [Code.trace_bind c _ m m1 r a1, Code.trace_bind d _ m' m1' r' b1]
  subst hr'
  cases r with
  | true =>
    obtain ⟨hQ, hu⟩ := h2 m1 m1' s s' n n' a2 b2 hd
    rw [he rfl]
    exact ⟨(List.prefix_append_right_inj _).2 hQ, fun e => by rw [if_pos rfl, if_pos rfl, hu e]⟩
  | false =>
    obtain ⟨rfl, -⟩ := Prod.mk.inj (Except.ok.inj a2)
    refine ⟨?_, fun e => by cases e⟩
    show c.trace m ++ [] <+: _
    rw [List.append_nil]
    exact hp.trans (List.prefix_append _ _)

theorem pf_load {a : Int} {f g : BitVec w → Code w Bool} (h : ∀ x y, Pf (f x) (g y)) : Pf (load a >>= f) (load a >>= g) :=
  pf_bind (R := fun _ _ => True) (o_load fun _ _ => trivial) fun x y _ => h x y
theorem pf_lift {e e' : Except UB α} {f g : α → Code w Bool} (h : ∀ x y, Pf (f x) (g y)) : Pf (lift e >>= f) (lift e' >>= g) :=
  pf_bind (R := fun _ _ => True) (o_lift fun _ _ => trivial) fun x y _ => h x y
theorem pf_eq {c d : Code w α} {f g : α → Code w Bool} (h : OEq c d) (hf : ∀ r, Pf (f r) (g r)) : Pf (c >>= f) (d >>= g) :=
  pf_bind h fun r _ e => e ▸ hf r
theorem pf_any {c d : Code w α} {f g : α → Code w Bool} (h : OAny c d) (hf : ∀ r s, Pf (f r) (g s)) : Pf (c >>= f) (d >>= g) :=
  pf_bind h fun r s _ => hf r s

theorem o_equalTail {S : ShiftSem w} {n : Nat} {f : BitIter w} {a : Int} :
    OAny (@equalTail w (Code w) _ _ S n f a) (@equalTail w (Code w) _ _ S n f a) := by
  unfold equalTail
  repeat first | ob1 | obA o_getWord

theorem pf_stdEqualN : ∀ (n : Nat) (a b : Int), Pf (@stdEqualN w (Code w) _ _ n a b) (@stdEqualN w (Code w) _ _ n a b) := by
  intro n
  induction n with
  | zero => intro a b; unfold stdEqualN; exact pf_ob (o_pure trivial)
  | succ n ih =>
    intro a b
    unfold stdEqualN
    exact pf_load fun _ _ => pf_load fun _ _ => pf_test (ih _ _)

theorem pf_stdEqual {a b c : Int} : Pf (@stdEqual w (Code w) _ _ a b c) (@stdEqual w (Code w) _ _ a b c) := by
  unfold stdEqual
  exact pf_eq o_wordDist fun n => pf_stdEqualN n _ _

theorem pf_equalLoop {S : ShiftSem w} : ∀ (k n : Nat) (f : BitIter w) (a : Int),
    Pf (@equalLoop w (Code w) _ _ S k n f a) (@equalLoop w (Code w) _ _ S k n f a) := by
  intro k
  induction k with
  | zero => intro n f a; unfold equalLoop; exact pf_ob (o_ub _ _)
  | succ k ih =>
    intro n f a
    unfold equalLoop
    exact pf_ite (fun _ => pf_load fun _ _ => pf_any o_getWord fun _ _ => pf_test (ih _ _ _)) fun _ => pf_ob o_equalTail

theorem pf_equalBody {S : ShiftSem w} {n : Nat} {f l : BitIter w} {a : Int} :
    Pf (@equalBody w (Code w) _ _ S n f l a) (@equalBody w (Code w) _ _ S n f l a) := by
  unfold equalBody
  exact pf_ite (fun _ => pf_ite (fun _ => pf_eq o_wordDist fun N => pf_then pf_stdEqual (pf_ob o_equalTail)) fun _ => pf_equalLoop _ _ _ _)
    fun _ => pf_ob (o_pure trivial)

theorem pf_equal {S : ShiftSem w} {f l d : BitIter w} : Pf (@equal w (Code w) _ _ S f l d) (@equal w (Code w) _ _ S f l d) := by
  unfold equal
  exact pf_eq o_assertViable fun _ => pf_ite (fun _ => pf_ob (o_pure trivial)) fun _ => pf_eq o_distance fun _ => pf_ite
    (fun _ => pf_lift fun _ _ => pf_lift fun _ _ => pf_any o_getWord fun _ _ => pf_lift fun _ _ => pf_load fun _ _ => pf_test pf_equalBody)
    fun _ => pf_equalBody

end Gen
end BitLib
