import Verif.Model.Pointers
/- A program that checks its word iterators stops at a forbidden one or does what the program of the model does. -/
namespace BitLib
namespace Ptr
variable {w : Nat} {α β : Type}

/-- From every memory, `p` stops at a forbidden word iterator or does what `q` does. -/
def Under (p : P w α) (q : M w α) : Prop := ∀ m, Bad (p m) ∨ Same (p m) (q m)

theorem u_up (q : M w α) : Under (up q) q := by
  intro m
  right
  unfold up Same
  cases q m <;> rfl
theorem u_pure (a : α) : Under (pure a : P w α) (pure a) := fun _ => .inr rfl
theorem u_bind {p : P w α} {f : α → P w β} {q : M w α} {g : α → M w β} (h1 : Under p q) (h2 : ∀ a, Under (f a) (g a)) :
    Under (p >>= f) (q >>= g) := by
  intro m
  show Bad ((p m >>= fun r => f r.1 r.2 : Except PStop _)) ∨ Same (p m >>= fun r => f r.1 r.2) (q m >>= fun r => g r.1 r.2)
  rcases h1 m with ⟨A, a, h⟩ | h
  · left
    exact ⟨A, a, by rw [h]; rfl⟩
  · unfold Same at h
    cases hq : q m with
    | error e =>
      rw [hq] at h
      right
      simp only at h
      rw [h]
      rfl
    | ok r =>
      rw [hq] at h
      simp only at h
      rw [h]
      exact h2 r.1 r.2
theorem u_form {A : Arr} {a : Int} {k : Unit → P w α} {q : M w α} (h : Under (k ()) q) : Under (form A a >>= k) q := by
  intro m
  by_cases hc : A.lo ≤ a ∧ a ≤ A.hi
  · have : (form A a >>= k) m = k () m := by
      show (form A a m >>= fun r => k r.1 r.2 : Except PStop _) = _
      unfold form
      rw [if_pos hc]
      rfl
    rw [this]
    exact h m
  · left
    refine ⟨A, a, ?_⟩
    show (form A a m >>= fun r => k r.1 r.2 : Except PStop _) = _
    unfold form
    rw [if_neg hc]
    rfl
theorem u_deref {A : Arr} {a : Int} {k : Unit → P w α} {q : M w α} (h : Under (k ()) q) : Under (deref A a >>= k) q := by
  intro m
  by_cases hc : A.lo ≤ a ∧ a < A.hi
  · have : (deref A a >>= k) m = k () m := by
      show (deref A a m >>= fun r => k r.1 r.2 : Except PStop _) = _
      unfold deref
      rw [if_pos hc]
      rfl
    rw [this]
    exact h m
  · left
    refine ⟨A, a, ?_⟩
    show (deref A a m >>= fun r => k r.1 r.2 : Except PStop _) = _
    unfold deref
    rw [if_neg hc]
    rfl
theorem u_ite {c : Prop} [Decidable c] {p p' : P w α} {q q' : M w α} (h1 : Under p q) (h2 : Under p' q') :
    Under (if c then p else p') (if c then q else q') := by
  split
  · exact h1
  · exact h2
/-- A step that only checks iterators and computes `b`. -/
theorem u_skip {p : P w α} {b : α} {k : α → P w β} {q : M w β} (hp : Under p (pure b)) (h : Under (k b) q) : Under (p >>= k) q := by
  intro m
  rcases hp m with ⟨A, a, h'⟩ | h'
  · left
    exact ⟨A, a, by show (p m >>= fun r => k r.1 r.2 : Except PStop _) = _; rw [h']; rfl⟩
  · have e : p m = .ok (b, m) := h'
    have : (p >>= k) m = k b m := by
      show (p m >>= fun r => k r.1 r.2 : Except PStop _) = _
      rw [e]
      rfl
    rw [this]
    exact h m
theorem u_add0 {A : Arr} {it : BitIter w} {n : Int} : Under (add A it n) (pure (it.add n)) := u_form (u_pure _)
theorem u_sub0 {A : Arr} {it : BitIter w} {n : Int} : Under (sub A it n) (pure (it.sub n)) := u_form (u_pure _)
theorem u_isWithinAux {A : Arr} {rem : Nat} : ∀ k (first last : BitIter w),
    Under (isWithinAux A rem k first last) (pure (BitLib.isWithinAux rem k first last)) := by
  intro k
  induction k with
  | zero =>
    intro first last
    unfold Ptr.isWithinAux BitLib.isWithinAux
    split
    next h => rw [show (decide (first.base = last.base) && decide (first.pos + rem ≥ last.pos)) = true by simp [h]]; exact u_pure _
    next h =>
      rw [show (decide (first.base = last.base) && decide (first.pos + rem ≥ last.pos)) = false by simpa using h]
      exact u_form (u_pure _)
  | succ k ih =>
    intro first last
    unfold Ptr.isWithinAux BitLib.isWithinAux
    split
    next h => simp only [h, decide_true, Bool.true_or]; exact u_pure _
    next h =>
      refine u_form ?_
      split
      next h2 =>
        rw [show (decide (first.base + 1 = last.base) && decide (first.pos ≥ last.pos)) = true by simp [h2]]
        simp only [Bool.or_true, Bool.true_or]
        exact u_pure _
      next h2 =>
        rw [show (decide (first.base + 1 = last.base) && decide (first.pos ≥ last.pos)) = false by simpa using h2,
          show decide (first.base = last.base) = false by simpa using h]
        exact u_skip u_add0 (ih _ _)
theorem u_isWithin {A : Arr} {N : Nat} {first last : BitIter w} :
    Under (isWithin A N first last) (pure (BitLib.isWithin N first last)) := u_isWithinAux _ _ _

/-- Proves `Under` from the two texts; extended with a lemma for each function below. -/
syntax "pu1" : tactic
macro_rules | `(tactic| pu1) => `(tactic| split)
macro_rules | `(tactic| pu1) => `(tactic| intro _)
macro_rules | `(tactic| pu1) => `(tactic| with_reducible exact u_pure _)
macro_rules | `(tactic| pu1) => `(tactic| with_reducible exact u_up _)
macro_rules | `(tactic| pu1) => `(tactic| with_reducible apply u_ite)
macro_rules | `(tactic| pu1) => `(tactic| with_reducible apply u_bind)
macro_rules | `(tactic| pu1) => `(tactic| with_reducible exact u_add0)
macro_rules | `(tactic| pu1) => `(tactic| with_reducible exact u_sub0)
macro_rules | `(tactic| pu1) => `(tactic| with_reducible refine u_skip u_isWithin ?_)
macro_rules | `(tactic| pu1) => `(tactic| with_reducible refine u_skip u_add0 ?_)
macro_rules | `(tactic| pu1) => `(tactic| with_reducible refine u_skip u_sub0 ?_)
macro_rules | `(tactic| pu1) => `(tactic| with_reducible refine u_form ?_)
macro_rules | `(tactic| pu1) => `(tactic| with_reducible refine u_deref ?_)

theorem u_stdCopy {B : Arr} {first} {last} {d} :
    Under (@Ptr.stdCopy w B first last d) (@BitLib.stdCopy w first last d) := by
  unfold Ptr.stdCopy BitLib.stdCopy
  repeat pu1

macro_rules | `(tactic| pu1) => `(tactic| with_reducible apply u_stdCopy)

theorem u_stdCopyBackward {B : Arr} {first} {last} {dl} :
    Under (@Ptr.stdCopyBackward w B first last dl) (@BitLib.stdCopyBackward w first last dl) := by
  unfold Ptr.stdCopyBackward BitLib.stdCopyBackward
  repeat pu1

macro_rules | `(tactic| pu1) => `(tactic| with_reducible apply u_stdCopyBackward)

theorem u_stdEqual {B : Arr} {first} {last} {d} :
    Under (@Ptr.stdEqual w B first last d) (@BitLib.stdEqual w first last d) := by
  unfold Ptr.stdEqual BitLib.stdEqual
  repeat pu1

macro_rules | `(tactic| pu1) => `(tactic| with_reducible apply u_stdEqual)

theorem u_stdTransform {B : Arr} {first} {last} {d} {f} :
    Under (@Ptr.stdTransform w B first last d f) (@BitLib.stdTransform w first last d f) := by
  unfold Ptr.stdTransform BitLib.stdTransform
  repeat pu1

macro_rules | `(tactic| pu1) => `(tactic| with_reducible apply u_stdTransform)

theorem u_stdTransform2 {A2 B : Arr} {first1} {last1} {first2} {d} {f} :
    Under (@Ptr.stdTransform2 w A2 B first1 last1 first2 d f) (@BitLib.stdTransform2 w first1 last1 first2 d f) := by
  unfold Ptr.stdTransform2 BitLib.stdTransform2
  repeat pu1

macro_rules | `(tactic| pu1) => `(tactic| with_reducible apply u_stdTransform2)

theorem u_stdSwapRanges {B : Arr} {first1} {last1} {first2} :
    Under (@Ptr.stdSwapRanges w B first1 last1 first2) (@BitLib.stdSwapRanges w first1 last1 first2) := by
  unfold Ptr.stdSwapRanges BitLib.stdSwapRanges
  repeat pu1

macro_rules | `(tactic| pu1) => `(tactic| with_reducible apply u_stdSwapRanges)

theorem u_getWord {A : Arr} {S} {first} {len} :
    Under (@Ptr.getWord w A S first len) (@BitLib.getWord w S first len) := by
  unfold Ptr.getWord BitLib.getWord
  repeat pu1

macro_rules | `(tactic| pu1) => `(tactic| with_reducible apply u_getWord)

theorem u_writeWord {A : Arr} {S} {src} {dst} {len} :
    Under (@Ptr.writeWord w A S src dst len) (@BitLib.writeWord w S src dst len) := by
  unfold Ptr.writeWord BitLib.writeWord
  repeat pu1

macro_rules | `(tactic| pu1) => `(tactic| with_reducible apply u_writeWord)

theorem u_wordShiftLeft {A : Arr} {first} {last} {n} :
    Under (@Ptr.wordShiftLeft w A first last n) (@BitLib.wordShiftLeft w first last n) := by
  unfold Ptr.wordShiftLeft BitLib.wordShiftLeft
  repeat pu1

macro_rules | `(tactic| pu1) => `(tactic| with_reducible apply u_wordShiftLeft)

theorem u_wordShiftRight {A : Arr} {first} {last} {n} :
    Under (@Ptr.wordShiftRight w A first last n) (@BitLib.wordShiftRight w first last n) := by
  unfold Ptr.wordShiftRight BitLib.wordShiftRight
  repeat pu1

macro_rules | `(tactic| pu1) => `(tactic| with_reducible apply u_wordShiftRight)

theorem u_copyHead {A B : Arr} {S} {first} {dFirst} {total} :
    Under (@Ptr.copyHead w A B S first dFirst total) (@BitLib.copyHead w S first dFirst total) := by
  unfold Ptr.copyHead BitLib.copyHead
  repeat pu1

macro_rules | `(tactic| pu1) => `(tactic| with_reducible apply u_copyHead)

theorem u_copyTail {A : Arr} {S} {remaining} {first} {it} :
    Under (@Ptr.copyTail w A S remaining first it) (@BitLib.copyTail w S remaining first it) := by
  unfold Ptr.copyTail BitLib.copyTail
  repeat pu1

macro_rules | `(tactic| pu1) => `(tactic| with_reducible apply u_copyTail)

theorem u_copyLoop {A B : Arr} {S} : ∀ n x0 x1 x2,
    Under (@Ptr.copyLoop w A B S n x0 x1 x2) (@BitLib.copyLoop w S n x0 x1 x2) := by
  intro n
  induction n with
  | zero =>
    intros
    unfold Ptr.copyLoop BitLib.copyLoop
    repeat pu1
  | succ n ih =>
    intros
    unfold Ptr.copyLoop BitLib.copyLoop
    repeat first | with_reducible apply ih | pu1

macro_rules | `(tactic| pu1) => `(tactic| with_reducible apply u_copyLoop)

theorem u_copy {A B : Arr} {S} {first} {last} {dFirst} :
    Under (@Ptr.copy w A B S first last dFirst) (@BitLib.copy w S first last dFirst) := by
  unfold Ptr.copy BitLib.copy
  repeat pu1

macro_rules | `(tactic| pu1) => `(tactic| with_reducible apply u_copy)

theorem u_moveHead {A B : Arr} {S} {first} {dFirst} {total} :
    Under (@Ptr.moveHead w A B S first dFirst total) (@BitLib.moveHead w S first dFirst total) := by
  unfold Ptr.moveHead BitLib.moveHead
  repeat pu1

macro_rules | `(tactic| pu1) => `(tactic| with_reducible apply u_moveHead)

theorem u_moveTail {A : Arr} {S} {remaining} {first} {it} :
    Under (@Ptr.moveTail w A S remaining first it) (@BitLib.moveTail w S remaining first it) := by
  unfold Ptr.moveTail BitLib.moveTail
  repeat pu1

macro_rules | `(tactic| pu1) => `(tactic| with_reducible apply u_moveTail)

theorem u_moveLoop {A B : Arr} {S} : ∀ n x0 x1 x2,
    Under (@Ptr.moveLoop w A B S n x0 x1 x2) (@BitLib.moveLoop w S n x0 x1 x2) := by
  intro n
  induction n with
  | zero =>
    intros
    unfold Ptr.moveLoop BitLib.moveLoop
    repeat pu1
  | succ n ih =>
    intros
    unfold Ptr.moveLoop BitLib.moveLoop
    repeat first | with_reducible apply ih | pu1

macro_rules | `(tactic| pu1) => `(tactic| with_reducible apply u_moveLoop)

theorem u_move {A B : Arr} {S} {first} {last} {dFirst} :
    Under (@Ptr.move w A B S first last dFirst) (@BitLib.move w S first last dFirst) := by
  unfold Ptr.move BitLib.move
  repeat pu1

macro_rules | `(tactic| pu1) => `(tactic| with_reducible apply u_move)

theorem u_copyBackwardHead {A : Arr} {S} {last} {dLast} {total} :
    Under (@Ptr.copyBackwardHead w A S last dLast total) (@BitLib.copyBackwardHead w S last dLast total) := by
  unfold Ptr.copyBackwardHead BitLib.copyBackwardHead
  repeat pu1

macro_rules | `(tactic| pu1) => `(tactic| with_reducible apply u_copyBackwardHead)

theorem u_copyBackwardTail {A : Arr} {S} {remaining} {last} {it} :
    Under (@Ptr.copyBackwardTail w A S remaining last it) (@BitLib.copyBackwardTail w S remaining last it) := by
  unfold Ptr.copyBackwardTail BitLib.copyBackwardTail
  repeat pu1

macro_rules | `(tactic| pu1) => `(tactic| with_reducible apply u_copyBackwardTail)

theorem u_copyBackwardLoop {A B : Arr} {S} : ∀ n x0 x1 x2,
    Under (@Ptr.copyBackwardLoop w A B S n x0 x1 x2) (@BitLib.copyBackwardLoop w S n x0 x1 x2) := by
  intro n
  induction n with
  | zero =>
    intros
    unfold Ptr.copyBackwardLoop BitLib.copyBackwardLoop
    repeat pu1
  | succ n ih =>
    intros
    unfold Ptr.copyBackwardLoop BitLib.copyBackwardLoop
    repeat first | with_reducible apply ih | pu1

macro_rules | `(tactic| pu1) => `(tactic| with_reducible apply u_copyBackwardLoop)

theorem u_copyBackward {A B : Arr} {S} {first} {last} {dLast} :
    Under (@Ptr.copyBackward w A B S first last dLast) (@BitLib.copyBackward w S first last dLast) := by
  unfold Ptr.copyBackward BitLib.copyBackward
  repeat pu1

macro_rules | `(tactic| pu1) => `(tactic| with_reducible apply u_copyBackward)

theorem u_transformHead {A B : Arr} {S} {op} {first} {dFirst} {total} :
    Under (@Ptr.transformHead w A B S op first dFirst total) (@BitLib.transformHead w S op first dFirst total) := by
  unfold Ptr.transformHead BitLib.transformHead
  repeat pu1

macro_rules | `(tactic| pu1) => `(tactic| with_reducible apply u_transformHead)

theorem u_transformTail {A : Arr} {S} {op} {remaining} {first} {it} :
    Under (@Ptr.transformTail w A S op remaining first it) (@BitLib.transformTail w S op remaining first it) := by
  unfold Ptr.transformTail BitLib.transformTail
  repeat pu1

macro_rules | `(tactic| pu1) => `(tactic| with_reducible apply u_transformTail)

theorem u_transformLoop {A B : Arr} {S} {op} : ∀ n x0 x1 x2,
    Under (@Ptr.transformLoop w A B S op n x0 x1 x2) (@BitLib.transformLoop w S op n x0 x1 x2) := by
  intro n
  induction n with
  | zero =>
    intros
    unfold Ptr.transformLoop BitLib.transformLoop
    repeat pu1
  | succ n ih =>
    intros
    unfold Ptr.transformLoop BitLib.transformLoop
    repeat first | with_reducible apply ih | pu1

macro_rules | `(tactic| pu1) => `(tactic| with_reducible apply u_transformLoop)

theorem u_transform {A B : Arr} {S} {op} {first} {last} {dFirst} :
    Under (@Ptr.transform w A B S op first last dFirst) (@BitLib.transform w S op first last dFirst) := by
  unfold Ptr.transform BitLib.transform
  repeat pu1

macro_rules | `(tactic| pu1) => `(tactic| with_reducible apply u_transform)

theorem u_transform2Head {A1 A2 B : Arr} {S} {op} {first1} {first2} {dFirst} {total} :
    Under (@Ptr.transform2Head w A1 A2 B S op first1 first2 dFirst total) (@BitLib.transform2Head w S op first1 first2 dFirst total) := by
  unfold Ptr.transform2Head BitLib.transform2Head
  repeat pu1

macro_rules | `(tactic| pu1) => `(tactic| with_reducible apply u_transform2Head)

theorem u_transform2Tail {A1 A2 : Arr} {S} {op} {remaining} {first1} {first2} {it} :
    Under (@Ptr.transform2Tail w A1 A2 S op remaining first1 first2 it) (@BitLib.transform2Tail w S op remaining first1 first2 it) := by
  unfold Ptr.transform2Tail BitLib.transform2Tail
  repeat pu1

macro_rules | `(tactic| pu1) => `(tactic| with_reducible apply u_transform2Tail)

theorem u_transform2Loop {A1 A2 B : Arr} {S} {op} : ∀ n x0 x1 x2 x3,
    Under (@Ptr.transform2Loop w A1 A2 B S op n x0 x1 x2 x3) (@BitLib.transform2Loop w S op n x0 x1 x2 x3) := by
  intro n
  induction n with
  | zero =>
    intros
    unfold Ptr.transform2Loop BitLib.transform2Loop
    repeat pu1
  | succ n ih =>
    intros
    unfold Ptr.transform2Loop BitLib.transform2Loop
    repeat first | with_reducible apply ih | pu1

macro_rules | `(tactic| pu1) => `(tactic| with_reducible apply u_transform2Loop)

theorem u_transform2 {A1 A2 B : Arr} {S} {op} {first1} {last1} {first2} {dFirst} :
    Under (@Ptr.transform2 w A1 A2 B S op first1 last1 first2 dFirst) (@BitLib.transform2 w S op first1 last1 first2 dFirst) := by
  unfold Ptr.transform2 BitLib.transform2
  repeat pu1

macro_rules | `(tactic| pu1) => `(tactic| with_reducible apply u_transform2)

theorem u_fill {A : Arr} {S} {first} {last} {v} :
    Under (@Ptr.fill w A S first last v) (@BitLib.fill w S first last v) := by
  unfold Ptr.fill BitLib.fill
  repeat pu1

macro_rules | `(tactic| pu1) => `(tactic| with_reducible apply u_fill)

theorem u_find {A : Arr} {S} {first} {last} {v} :
    Under (@Ptr.find w A S first last v) (@BitLib.find w S first last v) := by
  unfold Ptr.find BitLib.find
  repeat pu1

macro_rules | `(tactic| pu1) => `(tactic| with_reducible apply u_find)

theorem u_equalTail {A : Arr} {S} {remaining} {first} {it} :
    Under (@Ptr.equalTail w A S remaining first it) (@BitLib.equalTail w S remaining first it) := by
  unfold Ptr.equalTail BitLib.equalTail
  repeat pu1

macro_rules | `(tactic| pu1) => `(tactic| with_reducible apply u_equalTail)

theorem u_equalLoop {A B : Arr} {S} : ∀ n x0 x1 x2,
    Under (@Ptr.equalLoop w A B S n x0 x1 x2) (@BitLib.equalLoop w S n x0 x1 x2) := by
  intro n
  induction n with
  | zero =>
    intros
    unfold Ptr.equalLoop BitLib.equalLoop
    repeat pu1
  | succ n ih =>
    intros
    unfold Ptr.equalLoop BitLib.equalLoop
    repeat first | with_reducible apply ih | pu1

macro_rules | `(tactic| pu1) => `(tactic| with_reducible apply u_equalLoop)

theorem u_equalBody {A B : Arr} {S} {remaining} {first} {last} {it} :
    Under (@Ptr.equalBody w A B S remaining first last it) (@BitLib.equalBody w S remaining first last it) := by
  unfold Ptr.equalBody BitLib.equalBody
  repeat pu1

macro_rules | `(tactic| pu1) => `(tactic| with_reducible apply u_equalBody)

theorem u_equal {A B : Arr} {S} {first} {last} {dFirst} :
    Under (@Ptr.equal w A B S first last dFirst) (@BitLib.equal w S first last dFirst) := by
  unfold Ptr.equal BitLib.equal
  repeat pu1

macro_rules | `(tactic| pu1) => `(tactic| with_reducible apply u_equal)

theorem u_count {A : Arr} {S} {first} {last} {v} :
    Under (@Ptr.count w A S first last v) (@BitLib.count w S first last v) := by
  unfold Ptr.count BitLib.count
  repeat pu1

macro_rules | `(tactic| pu1) => `(tactic| with_reducible apply u_count)

theorem u_shiftLeftAlign {A : Arr} {S} {first} {middle} {d} {n} :
    Under (@Ptr.shiftLeftAlign w A S first middle d n) (@BitLib.shiftLeftAlign w S first middle d n) := by
  unfold Ptr.shiftLeftAlign BitLib.shiftLeftAlign
  repeat pu1

macro_rules | `(tactic| pu1) => `(tactic| with_reducible apply u_shiftLeftAlign)

theorem u_shiftLeftLoop {A : Arr} {S} {offset} {lastBase} : ∀ n x0 x1,
    Under (@Ptr.shiftLeftLoop w A S offset lastBase n x0 x1) (@BitLib.shiftLeftLoop w S offset lastBase n x0 x1) := by
  intro n
  induction n with
  | zero =>
    intros
    unfold Ptr.shiftLeftLoop BitLib.shiftLeftLoop
    repeat pu1
  | succ n ih =>
    intros
    unfold Ptr.shiftLeftLoop BitLib.shiftLeftLoop
    repeat first | with_reducible apply ih | pu1

macro_rules | `(tactic| pu1) => `(tactic| with_reducible apply u_shiftLeftLoop)

theorem u_shiftLeftMain {A : Arr} {S} {first} {middle} {last} {n} :
    Under (@Ptr.shiftLeftMain w A S first middle last n) (@BitLib.shiftLeftMain w S first middle last n) := by
  unfold Ptr.shiftLeftMain BitLib.shiftLeftMain
  repeat pu1

macro_rules | `(tactic| pu1) => `(tactic| with_reducible apply u_shiftLeftMain)

theorem u_shiftLeft {A : Arr} {S} {first} {last} {n} :
    Under (@Ptr.shiftLeft w A S first last n) (@BitLib.shiftLeft w S first last n) := by
  unfold Ptr.shiftLeft BitLib.shiftLeft
  repeat pu1

macro_rules | `(tactic| pu1) => `(tactic| with_reducible apply u_shiftLeft)

theorem u_shiftRightLoop {A : Arr} {S} {offset} {firstBase} : ∀ n x0 x1,
    Under (@Ptr.shiftRightLoop w A S offset firstBase n x0 x1) (@BitLib.shiftRightLoop w S offset firstBase n x0 x1) := by
  intro n
  induction n with
  | zero =>
    intros
    unfold Ptr.shiftRightLoop BitLib.shiftRightLoop
    repeat pu1
  | succ n ih =>
    intros
    unfold Ptr.shiftRightLoop BitLib.shiftRightLoop
    repeat first | with_reducible apply ih | pu1

macro_rules | `(tactic| pu1) => `(tactic| with_reducible apply u_shiftRightLoop)

theorem u_shiftRightWords {A : Arr} {S} {first} {middle} {last} {offset} :
    Under (@Ptr.shiftRightWords w A S first middle last offset) (@BitLib.shiftRightWords w S first middle last offset) := by
  unfold Ptr.shiftRightWords BitLib.shiftRightWords
  repeat pu1

macro_rules | `(tactic| pu1) => `(tactic| with_reducible apply u_shiftRightWords)

theorem u_shiftRightTail {A : Arr} {S} {first} {middle} {last} {n} :
    Under (@Ptr.shiftRightTail w A S first middle last n) (@BitLib.shiftRightTail w S first middle last n) := by
  unfold Ptr.shiftRightTail BitLib.shiftRightTail
  repeat pu1

macro_rules | `(tactic| pu1) => `(tactic| with_reducible apply u_shiftRightTail)

theorem u_shiftRightMain {A : Arr} {S} {first} {middle} {last} {n} :
    Under (@Ptr.shiftRightMain w A S first middle last n) (@BitLib.shiftRightMain w S first middle last n) := by
  unfold Ptr.shiftRightMain BitLib.shiftRightMain
  repeat pu1

macro_rules | `(tactic| pu1) => `(tactic| with_reducible apply u_shiftRightMain)

theorem u_shiftRight {A : Arr} {S} {first} {last} {n} :
    Under (@Ptr.shiftRight w A S first last n) (@BitLib.shiftRight w S first last n) := by
  unfold Ptr.shiftRight BitLib.shiftRight
  repeat pu1

macro_rules | `(tactic| pu1) => `(tactic| with_reducible apply u_shiftRight)

theorem u_reverseShift {A : Arr} {S} {fb} {lb} {wend} {fp} {gap} :
    Under (@Ptr.reverseShift w A S fb lb wend fp gap) (@BitLib.reverseShift w S fb lb wend fp gap) := by
  unfold Ptr.reverseShift BitLib.reverseShift
  repeat pu1

macro_rules | `(tactic| pu1) => `(tactic| with_reducible apply u_reverseShift)

theorem u_reverse {A : Arr} {S} {first} {last} :
    Under (@Ptr.reverse w A S first last) (@BitLib.reverse w S first last) := by
  unfold Ptr.reverse BitLib.reverse
  repeat pu1

macro_rules | `(tactic| pu1) => `(tactic| with_reducible apply u_reverse)

theorem u_swapLoop {A B : Arr} {S} {lastBase} {pos2} : ∀ n x0 x1,
    Under (@Ptr.swapLoop w A B S lastBase pos2 n x0 x1) (@BitLib.swapLoop w S lastBase pos2 n x0 x1) := by
  intro n
  induction n with
  | zero =>
    intros
    unfold Ptr.swapLoop BitLib.swapLoop
    repeat pu1
  | succ n ih =>
    intros
    unfold Ptr.swapLoop BitLib.swapLoop
    repeat first | with_reducible apply ih | pu1

macro_rules | `(tactic| pu1) => `(tactic| with_reducible apply u_swapLoop)

theorem u_swapSingle {B : Arr} {S} {first1} {last1} {first2} :
    Under (@Ptr.swapSingle w B S first1 last1 first2) (@BitLib.swapSingle w S first1 last1 first2) := by
  unfold Ptr.swapSingle BitLib.swapSingle
  repeat pu1

macro_rules | `(tactic| pu1) => `(tactic| with_reducible apply u_swapSingle)

theorem u_swapAligned {A B : Arr} {S} {first1} {last1} {first2} :
    Under (@Ptr.swapAligned w A B S first1 last1 first2) (@BitLib.swapAligned w S first1 last1 first2) := by
  unfold Ptr.swapAligned BitLib.swapAligned
  repeat pu1

macro_rules | `(tactic| pu1) => `(tactic| with_reducible apply u_swapAligned)

theorem u_swapMisHead {A B : Arr} {S} {first1} {first2} :
    Under (@Ptr.swapMisHead w A B S first1 first2) (@BitLib.swapMisHead w S first1 first2) := by
  unfold Ptr.swapMisHead BitLib.swapMisHead
  repeat pu1

macro_rules | `(tactic| pu1) => `(tactic| with_reducible apply u_swapMisHead)

theorem u_swapMisaligned {A B : Arr} {S} {first1} {last1} {first2} :
    Under (@Ptr.swapMisaligned w A B S first1 last1 first2) (@BitLib.swapMisaligned w S first1 last1 first2) := by
  unfold Ptr.swapMisaligned BitLib.swapMisaligned
  repeat pu1

macro_rules | `(tactic| pu1) => `(tactic| with_reducible apply u_swapMisaligned)

theorem u_swapRanges {A B : Arr} {S} {first1} {last1} {first2} :
    Under (@Ptr.swapRanges w A B S first1 last1 first2) (@BitLib.swapRanges w S first1 last1 first2) := by
  unfold Ptr.swapRanges BitLib.swapRanges
  repeat pu1

macro_rules | `(tactic| pu1) => `(tactic| with_reducible apply u_swapRanges)

theorem u_rotFwdSwaps {A : Arr} {S} {k} : ∀ n x0 x1,
    Under (@Ptr.rotFwdSwaps w A S k n x0 x1) (@BitLib.rotFwdSwaps w S k n x0 x1) := by
  intro n
  induction n with
  | zero =>
    intros
    unfold Ptr.rotFwdSwaps BitLib.rotFwdSwaps
    repeat pu1
  | succ n ih =>
    intros
    unfold Ptr.rotFwdSwaps BitLib.rotFwdSwaps
    repeat first | with_reducible apply ih | pu1

macro_rules | `(tactic| pu1) => `(tactic| with_reducible apply u_rotFwdSwaps)

theorem u_rotBwdSwaps {A : Arr} {S} {k} : ∀ n x0 x1,
    Under (@Ptr.rotBwdSwaps w A S k n x0 x1) (@BitLib.rotBwdSwaps w S k n x0 x1) := by
  intro n
  induction n with
  | zero =>
    intros
    unfold Ptr.rotBwdSwaps BitLib.rotBwdSwaps
    repeat pu1
  | succ n ih =>
    intros
    unfold Ptr.rotBwdSwaps BitLib.rotBwdSwaps
    repeat first | with_reducible apply ih | pu1

macro_rules | `(tactic| pu1) => `(tactic| with_reducible apply u_rotBwdSwaps)

theorem u_rotLoop {A : Arr} {S} : ∀ n x0 x1 x2,
    Under (@Ptr.rotLoop w A S n x0 x1 x2) (@BitLib.rotLoop w S n x0 x1 x2) := by
  intro n
  induction n with
  | zero =>
    intros
    unfold Ptr.rotLoop BitLib.rotLoop
    repeat pu1
  | succ n ih =>
    intros
    unfold Ptr.rotLoop BitLib.rotLoop
    repeat first | with_reducible apply ih | pu1

macro_rules | `(tactic| pu1) => `(tactic| with_reducible apply u_rotLoop)

theorem u_rotateViaRaw {A : Arr} {S} {first} {nFirst} {last} :
    Under (@Ptr.rotateViaRaw w A S first nFirst last) (@BitLib.rotateViaRaw w S first nFirst last) := by
  unfold Ptr.rotateViaRaw BitLib.rotateViaRaw
  repeat pu1

macro_rules | `(tactic| pu1) => `(tactic| with_reducible apply u_rotateViaRaw)

theorem u_rotateSingle {A : Arr} {S} {first} {nFirst} {last} :
    Under (@Ptr.rotateSingle w A S first nFirst last) (@BitLib.rotateSingle w S first nFirst last) := by
  unfold Ptr.rotateSingle BitLib.rotateSingle
  repeat pu1

macro_rules | `(tactic| pu1) => `(tactic| with_reducible apply u_rotateSingle)

theorem u_rotate {A : Arr} {S} {first} {nFirst} {last} :
    Under (@Ptr.rotate w A S first nFirst last) (@BitLib.rotate w S first nFirst last) := by
  unfold Ptr.rotate BitLib.rotate
  repeat pu1

macro_rules | `(tactic| pu1) => `(tactic| with_reducible apply u_rotate)

end Ptr
end BitLib
