import Verif.Model.Release
/- The polymorphic text of the algorithms, with and without assertions: the two builds differ only where an assertion fails. -/
namespace BitLib
namespace Gen
variable {w : Nat} {α β : Type}

theorem s_refl {x : M w α} {y : Rel w α} (h : y = x) : UnlessAssert x y := fun m => .inr (by rw [h])
theorem s_pure (a : α) : UnlessAssert (pure a : M w α) (pure a : Rel w α) := fun _ => .inr rfl
theorem s_ub (e : UB) : UnlessAssert (BitLib.ub e : M w α) (ub e : Rel w α) := fun _ => .inr rfl
theorem s_lift (e : Except UB α) : UnlessAssert (BitLib.lift e : M w α) (lift e : Rel w α) := fun _ => .inr rfl
theorem s_load (a : Int) : UnlessAssert (BitLib.load a : M w (BitVec w)) (load a : Rel w (BitVec w)) := fun _ => .inr rfl
theorem s_store (a : Int) (x : BitVec w) : UnlessAssert (BitLib.store a x) (store a x : Rel w Unit) := fun _ => .inr rfl
theorem s_bind {x : M w α} {f : α → M w β} {y : Rel w α} {g : α → Rel w β} (h1 : UnlessAssert x y) (h2 : ∀ a, UnlessAssert (f a) (g a)) :
    UnlessAssert (x >>= f) (y >>= g) := by
  intro m
  show (x m >>= fun p => f p.1 p.2) = _ ∨ (y m >>= fun p => g p.1 p.2) = (x m >>= fun p => f p.1 p.2)
  rcases h1 m with h | h
  · rw [h]; exact .inl rfl
  · rw [h]
    cases x m with
    | error e => exact .inr rfl
    | ok p => exact h2 p.1 p.2
theorem s_ite {p : Prop} [Decidable p] {x y : M w α} {c d : Rel w α} (h1 : UnlessAssert x c) (h2 : UnlessAssert y d) :
    UnlessAssert (if p then x else y) (if p then c else d) := by
  split
  · exact h1
  · exact h2
theorem s_assertM (p : Prop) [Decidable p] : UnlessAssert (BitLib.assertM p : M w Unit) (assertM p : Rel w Unit) := by
  intro m
  unfold BitLib.assertM
  split
  · exact .inr rfl
  · exact .inl rfl

/-- Proves that two builds agree, from the two texts; extended with a lemma for each function below. -/
syntax "re1" : tactic
macro_rules | `(tactic| re1) => `(tactic| split)
macro_rules | `(tactic| re1) => `(tactic| intro _)
macro_rules | `(tactic| re1) => `(tactic| with_reducible exact s_pure _)
macro_rules | `(tactic| re1) => `(tactic| with_reducible exact s_ub _)
macro_rules | `(tactic| re1) => `(tactic| with_reducible exact s_lift _)
macro_rules | `(tactic| re1) => `(tactic| with_reducible exact s_load _)
macro_rules | `(tactic| re1) => `(tactic| with_reducible exact s_store _ _)
macro_rules | `(tactic| re1) => `(tactic| with_reducible exact s_assertM _)
macro_rules | `(tactic| re1) => `(tactic| with_reducible apply s_ite)
macro_rules | `(tactic| re1) => `(tactic| with_reducible apply s_bind)

theorem s_wordDist {first} {last} : UnlessAssert (BitLib.wordDist first last) (@Gen.wordDist w (Rel w) _ _ first last) := by
  unfold Gen.wordDist BitLib.wordDist
  repeat re1

macro_rules | `(tactic| re1) => `(tactic| with_reducible apply s_wordDist)

theorem s_stdCopyN : ∀ n x0 x1, UnlessAssert (BitLib.stdCopyN n x0 x1) (@Gen.stdCopyN w (Rel w) _ _ n x0 x1) := by
  intro n
  induction n with
  | zero => intros; exact fun _ => .inr rfl
  | succ n ih =>
    intros
    unfold Gen.stdCopyN BitLib.stdCopyN
    repeat first | with_reducible apply ih | re1

macro_rules | `(tactic| re1) => `(tactic| with_reducible apply s_stdCopyN)

theorem s_stdCopy {first} {last} {d} : UnlessAssert (BitLib.stdCopy first last d) (@Gen.stdCopy w (Rel w) _ _ first last d) := by
  unfold Gen.stdCopy BitLib.stdCopy
  repeat re1

macro_rules | `(tactic| re1) => `(tactic| with_reducible apply s_stdCopy)

theorem s_stdCopyBackwardN : ∀ n x0 x1, UnlessAssert (BitLib.stdCopyBackwardN n x0 x1) (@Gen.stdCopyBackwardN w (Rel w) _ _ n x0 x1) := by
  intro n
  induction n with
  | zero => intros; exact fun _ => .inr rfl
  | succ n ih =>
    intros
    unfold Gen.stdCopyBackwardN BitLib.stdCopyBackwardN
    repeat first | with_reducible apply ih | re1

macro_rules | `(tactic| re1) => `(tactic| with_reducible apply s_stdCopyBackwardN)

theorem s_stdCopyBackward {first} {last} {dl} : UnlessAssert (BitLib.stdCopyBackward first last dl) (@Gen.stdCopyBackward w (Rel w) _ _ first last dl) := by
  unfold Gen.stdCopyBackward BitLib.stdCopyBackward
  repeat re1

macro_rules | `(tactic| re1) => `(tactic| with_reducible apply s_stdCopyBackward)

theorem s_stdFillN {a0} : ∀ n x0, UnlessAssert (BitLib.stdFillN a0 n x0) (@Gen.stdFillN w (Rel w) _ _ a0 n x0) := by
  intro n
  induction n with
  | zero => intros; exact fun _ => .inr rfl
  | succ n ih =>
    intros
    unfold Gen.stdFillN BitLib.stdFillN
    repeat first | with_reducible apply ih | re1

macro_rules | `(tactic| re1) => `(tactic| with_reducible apply s_stdFillN)

theorem s_stdFill {first} {last} {x} : UnlessAssert (BitLib.stdFill first last x) (@Gen.stdFill w (Rel w) _ _ first last x) := by
  unfold Gen.stdFill BitLib.stdFill
  repeat re1

macro_rules | `(tactic| re1) => `(tactic| with_reducible apply s_stdFill)

theorem s_stdFindIfN {a0} : ∀ n x0, UnlessAssert (BitLib.stdFindIfN a0 n x0) (@Gen.stdFindIfN w (Rel w) _ _ a0 n x0) := by
  intro n
  induction n with
  | zero => intros; exact fun _ => .inr rfl
  | succ n ih =>
    intros
    unfold Gen.stdFindIfN BitLib.stdFindIfN
    repeat first | with_reducible apply ih | re1

macro_rules | `(tactic| re1) => `(tactic| with_reducible apply s_stdFindIfN)

theorem s_stdFindIf {first} {last} {p} : UnlessAssert (BitLib.stdFindIf first last p) (@Gen.stdFindIf w (Rel w) _ _ first last p) := by
  unfold Gen.stdFindIf BitLib.stdFindIf
  repeat re1

macro_rules | `(tactic| re1) => `(tactic| with_reducible apply s_stdFindIf)

theorem s_stdEqualN : ∀ n x0 x1, UnlessAssert (BitLib.stdEqualN n x0 x1) (@Gen.stdEqualN w (Rel w) _ _ n x0 x1) := by
  intro n
  induction n with
  | zero => intros; exact fun _ => .inr rfl
  | succ n ih =>
    intros
    unfold Gen.stdEqualN BitLib.stdEqualN
    repeat first | with_reducible apply ih | re1

macro_rules | `(tactic| re1) => `(tactic| with_reducible apply s_stdEqualN)

theorem s_stdEqual {first} {last} {d} : UnlessAssert (BitLib.stdEqual first last d) (@Gen.stdEqual w (Rel w) _ _ first last d) := by
  unfold Gen.stdEqual BitLib.stdEqual
  repeat re1

macro_rules | `(tactic| re1) => `(tactic| with_reducible apply s_stdEqual)

theorem s_stdReverseN : ∀ n x0 x1, UnlessAssert (BitLib.stdReverseN n x0 x1) (@Gen.stdReverseN w (Rel w) _ _ n x0 x1) := by
  intro n
  induction n using Nat.twoStepInduction with
  | zero => intros; exact fun _ => .inr rfl
  | one => intros; exact fun _ => .inr rfl
  | more n ih _ =>
    intros
    unfold Gen.stdReverseN BitLib.stdReverseN
    repeat first | with_reducible apply ih | re1

macro_rules | `(tactic| re1) => `(tactic| with_reducible apply s_stdReverseN)

theorem s_stdReverse {first} {last} : UnlessAssert (BitLib.stdReverse first last) (@Gen.stdReverse w (Rel w) _ _ first last) := by
  unfold Gen.stdReverse BitLib.stdReverse
  repeat re1

macro_rules | `(tactic| re1) => `(tactic| with_reducible apply s_stdReverse)

theorem s_stdTransformN {a0} : ∀ n x0 x1, UnlessAssert (BitLib.stdTransformN a0 n x0 x1) (@Gen.stdTransformN w (Rel w) _ _ a0 n x0 x1) := by
  intro n
  induction n with
  | zero => intros; exact fun _ => .inr rfl
  | succ n ih =>
    intros
    unfold Gen.stdTransformN BitLib.stdTransformN
    repeat first | with_reducible apply ih | re1

macro_rules | `(tactic| re1) => `(tactic| with_reducible apply s_stdTransformN)

theorem s_stdTransform {first} {last} {d} {f} : UnlessAssert (BitLib.stdTransform first last d f) (@Gen.stdTransform w (Rel w) _ _ first last d f) := by
  unfold Gen.stdTransform BitLib.stdTransform
  repeat re1

macro_rules | `(tactic| re1) => `(tactic| with_reducible apply s_stdTransform)

theorem s_stdTransform2N {a0} : ∀ n x0 x1 x2, UnlessAssert (BitLib.stdTransform2N a0 n x0 x1 x2) (@Gen.stdTransform2N w (Rel w) _ _ a0 n x0 x1 x2) := by
  intro n
  induction n with
  | zero => intros; exact fun _ => .inr rfl
  | succ n ih =>
    intros
    unfold Gen.stdTransform2N BitLib.stdTransform2N
    repeat first | with_reducible apply ih | re1

macro_rules | `(tactic| re1) => `(tactic| with_reducible apply s_stdTransform2N)

theorem s_stdTransform2 {first1} {last1} {first2} {d} {f} : UnlessAssert (BitLib.stdTransform2 first1 last1 first2 d f) (@Gen.stdTransform2 w (Rel w) _ _ first1 last1 first2 d f) := by
  unfold Gen.stdTransform2 BitLib.stdTransform2
  repeat re1

macro_rules | `(tactic| re1) => `(tactic| with_reducible apply s_stdTransform2)

theorem s_stdSwapRangesN : ∀ n x0 x1, UnlessAssert (BitLib.stdSwapRangesN n x0 x1) (@Gen.stdSwapRangesN w (Rel w) _ _ n x0 x1) := by
  intro n
  induction n with
  | zero => intros; exact fun _ => .inr rfl
  | succ n ih =>
    intros
    unfold Gen.stdSwapRangesN BitLib.stdSwapRangesN
    repeat first | with_reducible apply ih | re1

macro_rules | `(tactic| re1) => `(tactic| with_reducible apply s_stdSwapRangesN)

theorem s_stdSwapRanges {first1} {last1} {first2} : UnlessAssert (BitLib.stdSwapRanges first1 last1 first2) (@Gen.stdSwapRanges w (Rel w) _ _ first1 last1 first2) := by
  unfold Gen.stdSwapRanges BitLib.stdSwapRanges
  repeat re1

macro_rules | `(tactic| re1) => `(tactic| with_reducible apply s_stdSwapRanges)

theorem s_BitIter_mk {a} {pos} : UnlessAssert (BitLib.BitIter.mk? a pos) (@Gen.BitIter.mk? w (Rel w) _ _ a pos) := by
  unfold Gen.BitIter.mk? BitLib.BitIter.mk?
  repeat re1

macro_rules | `(tactic| re1) => `(tactic| with_reducible apply s_BitIter_mk)

theorem s_assertViable {first} {last} : UnlessAssert (BitLib.assertViable first last) (@Gen.assertViable w (Rel w) _ first last) := by
  unfold Gen.assertViable BitLib.assertViable
  repeat re1

macro_rules | `(tactic| re1) => `(tactic| with_reducible apply s_assertViable)

theorem s_distance {first} {last} : UnlessAssert (BitLib.distance first last) (@Gen.distance w (Rel w) _ _ first last) := by
  unfold Gen.distance BitLib.distance
  repeat re1

macro_rules | `(tactic| re1) => `(tactic| with_reducible apply s_distance)

theorem s_bitexch3 {a0} {a1} {msk} : UnlessAssert (BitLib.bitexch3 a0 a1 msk) (@Gen.bitexch3 w (Rel w) _ _ a0 a1 msk) := by
  unfold Gen.bitexch3 BitLib.bitexch3
  repeat re1

macro_rules | `(tactic| re1) => `(tactic| with_reducible apply s_bitexch3)

theorem s_bitexch4 {S} {a0} {a1} {start} {len} : UnlessAssert (BitLib.bitexch4 S a0 a1 start len) (@Gen.bitexch4 w (Rel w) _ _ S a0 a1 start len) := by
  unfold Gen.bitexch4 BitLib.bitexch4
  repeat re1

macro_rules | `(tactic| re1) => `(tactic| with_reducible apply s_bitexch4)

theorem s_exchStepL {S} {dst} {src} {n} {msk} {start} : UnlessAssert (BitLib.exchStepL S dst src n msk start) (@Gen.exchStepL w (Rel w) _ _ S dst src n msk start) := by
  unfold Gen.exchStepL BitLib.exchStepL
  repeat re1

macro_rules | `(tactic| re1) => `(tactic| with_reducible apply s_exchStepL)

theorem s_exchStepR {S} {dst} {src} {n} {msk} {start} : UnlessAssert (BitLib.exchStepR S dst src n msk start) (@Gen.exchStepR w (Rel w) _ _ S dst src n msk start) := by
  unfold Gen.exchStepR BitLib.exchStepR
  repeat re1

macro_rules | `(tactic| re1) => `(tactic| with_reducible apply s_exchStepR)

theorem s_bitexch5 {S} {a0} {a1} {start0} {start1} {len} : UnlessAssert (BitLib.bitexch5 S a0 a1 start0 start1 len) (@Gen.bitexch5 w (Rel w) _ _ S a0 a1 start0 start1 len) := by
  unfold Gen.bitexch5 BitLib.bitexch5
  repeat re1

macro_rules | `(tactic| re1) => `(tactic| with_reducible apply s_bitexch5)

theorem s_blendAt {S} {it} {src} {start} {len} : UnlessAssert (BitLib.blendAt S it src start len) (@Gen.blendAt w (Rel w) _ _ S it src start len) := by
  unfold Gen.blendAt BitLib.blendAt
  repeat re1

macro_rules | `(tactic| re1) => `(tactic| with_reducible apply s_blendAt)

theorem s_blendLowAt {S} {it} {src} {n} : UnlessAssert (BitLib.blendLowAt S it src n) (@Gen.blendLowAt w (Rel w) _ _ S it src n) := by
  unfold Gen.blendLowAt BitLib.blendLowAt
  repeat re1

macro_rules | `(tactic| re1) => `(tactic| with_reducible apply s_blendLowAt)

theorem s_getWord {S} {first} {len} : UnlessAssert (BitLib.getWord S first len) (@Gen.getWord w (Rel w) _ _ S first len) := by
  unfold Gen.getWord BitLib.getWord
  repeat re1

macro_rules | `(tactic| re1) => `(tactic| with_reducible apply s_getWord)

theorem s_writeWord {S} {src} {dst} {len} : UnlessAssert (BitLib.writeWord S src dst len) (@Gen.writeWord w (Rel w) _ _ S src dst len) := by
  unfold Gen.writeWord BitLib.writeWord
  repeat re1

macro_rules | `(tactic| re1) => `(tactic| with_reducible apply s_writeWord)

theorem s_wordShiftLeft {first} {last} {n} : UnlessAssert (BitLib.wordShiftLeft first last n) (@Gen.wordShiftLeft w (Rel w) _ _ first last n) := by
  unfold Gen.wordShiftLeft BitLib.wordShiftLeft
  repeat re1

macro_rules | `(tactic| re1) => `(tactic| with_reducible apply s_wordShiftLeft)

theorem s_wordShiftRight {first} {last} {n} : UnlessAssert (BitLib.wordShiftRight first last n) (@Gen.wordShiftRight w (Rel w) _ _ first last n) := by
  unfold Gen.wordShiftRight BitLib.wordShiftRight
  repeat re1

macro_rules | `(tactic| re1) => `(tactic| with_reducible apply s_wordShiftRight)

theorem s_copyHead {S} {first} {dFirst} {total} : UnlessAssert (BitLib.copyHead S first dFirst total) (@Gen.copyHead w (Rel w) _ _ S first dFirst total) := by
  unfold Gen.copyHead BitLib.copyHead
  repeat re1

macro_rules | `(tactic| re1) => `(tactic| with_reducible apply s_copyHead)

theorem s_copyTail {S} {remaining} {first} {it} : UnlessAssert (BitLib.copyTail S remaining first it) (@Gen.copyTail w (Rel w) _ _ S remaining first it) := by
  unfold Gen.copyTail BitLib.copyTail
  repeat re1

macro_rules | `(tactic| re1) => `(tactic| with_reducible apply s_copyTail)

theorem s_copyLoop {a0} : ∀ n x0 x1 x2, UnlessAssert (BitLib.copyLoop a0 n x0 x1 x2) (@Gen.copyLoop w (Rel w) _ _ a0 n x0 x1 x2) := by
  intro n
  induction n with
  | zero => intros; exact fun _ => .inr rfl
  | succ n ih =>
    intros
    unfold Gen.copyLoop BitLib.copyLoop
    repeat first | with_reducible apply ih | re1

macro_rules | `(tactic| re1) => `(tactic| with_reducible apply s_copyLoop)

theorem s_copy {S} {first} {last} {dFirst} : UnlessAssert (BitLib.copy S first last dFirst) (@Gen.copy w (Rel w) _ _ S first last dFirst) := by
  unfold Gen.copy BitLib.copy
  repeat re1

macro_rules | `(tactic| re1) => `(tactic| with_reducible apply s_copy)

theorem s_moveHead {S} {first} {dFirst} {total} : UnlessAssert (BitLib.moveHead S first dFirst total) (@Gen.moveHead w (Rel w) _ _ S first dFirst total) := by
  unfold Gen.moveHead BitLib.moveHead
  repeat re1

macro_rules | `(tactic| re1) => `(tactic| with_reducible apply s_moveHead)

theorem s_moveTail {S} {remaining} {first} {it} : UnlessAssert (BitLib.moveTail S remaining first it) (@Gen.moveTail w (Rel w) _ _ S remaining first it) := by
  unfold Gen.moveTail BitLib.moveTail
  repeat re1

macro_rules | `(tactic| re1) => `(tactic| with_reducible apply s_moveTail)

theorem s_moveLoop {a0} : ∀ n x0 x1 x2, UnlessAssert (BitLib.moveLoop a0 n x0 x1 x2) (@Gen.moveLoop w (Rel w) _ _ a0 n x0 x1 x2) := by
  intro n
  induction n with
  | zero => intros; exact fun _ => .inr rfl
  | succ n ih =>
    intros
    unfold Gen.moveLoop BitLib.moveLoop
    repeat first | with_reducible apply ih | re1

macro_rules | `(tactic| re1) => `(tactic| with_reducible apply s_moveLoop)

theorem s_move {S} {first} {last} {dFirst} : UnlessAssert (BitLib.move S first last dFirst) (@Gen.move w (Rel w) _ _ S first last dFirst) := by
  unfold Gen.move BitLib.move
  repeat re1

macro_rules | `(tactic| re1) => `(tactic| with_reducible apply s_move)

theorem s_copyBackwardHead {S} {last} {dLast} {total} : UnlessAssert (BitLib.copyBackwardHead S last dLast total) (@Gen.copyBackwardHead w (Rel w) _ _ S last dLast total) := by
  unfold Gen.copyBackwardHead BitLib.copyBackwardHead
  repeat re1

macro_rules | `(tactic| re1) => `(tactic| with_reducible apply s_copyBackwardHead)

theorem s_copyBackwardTail {S} {remaining} {last} {it} : UnlessAssert (BitLib.copyBackwardTail S remaining last it) (@Gen.copyBackwardTail w (Rel w) _ _ S remaining last it) := by
  unfold Gen.copyBackwardTail BitLib.copyBackwardTail
  repeat re1

macro_rules | `(tactic| re1) => `(tactic| with_reducible apply s_copyBackwardTail)

theorem s_copyBackwardLoop {a0} : ∀ n x0 x1 x2, UnlessAssert (BitLib.copyBackwardLoop a0 n x0 x1 x2) (@Gen.copyBackwardLoop w (Rel w) _ _ a0 n x0 x1 x2) := by
  intro n
  induction n with
  | zero => intros; exact fun _ => .inr rfl
  | succ n ih =>
    intros
    unfold Gen.copyBackwardLoop BitLib.copyBackwardLoop
    repeat first | with_reducible apply ih | re1

macro_rules | `(tactic| re1) => `(tactic| with_reducible apply s_copyBackwardLoop)

theorem s_copyBackward {S} {first} {last} {dLast} : UnlessAssert (BitLib.copyBackward S first last dLast) (@Gen.copyBackward w (Rel w) _ _ S first last dLast) := by
  unfold Gen.copyBackward BitLib.copyBackward
  repeat re1

macro_rules | `(tactic| re1) => `(tactic| with_reducible apply s_copyBackward)

theorem s_transformHead {S} {op} {first} {dFirst} {total} : UnlessAssert (BitLib.transformHead S op first dFirst total) (@Gen.transformHead w (Rel w) _ _ S op first dFirst total) := by
  unfold Gen.transformHead BitLib.transformHead
  repeat re1

macro_rules | `(tactic| re1) => `(tactic| with_reducible apply s_transformHead)

theorem s_transformTail {S} {op} {remaining} {first} {it} : UnlessAssert (BitLib.transformTail S op remaining first it) (@Gen.transformTail w (Rel w) _ _ S op remaining first it) := by
  unfold Gen.transformTail BitLib.transformTail
  repeat re1

macro_rules | `(tactic| re1) => `(tactic| with_reducible apply s_transformTail)

theorem s_transformLoop {a0} {a1} : ∀ n x0 x1 x2, UnlessAssert (BitLib.transformLoop a0 a1 n x0 x1 x2) (@Gen.transformLoop w (Rel w) _ _ a0 a1 n x0 x1 x2) := by
  intro n
  induction n with
  | zero => intros; exact fun _ => .inr rfl
  | succ n ih =>
    intros
    unfold Gen.transformLoop BitLib.transformLoop
    repeat first | with_reducible apply ih | re1

macro_rules | `(tactic| re1) => `(tactic| with_reducible apply s_transformLoop)

theorem s_transform {S} {op} {first} {last} {dFirst} : UnlessAssert (BitLib.transform S op first last dFirst) (@Gen.transform w (Rel w) _ _ S op first last dFirst) := by
  unfold Gen.transform BitLib.transform
  repeat re1

macro_rules | `(tactic| re1) => `(tactic| with_reducible apply s_transform)

theorem s_transform2Head {S} {op} {first1} {first2} {dFirst} {total} : UnlessAssert (BitLib.transform2Head S op first1 first2 dFirst total) (@Gen.transform2Head w (Rel w) _ _ S op first1 first2 dFirst total) := by
  unfold Gen.transform2Head BitLib.transform2Head
  repeat re1

macro_rules | `(tactic| re1) => `(tactic| with_reducible apply s_transform2Head)

theorem s_transform2Tail {S} {op} {remaining} {first1} {first2} {it} : UnlessAssert (BitLib.transform2Tail S op remaining first1 first2 it) (@Gen.transform2Tail w (Rel w) _ _ S op remaining first1 first2 it) := by
  unfold Gen.transform2Tail BitLib.transform2Tail
  repeat re1

macro_rules | `(tactic| re1) => `(tactic| with_reducible apply s_transform2Tail)

theorem s_transform2Loop {a0} {a1} : ∀ n x0 x1 x2 x3, UnlessAssert (BitLib.transform2Loop a0 a1 n x0 x1 x2 x3) (@Gen.transform2Loop w (Rel w) _ _ a0 a1 n x0 x1 x2 x3) := by
  intro n
  induction n with
  | zero => intros; exact fun _ => .inr rfl
  | succ n ih =>
    intros
    unfold Gen.transform2Loop BitLib.transform2Loop
    repeat first | with_reducible apply ih | re1

macro_rules | `(tactic| re1) => `(tactic| with_reducible apply s_transform2Loop)

theorem s_transform2 {S} {op} {first1} {last1} {first2} {dFirst} : UnlessAssert (BitLib.transform2 S op first1 last1 first2 dFirst) (@Gen.transform2 w (Rel w) _ _ S op first1 last1 first2 dFirst) := by
  unfold Gen.transform2 BitLib.transform2
  repeat re1

macro_rules | `(tactic| re1) => `(tactic| with_reducible apply s_transform2)

theorem s_fill {S} {first} {last} {v} : UnlessAssert (BitLib.fill S first last v) (@Gen.fill w (Rel w) _ _ S first last v) := by
  unfold Gen.fill BitLib.fill
  repeat re1

macro_rules | `(tactic| re1) => `(tactic| with_reducible apply s_fill)

theorem s_findWords {it} {last} {v} : UnlessAssert (BitLib.findWords it last v) (@Gen.findWords w (Rel w) _ _ it last v) := by
  unfold Gen.findWords BitLib.findWords
  repeat re1

macro_rules | `(tactic| re1) => `(tactic| with_reducible apply s_findWords)

theorem s_find {S} {first} {last} {v} : UnlessAssert (BitLib.find S first last v) (@Gen.find w (Rel w) _ _ S first last v) := by
  unfold Gen.find BitLib.find
  repeat re1

macro_rules | `(tactic| re1) => `(tactic| with_reducible apply s_find)

theorem s_equalTail {S} {remaining} {first} {it} : UnlessAssert (BitLib.equalTail S remaining first it) (@Gen.equalTail w (Rel w) _ _ S remaining first it) := by
  unfold Gen.equalTail BitLib.equalTail
  repeat re1

macro_rules | `(tactic| re1) => `(tactic| with_reducible apply s_equalTail)

theorem s_equalLoop {a0} : ∀ n x0 x1 x2, UnlessAssert (BitLib.equalLoop a0 n x0 x1 x2) (@Gen.equalLoop w (Rel w) _ _ a0 n x0 x1 x2) := by
  intro n
  induction n with
  | zero => intros; exact fun _ => .inr rfl
  | succ n ih =>
    intros
    unfold Gen.equalLoop BitLib.equalLoop
    repeat first | with_reducible apply ih | re1

macro_rules | `(tactic| re1) => `(tactic| with_reducible apply s_equalLoop)

theorem s_equalBody {S} {remaining} {first} {last} {it} : UnlessAssert (BitLib.equalBody S remaining first last it) (@Gen.equalBody w (Rel w) _ _ S remaining first last it) := by
  unfold Gen.equalBody BitLib.equalBody
  repeat re1

macro_rules | `(tactic| re1) => `(tactic| with_reducible apply s_equalBody)

theorem s_equal {S} {first} {last} {dFirst} : UnlessAssert (BitLib.equal S first last dFirst) (@Gen.equal w (Rel w) _ _ S first last dFirst) := by
  unfold Gen.equal BitLib.equal
  repeat re1

macro_rules | `(tactic| re1) => `(tactic| with_reducible apply s_equal)

theorem s_popcntWords : ∀ n x0, UnlessAssert (BitLib.popcntWords n x0) (@Gen.popcntWords w (Rel w) _ _ n x0) := by
  intro n
  induction n with
  | zero => intros; exact fun _ => .inr rfl
  | succ n ih =>
    intros
    unfold Gen.popcntWords BitLib.popcntWords
    repeat first | with_reducible apply ih | re1

macro_rules | `(tactic| re1) => `(tactic| with_reducible apply s_popcntWords)

theorem s_count {S} {first} {last} {v} : UnlessAssert (BitLib.count S first last v) (@Gen.count w (Rel w) _ _ S first last v) := by
  unfold Gen.count BitLib.count
  repeat re1

macro_rules | `(tactic| re1) => `(tactic| with_reducible apply s_count)

theorem s_shiftLeftAlign {S} {first} {middle} {d} {n} : UnlessAssert (BitLib.shiftLeftAlign S first middle d n) (@Gen.shiftLeftAlign w (Rel w) _ _ S first middle d n) := by
  unfold Gen.shiftLeftAlign BitLib.shiftLeftAlign
  repeat re1

macro_rules | `(tactic| re1) => `(tactic| with_reducible apply s_shiftLeftAlign)

theorem s_shiftLeftLoop {a0} {a1} {a2} : ∀ n x0 x1, UnlessAssert (BitLib.shiftLeftLoop a0 a1 a2 n x0 x1) (@Gen.shiftLeftLoop w (Rel w) _ _ a0 a1 a2 n x0 x1) := by
  intro n
  induction n with
  | zero => intros; exact fun _ => .inr rfl
  | succ n ih =>
    intros
    unfold Gen.shiftLeftLoop BitLib.shiftLeftLoop
    repeat first | with_reducible apply ih | re1

macro_rules | `(tactic| re1) => `(tactic| with_reducible apply s_shiftLeftLoop)

theorem s_shiftLeftMain {S} {first} {middle} {last} {n} : UnlessAssert (BitLib.shiftLeftMain S first middle last n) (@Gen.shiftLeftMain w (Rel w) _ _ S first middle last n) := by
  unfold Gen.shiftLeftMain BitLib.shiftLeftMain
  repeat re1

macro_rules | `(tactic| re1) => `(tactic| with_reducible apply s_shiftLeftMain)

theorem s_shiftLeft {S} {first} {last} {n} : UnlessAssert (BitLib.shiftLeft S first last n) (@Gen.shiftLeft w (Rel w) _ _ S first last n) := by
  unfold Gen.shiftLeft BitLib.shiftLeft
  repeat re1

macro_rules | `(tactic| re1) => `(tactic| with_reducible apply s_shiftLeft)

theorem s_shiftRightLoop {a0} {a1} {a2} : ∀ n x0 x1, UnlessAssert (BitLib.shiftRightLoop a0 a1 a2 n x0 x1) (@Gen.shiftRightLoop w (Rel w) _ _ a0 a1 a2 n x0 x1) := by
  intro n
  induction n with
  | zero => intros; exact fun _ => .inr rfl
  | succ n ih =>
    intros
    unfold Gen.shiftRightLoop BitLib.shiftRightLoop
    repeat first | with_reducible apply ih | re1

macro_rules | `(tactic| re1) => `(tactic| with_reducible apply s_shiftRightLoop)

theorem s_shiftRightWords {S} {first} {middle} {last} {offset} : UnlessAssert (BitLib.shiftRightWords S first middle last offset) (@Gen.shiftRightWords w (Rel w) _ _ S first middle last offset) := by
  unfold Gen.shiftRightWords BitLib.shiftRightWords
  repeat re1

macro_rules | `(tactic| re1) => `(tactic| with_reducible apply s_shiftRightWords)

theorem s_shiftRightTail {S} {first} {middle} {last} {n} : UnlessAssert (BitLib.shiftRightTail S first middle last n) (@Gen.shiftRightTail w (Rel w) _ _ S first middle last n) := by
  unfold Gen.shiftRightTail BitLib.shiftRightTail
  repeat re1

macro_rules | `(tactic| re1) => `(tactic| with_reducible apply s_shiftRightTail)

theorem s_shiftRightMain {S} {first} {middle} {last} {n} : UnlessAssert (BitLib.shiftRightMain S first middle last n) (@Gen.shiftRightMain w (Rel w) _ _ S first middle last n) := by
  unfold Gen.shiftRightMain BitLib.shiftRightMain
  repeat re1

macro_rules | `(tactic| re1) => `(tactic| with_reducible apply s_shiftRightMain)

theorem s_shiftRight {S} {first} {last} {n} : UnlessAssert (BitLib.shiftRight S first last n) (@Gen.shiftRight w (Rel w) _ _ S first last n) := by
  unfold Gen.shiftRight BitLib.shiftRight
  repeat re1

macro_rules | `(tactic| re1) => `(tactic| with_reducible apply s_shiftRight)

theorem s_reverseShift {S} {fb} {lb} {wend} {fp} {gap} : UnlessAssert (BitLib.reverseShift S fb lb wend fp gap) (@Gen.reverseShift w (Rel w) _ _ S fb lb wend fp gap) := by
  unfold Gen.reverseShift BitLib.reverseShift
  repeat re1

macro_rules | `(tactic| re1) => `(tactic| with_reducible apply s_reverseShift)

theorem s_reverseFirst {S} {fb} {fp} {firstValue} : UnlessAssert (BitLib.reverseFirst S fb fp firstValue) (@Gen.reverseFirst w (Rel w) _ _ S fb fp firstValue) := by
  unfold Gen.reverseFirst BitLib.reverseFirst
  repeat re1

macro_rules | `(tactic| re1) => `(tactic| with_reducible apply s_reverseFirst)

theorem s_reverseLast {S} {lb} {lp} {lastValue} : UnlessAssert (BitLib.reverseLast S lb lp lastValue) (@Gen.reverseLast w (Rel w) _ _ S lb lp lastValue) := by
  unfold Gen.reverseLast BitLib.reverseLast
  repeat re1

macro_rules | `(tactic| re1) => `(tactic| with_reducible apply s_reverseLast)

theorem s_reverse {S} {first} {last} : UnlessAssert (BitLib.reverse S first last) (@Gen.reverse w (Rel w) _ _ S first last) := by
  unfold Gen.reverse BitLib.reverse
  repeat re1

macro_rules | `(tactic| re1) => `(tactic| with_reducible apply s_reverse)

theorem s_swapLoop {a0} {a1} {a2} : ∀ n x0 x1, UnlessAssert (BitLib.swapLoop a0 a1 a2 n x0 x1) (@Gen.swapLoop w (Rel w) _ _ a0 a1 a2 n x0 x1) := by
  intro n
  induction n with
  | zero => intros; exact fun _ => .inr rfl
  | succ n ih =>
    intros
    unfold Gen.swapLoop BitLib.swapLoop
    repeat first | with_reducible apply ih | re1

macro_rules | `(tactic| re1) => `(tactic| with_reducible apply s_swapLoop)

theorem s_swapSingle {S} {first1} {last1} {first2} : UnlessAssert (BitLib.swapSingle S first1 last1 first2) (@Gen.swapSingle w (Rel w) _ _ S first1 last1 first2) := by
  unfold Gen.swapSingle BitLib.swapSingle
  repeat re1

macro_rules | `(tactic| re1) => `(tactic| with_reducible apply s_swapSingle)

theorem s_swapAligned {S} {first1} {last1} {first2} : UnlessAssert (BitLib.swapAligned S first1 last1 first2) (@Gen.swapAligned w (Rel w) _ _ S first1 last1 first2) := by
  unfold Gen.swapAligned BitLib.swapAligned
  repeat re1

macro_rules | `(tactic| re1) => `(tactic| with_reducible apply s_swapAligned)

theorem s_swapMisHead {S} {first1} {first2} : UnlessAssert (BitLib.swapMisHead S first1 first2) (@Gen.swapMisHead w (Rel w) _ _ S first1 first2) := by
  unfold Gen.swapMisHead BitLib.swapMisHead
  repeat re1

macro_rules | `(tactic| re1) => `(tactic| with_reducible apply s_swapMisHead)

theorem s_swapMisaligned {S} {first1} {last1} {first2} : UnlessAssert (BitLib.swapMisaligned S first1 last1 first2) (@Gen.swapMisaligned w (Rel w) _ _ S first1 last1 first2) := by
  unfold Gen.swapMisaligned BitLib.swapMisaligned
  repeat re1

macro_rules | `(tactic| re1) => `(tactic| with_reducible apply s_swapMisaligned)

theorem s_swapRanges {S} {first1} {last1} {first2} : UnlessAssert (BitLib.swapRanges S first1 last1 first2) (@Gen.swapRanges w (Rel w) _ _ S first1 last1 first2) := by
  unfold Gen.swapRanges BitLib.swapRanges
  repeat re1

macro_rules | `(tactic| re1) => `(tactic| with_reducible apply s_swapRanges)

theorem s_rotFwdSwaps {a0} {a1} : ∀ n x0 x1, UnlessAssert (BitLib.rotFwdSwaps a0 a1 n x0 x1) (@Gen.rotFwdSwaps w (Rel w) _ _ a0 a1 n x0 x1) := by
  intro n
  induction n with
  | zero => intros; exact fun _ => .inr rfl
  | succ n ih =>
    intros
    unfold Gen.rotFwdSwaps BitLib.rotFwdSwaps
    repeat first | with_reducible apply ih | re1

macro_rules | `(tactic| re1) => `(tactic| with_reducible apply s_rotFwdSwaps)

theorem s_rotBwdSwaps {a0} {a1} : ∀ n x0 x1, UnlessAssert (BitLib.rotBwdSwaps a0 a1 n x0 x1) (@Gen.rotBwdSwaps w (Rel w) _ _ a0 a1 n x0 x1) := by
  intro n
  induction n with
  | zero => intros; exact fun _ => .inr rfl
  | succ n ih =>
    intros
    unfold Gen.rotBwdSwaps BitLib.rotBwdSwaps
    repeat first | with_reducible apply ih | re1

macro_rules | `(tactic| re1) => `(tactic| with_reducible apply s_rotBwdSwaps)

theorem s_rotLoop {a0} : ∀ n x0 x1 x2, UnlessAssert (BitLib.rotLoop a0 n x0 x1 x2) (@Gen.rotLoop w (Rel w) _ _ a0 n x0 x1 x2) := by
  intro n
  induction n with
  | zero => intros; exact fun _ => .inr rfl
  | succ n ih =>
    intros
    unfold Gen.rotLoop BitLib.rotLoop
    repeat first | with_reducible apply ih | re1

macro_rules | `(tactic| re1) => `(tactic| with_reducible apply s_rotLoop)

theorem s_rotateViaRaw {S} {first} {nFirst} {last} : UnlessAssert (BitLib.rotateViaRaw S first nFirst last) (@Gen.rotateViaRaw w (Rel w) _ _ S first nFirst last) := by
  unfold Gen.rotateViaRaw BitLib.rotateViaRaw
  repeat re1

macro_rules | `(tactic| re1) => `(tactic| with_reducible apply s_rotateViaRaw)

theorem s_rotateSingle {S} {first} {nFirst} {last} : UnlessAssert (BitLib.rotateSingle S first nFirst last) (@Gen.rotateSingle w (Rel w) _ _ S first nFirst last) := by
  unfold Gen.rotateSingle BitLib.rotateSingle
  repeat re1

macro_rules | `(tactic| re1) => `(tactic| with_reducible apply s_rotateSingle)

theorem s_rotate {S} {first} {nFirst} {last} : UnlessAssert (BitLib.rotate S first nFirst last) (@Gen.rotate w (Rel w) _ _ S first nFirst last) := by
  unfold Gen.rotate BitLib.rotate
  repeat re1

macro_rules | `(tactic| re1) => `(tactic| with_reducible apply s_rotate)

end Gen
end BitLib
