import Verif.Lemmas.Generic
import Verif.Lemmas.Code
/- The polymorphic text of the algorithms, as code: executed without interruption, it does what the model does. -/
namespace BitLib
namespace Gen
variable {w : Nat} {α β : Type}

theorem r_pure (a : α) : (pure a : Code w α).run = pure a := rfl
theorem r_ub (e : UB) : (ub e : Code w α).run = BitLib.ub e := rfl
theorem r_lift (e : Except UB α) : (lift e : Code w α).run = BitLib.lift e := by
  cases e <;> rfl
theorem r_load (a : Int) : (load a : Code w (BitVec w)).run = BitLib.load a := by
  funext m
  show ((BitLib.load a : M w _) m >>= fun p => .ok (p.1, p.2)) = _
  cases (BitLib.load a : M w _) m <;> rfl
theorem r_store (a : Int) (x : BitVec w) : (store a x : Code w Unit).run = BitLib.store a x := by
  funext m
  show ((BitLib.store a x : M w _) m >>= fun p => .ok ((), p.2)) = _
  cases (BitLib.store a x : M w _) m <;> rfl
theorem r_bind {c : Code w α} {f : α → Code w β} {x : M w α} {g : α → M w β} (h1 : c.run = x) (h2 : ∀ a, (f a).run = g a) :
    (c >>= f).run = x >>= g := by
  funext m
  subst h1
  rw [show g = fun a => (f a).run from (funext h2).symm]
  exact Code.bind_run c f m
theorem r_ite {p : Prop} [Decidable p] {c d : Code w α} {x y : M w α} (h1 : c.run = x) (h2 : d.run = y) :
    (if p then c else d).run = if p then x else y := by
  split
  · exact h1
  · exact h2
theorem r_assertM (p : Prop) [Decidable p] : (assertM p : Code w Unit).run = BitLib.assertM p := r_ite rfl rfl

/-- Proves that code does what the model does, from the two texts; extended with a lemma for each function below. -/
syntax "er1" : tactic
macro_rules | `(tactic| er1) => `(tactic| split)
macro_rules | `(tactic| er1) => `(tactic| intro _)
macro_rules | `(tactic| er1) => `(tactic| with_reducible exact r_pure _)
macro_rules | `(tactic| er1) => `(tactic| with_reducible exact r_ub _)
macro_rules | `(tactic| er1) => `(tactic| with_reducible exact r_lift _)
macro_rules | `(tactic| er1) => `(tactic| with_reducible exact r_load _)
macro_rules | `(tactic| er1) => `(tactic| with_reducible exact r_store _ _)
macro_rules | `(tactic| er1) => `(tactic| with_reducible exact r_assertM _)
macro_rules | `(tactic| er1) => `(tactic| with_reducible apply r_ite)
macro_rules | `(tactic| er1) => `(tactic| with_reducible apply r_bind)

theorem r_wordDist {first} {last} : (@Gen.wordDist w (Code w) _ _ first last).run = BitLib.wordDist first last := by
  unfold Gen.wordDist BitLib.wordDist
  repeat er1

macro_rules | `(tactic| er1) => `(tactic| with_reducible apply r_wordDist)

theorem r_stdCopyN : ∀ n x0 x1, (@Gen.stdCopyN w (Code w) _ _ n x0 x1).run = BitLib.stdCopyN n x0 x1 := by
  intro n
  induction n with
  | zero => intros; rfl
  | succ n ih =>
    intros
    unfold Gen.stdCopyN BitLib.stdCopyN
    repeat first | with_reducible apply ih | er1

macro_rules | `(tactic| er1) => `(tactic| with_reducible apply r_stdCopyN)

theorem r_stdCopy {first} {last} {d} : (@Gen.stdCopy w (Code w) _ _ first last d).run = BitLib.stdCopy first last d := by
  unfold Gen.stdCopy BitLib.stdCopy
  repeat er1

macro_rules | `(tactic| er1) => `(tactic| with_reducible apply r_stdCopy)

theorem r_stdCopyBackwardN : ∀ n x0 x1, (@Gen.stdCopyBackwardN w (Code w) _ _ n x0 x1).run = BitLib.stdCopyBackwardN n x0 x1 := by
  intro n
  induction n with
  | zero => intros; rfl
  | succ n ih =>
    intros
    unfold Gen.stdCopyBackwardN BitLib.stdCopyBackwardN
    repeat first | with_reducible apply ih | er1

macro_rules | `(tactic| er1) => `(tactic| with_reducible apply r_stdCopyBackwardN)

theorem r_stdCopyBackward {first} {last} {dl} : (@Gen.stdCopyBackward w (Code w) _ _ first last dl).run = BitLib.stdCopyBackward first last dl := by
  unfold Gen.stdCopyBackward BitLib.stdCopyBackward
  repeat er1

macro_rules | `(tactic| er1) => `(tactic| with_reducible apply r_stdCopyBackward)

theorem r_stdFillN {a0} : ∀ n x0, (@Gen.stdFillN w (Code w) _ _ a0 n x0).run = BitLib.stdFillN a0 n x0 := by
  intro n
  induction n with
  | zero => intros; rfl
  | succ n ih =>
    intros
    unfold Gen.stdFillN BitLib.stdFillN
    repeat first | with_reducible apply ih | er1

macro_rules | `(tactic| er1) => `(tactic| with_reducible apply r_stdFillN)

theorem r_stdFill {first} {last} {x} : (@Gen.stdFill w (Code w) _ _ first last x).run = BitLib.stdFill first last x := by
  unfold Gen.stdFill BitLib.stdFill
  repeat er1

macro_rules | `(tactic| er1) => `(tactic| with_reducible apply r_stdFill)

theorem r_stdFindIfN {a0} : ∀ n x0, (@Gen.stdFindIfN w (Code w) _ _ a0 n x0).run = BitLib.stdFindIfN a0 n x0 := by
  intro n
  induction n with
  | zero => intros; rfl
  | succ n ih =>
    intros
    unfold Gen.stdFindIfN BitLib.stdFindIfN
    repeat first | with_reducible apply ih | er1

macro_rules | `(tactic| er1) => `(tactic| with_reducible apply r_stdFindIfN)

theorem r_stdFindIf {first} {last} {p} : (@Gen.stdFindIf w (Code w) _ _ first last p).run = BitLib.stdFindIf first last p := by
  unfold Gen.stdFindIf BitLib.stdFindIf
  repeat er1

macro_rules | `(tactic| er1) => `(tactic| with_reducible apply r_stdFindIf)

theorem r_stdEqualN : ∀ n x0 x1, (@Gen.stdEqualN w (Code w) _ _ n x0 x1).run = BitLib.stdEqualN n x0 x1 := by
  intro n
  induction n with
  | zero => intros; rfl
  | succ n ih =>
    intros
    unfold Gen.stdEqualN BitLib.stdEqualN
    repeat first | with_reducible apply ih | er1

macro_rules | `(tactic| er1) => `(tactic| with_reducible apply r_stdEqualN)

theorem r_stdEqual {first} {last} {d} : (@Gen.stdEqual w (Code w) _ _ first last d).run = BitLib.stdEqual first last d := by
  unfold Gen.stdEqual BitLib.stdEqual
  repeat er1

macro_rules | `(tactic| er1) => `(tactic| with_reducible apply r_stdEqual)

theorem r_stdReverseN : ∀ n x0 x1, (@Gen.stdReverseN w (Code w) _ _ n x0 x1).run = BitLib.stdReverseN n x0 x1 := by
  intro n
  induction n using Nat.twoStepInduction with
  | zero => intros; rfl
  | one => intros; rfl
  | more n ih _ =>
    intros
    unfold Gen.stdReverseN BitLib.stdReverseN
    repeat first | with_reducible apply ih | er1

macro_rules | `(tactic| er1) => `(tactic| with_reducible apply r_stdReverseN)

theorem r_stdReverse {first} {last} : (@Gen.stdReverse w (Code w) _ _ first last).run = BitLib.stdReverse first last := by
  unfold Gen.stdReverse BitLib.stdReverse
  repeat er1

macro_rules | `(tactic| er1) => `(tactic| with_reducible apply r_stdReverse)

theorem r_stdTransformN {a0} : ∀ n x0 x1, (@Gen.stdTransformN w (Code w) _ _ a0 n x0 x1).run = BitLib.stdTransformN a0 n x0 x1 := by
  intro n
  induction n with
  | zero => intros; rfl
  | succ n ih =>
    intros
    unfold Gen.stdTransformN BitLib.stdTransformN
    repeat first | with_reducible apply ih | er1

macro_rules | `(tactic| er1) => `(tactic| with_reducible apply r_stdTransformN)

theorem r_stdTransform {first} {last} {d} {f} : (@Gen.stdTransform w (Code w) _ _ first last d f).run = BitLib.stdTransform first last d f := by
  unfold Gen.stdTransform BitLib.stdTransform
  repeat er1

macro_rules | `(tactic| er1) => `(tactic| with_reducible apply r_stdTransform)

theorem r_stdTransform2N {a0} : ∀ n x0 x1 x2, (@Gen.stdTransform2N w (Code w) _ _ a0 n x0 x1 x2).run = BitLib.stdTransform2N a0 n x0 x1 x2 := by
  intro n
  induction n with
  | zero => intros; rfl
  | succ n ih =>
    intros
    unfold Gen.stdTransform2N BitLib.stdTransform2N
    repeat first | with_reducible apply ih | er1

macro_rules | `(tactic| er1) => `(tactic| with_reducible apply r_stdTransform2N)

theorem r_stdTransform2 {first1} {last1} {first2} {d} {f} : (@Gen.stdTransform2 w (Code w) _ _ first1 last1 first2 d f).run = BitLib.stdTransform2 first1 last1 first2 d f := by
  unfold Gen.stdTransform2 BitLib.stdTransform2
  repeat er1

macro_rules | `(tactic| er1) => `(tactic| with_reducible apply r_stdTransform2)

theorem r_stdSwapRangesN : ∀ n x0 x1, (@Gen.stdSwapRangesN w (Code w) _ _ n x0 x1).run = BitLib.stdSwapRangesN n x0 x1 := by
  intro n
  induction n with
  | zero => intros; rfl
  | succ n ih =>
    intros
    unfold Gen.stdSwapRangesN BitLib.stdSwapRangesN
    repeat first | with_reducible apply ih | er1

macro_rules | `(tactic| er1) => `(tactic| with_reducible apply r_stdSwapRangesN)

theorem r_stdSwapRanges {first1} {last1} {first2} : (@Gen.stdSwapRanges w (Code w) _ _ first1 last1 first2).run = BitLib.stdSwapRanges first1 last1 first2 := by
  unfold Gen.stdSwapRanges BitLib.stdSwapRanges
  repeat er1

macro_rules | `(tactic| er1) => `(tactic| with_reducible apply r_stdSwapRanges)

theorem r_BitIter_mk {a} {pos} : (@Gen.BitIter.mk? w (Code w) _ _ a pos).run = BitLib.BitIter.mk? a pos := by
  unfold Gen.BitIter.mk? BitLib.BitIter.mk?
  repeat er1

macro_rules | `(tactic| er1) => `(tactic| with_reducible apply r_BitIter_mk)

theorem r_assertViable {first} {last} : (@Gen.assertViable w (Code w) _ first last).run = BitLib.assertViable first last := by
  unfold Gen.assertViable BitLib.assertViable
  repeat er1

macro_rules | `(tactic| er1) => `(tactic| with_reducible apply r_assertViable)

theorem r_distance {first} {last} : (@Gen.distance w (Code w) _ _ first last).run = BitLib.distance first last := by
  unfold Gen.distance BitLib.distance
  repeat er1

macro_rules | `(tactic| er1) => `(tactic| with_reducible apply r_distance)

theorem r_bitexch3 {a0} {a1} {msk} : (@Gen.bitexch3 w (Code w) _ _ a0 a1 msk).run = BitLib.bitexch3 a0 a1 msk := by
  unfold Gen.bitexch3 BitLib.bitexch3
  repeat er1

macro_rules | `(tactic| er1) => `(tactic| with_reducible apply r_bitexch3)

theorem r_bitexch4 {S} {a0} {a1} {start} {len} : (@Gen.bitexch4 w (Code w) _ _ S a0 a1 start len).run = BitLib.bitexch4 S a0 a1 start len := by
  unfold Gen.bitexch4 BitLib.bitexch4
  repeat er1

macro_rules | `(tactic| er1) => `(tactic| with_reducible apply r_bitexch4)

theorem r_exchStepL {S} {dst} {src} {n} {msk} {start} : (@Gen.exchStepL w (Code w) _ _ S dst src n msk start).run = BitLib.exchStepL S dst src n msk start := by
  unfold Gen.exchStepL BitLib.exchStepL
  repeat er1

macro_rules | `(tactic| er1) => `(tactic| with_reducible apply r_exchStepL)

theorem r_exchStepR {S} {dst} {src} {n} {msk} {start} : (@Gen.exchStepR w (Code w) _ _ S dst src n msk start).run = BitLib.exchStepR S dst src n msk start := by
  unfold Gen.exchStepR BitLib.exchStepR
  repeat er1

macro_rules | `(tactic| er1) => `(tactic| with_reducible apply r_exchStepR)

theorem r_bitexch5 {S} {a0} {a1} {start0} {start1} {len} : (@Gen.bitexch5 w (Code w) _ _ S a0 a1 start0 start1 len).run = BitLib.bitexch5 S a0 a1 start0 start1 len := by
  unfold Gen.bitexch5 BitLib.bitexch5
  repeat er1

macro_rules | `(tactic| er1) => `(tactic| with_reducible apply r_bitexch5)

theorem r_blendAt {S} {it} {src} {start} {len} : (@Gen.blendAt w (Code w) _ _ S it src start len).run = BitLib.blendAt S it src start len := by
  unfold Gen.blendAt BitLib.blendAt
  repeat er1

macro_rules | `(tactic| er1) => `(tactic| with_reducible apply r_blendAt)

theorem r_blendLowAt {S} {it} {src} {n} : (@Gen.blendLowAt w (Code w) _ _ S it src n).run = BitLib.blendLowAt S it src n := by
  unfold Gen.blendLowAt BitLib.blendLowAt
  repeat er1

macro_rules | `(tactic| er1) => `(tactic| with_reducible apply r_blendLowAt)

theorem r_getWord {S} {first} {len} : (@Gen.getWord w (Code w) _ _ S first len).run = BitLib.getWord S first len := by
  unfold Gen.getWord BitLib.getWord
  repeat er1

macro_rules | `(tactic| er1) => `(tactic| with_reducible apply r_getWord)

theorem r_writeWord {S} {src} {dst} {len} : (@Gen.writeWord w (Code w) _ _ S src dst len).run = BitLib.writeWord S src dst len := by
  unfold Gen.writeWord BitLib.writeWord
  repeat er1

macro_rules | `(tactic| er1) => `(tactic| with_reducible apply r_writeWord)

theorem r_wordShiftLeft {first} {last} {n} : (@Gen.wordShiftLeft w (Code w) _ _ first last n).run = BitLib.wordShiftLeft first last n := by
  unfold Gen.wordShiftLeft BitLib.wordShiftLeft
  repeat er1

macro_rules | `(tactic| er1) => `(tactic| with_reducible apply r_wordShiftLeft)

theorem r_wordShiftRight {first} {last} {n} : (@Gen.wordShiftRight w (Code w) _ _ first last n).run = BitLib.wordShiftRight first last n := by
  unfold Gen.wordShiftRight BitLib.wordShiftRight
  repeat er1

macro_rules | `(tactic| er1) => `(tactic| with_reducible apply r_wordShiftRight)

theorem r_copyHead {S} {first} {dFirst} {total} : (@Gen.copyHead w (Code w) _ _ S first dFirst total).run = BitLib.copyHead S first dFirst total := by
  unfold Gen.copyHead BitLib.copyHead
  repeat er1

macro_rules | `(tactic| er1) => `(tactic| with_reducible apply r_copyHead)

theorem r_copyTail {S} {remaining} {first} {it} : (@Gen.copyTail w (Code w) _ _ S remaining first it).run = BitLib.copyTail S remaining first it := by
  unfold Gen.copyTail BitLib.copyTail
  repeat er1

macro_rules | `(tactic| er1) => `(tactic| with_reducible apply r_copyTail)

theorem r_copyLoop {a0} : ∀ n x0 x1 x2, (@Gen.copyLoop w (Code w) _ _ a0 n x0 x1 x2).run = BitLib.copyLoop a0 n x0 x1 x2 := by
  intro n
  induction n with
  | zero => intros; rfl
  | succ n ih =>
    intros
    unfold Gen.copyLoop BitLib.copyLoop
    repeat first | with_reducible apply ih | er1

macro_rules | `(tactic| er1) => `(tactic| with_reducible apply r_copyLoop)

theorem r_copy {S} {first} {last} {dFirst} : (@Gen.copy w (Code w) _ _ S first last dFirst).run = BitLib.copy S first last dFirst := by
  unfold Gen.copy BitLib.copy
  repeat er1

macro_rules | `(tactic| er1) => `(tactic| with_reducible apply r_copy)

theorem r_moveHead {S} {first} {dFirst} {total} : (@Gen.moveHead w (Code w) _ _ S first dFirst total).run = BitLib.moveHead S first dFirst total := by
  unfold Gen.moveHead BitLib.moveHead
  repeat er1

macro_rules | `(tactic| er1) => `(tactic| with_reducible apply r_moveHead)

theorem r_moveTail {S} {remaining} {first} {it} : (@Gen.moveTail w (Code w) _ _ S remaining first it).run = BitLib.moveTail S remaining first it := by
  unfold Gen.moveTail BitLib.moveTail
  repeat er1

macro_rules | `(tactic| er1) => `(tactic| with_reducible apply r_moveTail)

theorem r_moveLoop {a0} : ∀ n x0 x1 x2, (@Gen.moveLoop w (Code w) _ _ a0 n x0 x1 x2).run = BitLib.moveLoop a0 n x0 x1 x2 := by
  intro n
  induction n with
  | zero => intros; rfl
  | succ n ih =>
    intros
    unfold Gen.moveLoop BitLib.moveLoop
    repeat first | with_reducible apply ih | er1

macro_rules | `(tactic| er1) => `(tactic| with_reducible apply r_moveLoop)

theorem r_move {S} {first} {last} {dFirst} : (@Gen.move w (Code w) _ _ S first last dFirst).run = BitLib.move S first last dFirst := by
  unfold Gen.move BitLib.move
  repeat er1

macro_rules | `(tactic| er1) => `(tactic| with_reducible apply r_move)

theorem r_copyBackwardHead {S} {last} {dLast} {total} : (@Gen.copyBackwardHead w (Code w) _ _ S last dLast total).run = BitLib.copyBackwardHead S last dLast total := by
  unfold Gen.copyBackwardHead BitLib.copyBackwardHead
  repeat er1

macro_rules | `(tactic| er1) => `(tactic| with_reducible apply r_copyBackwardHead)

theorem r_copyBackwardTail {S} {remaining} {last} {it} : (@Gen.copyBackwardTail w (Code w) _ _ S remaining last it).run = BitLib.copyBackwardTail S remaining last it := by
  unfold Gen.copyBackwardTail BitLib.copyBackwardTail
  repeat er1

macro_rules | `(tactic| er1) => `(tactic| with_reducible apply r_copyBackwardTail)

theorem r_copyBackwardLoop {a0} : ∀ n x0 x1 x2, (@Gen.copyBackwardLoop w (Code w) _ _ a0 n x0 x1 x2).run = BitLib.copyBackwardLoop a0 n x0 x1 x2 := by
  intro n
  induction n with
  | zero => intros; rfl
  | succ n ih =>
    intros
    unfold Gen.copyBackwardLoop BitLib.copyBackwardLoop
    repeat first | with_reducible apply ih | er1

macro_rules | `(tactic| er1) => `(tactic| with_reducible apply r_copyBackwardLoop)

theorem r_copyBackward {S} {first} {last} {dLast} : (@Gen.copyBackward w (Code w) _ _ S first last dLast).run = BitLib.copyBackward S first last dLast := by
  unfold Gen.copyBackward BitLib.copyBackward
  repeat er1

macro_rules | `(tactic| er1) => `(tactic| with_reducible apply r_copyBackward)

theorem r_transformHead {S} {op} {first} {dFirst} {total} : (@Gen.transformHead w (Code w) _ _ S op first dFirst total).run = BitLib.transformHead S op first dFirst total := by
  unfold Gen.transformHead BitLib.transformHead
  repeat er1

macro_rules | `(tactic| er1) => `(tactic| with_reducible apply r_transformHead)

theorem r_transformTail {S} {op} {remaining} {first} {it} : (@Gen.transformTail w (Code w) _ _ S op remaining first it).run = BitLib.transformTail S op remaining first it := by
  unfold Gen.transformTail BitLib.transformTail
  repeat er1

macro_rules | `(tactic| er1) => `(tactic| with_reducible apply r_transformTail)

theorem r_transformLoop {a0} {a1} : ∀ n x0 x1 x2, (@Gen.transformLoop w (Code w) _ _ a0 a1 n x0 x1 x2).run = BitLib.transformLoop a0 a1 n x0 x1 x2 := by
  intro n
  induction n with
  | zero => intros; rfl
  | succ n ih =>
    intros
    unfold Gen.transformLoop BitLib.transformLoop
    repeat first | with_reducible apply ih | er1

macro_rules | `(tactic| er1) => `(tactic| with_reducible apply r_transformLoop)

theorem r_transform {S} {op} {first} {last} {dFirst} : (@Gen.transform w (Code w) _ _ S op first last dFirst).run = BitLib.transform S op first last dFirst := by
  unfold Gen.transform BitLib.transform
  repeat er1

macro_rules | `(tactic| er1) => `(tactic| with_reducible apply r_transform)

theorem r_transform2Head {S} {op} {first1} {first2} {dFirst} {total} : (@Gen.transform2Head w (Code w) _ _ S op first1 first2 dFirst total).run = BitLib.transform2Head S op first1 first2 dFirst total := by
  unfold Gen.transform2Head BitLib.transform2Head
  repeat er1

macro_rules | `(tactic| er1) => `(tactic| with_reducible apply r_transform2Head)

theorem r_transform2Tail {S} {op} {remaining} {first1} {first2} {it} : (@Gen.transform2Tail w (Code w) _ _ S op remaining first1 first2 it).run = BitLib.transform2Tail S op remaining first1 first2 it := by
  unfold Gen.transform2Tail BitLib.transform2Tail
  repeat er1

macro_rules | `(tactic| er1) => `(tactic| with_reducible apply r_transform2Tail)

theorem r_transform2Loop {a0} {a1} : ∀ n x0 x1 x2 x3, (@Gen.transform2Loop w (Code w) _ _ a0 a1 n x0 x1 x2 x3).run = BitLib.transform2Loop a0 a1 n x0 x1 x2 x3 := by
  intro n
  induction n with
  | zero => intros; rfl
  | succ n ih =>
    intros
    unfold Gen.transform2Loop BitLib.transform2Loop
    repeat first | with_reducible apply ih | er1

macro_rules | `(tactic| er1) => `(tactic| with_reducible apply r_transform2Loop)

theorem r_transform2 {S} {op} {first1} {last1} {first2} {dFirst} : (@Gen.transform2 w (Code w) _ _ S op first1 last1 first2 dFirst).run = BitLib.transform2 S op first1 last1 first2 dFirst := by
  unfold Gen.transform2 BitLib.transform2
  repeat er1

macro_rules | `(tactic| er1) => `(tactic| with_reducible apply r_transform2)

theorem r_fill {S} {first} {last} {v} : (@Gen.fill w (Code w) _ _ S first last v).run = BitLib.fill S first last v := by
  unfold Gen.fill BitLib.fill
  repeat er1

macro_rules | `(tactic| er1) => `(tactic| with_reducible apply r_fill)

theorem r_findWords {it} {last} {v} : (@Gen.findWords w (Code w) _ _ it last v).run = BitLib.findWords it last v := by
  unfold Gen.findWords BitLib.findWords
  repeat er1

macro_rules | `(tactic| er1) => `(tactic| with_reducible apply r_findWords)

theorem r_find {S} {first} {last} {v} : (@Gen.find w (Code w) _ _ S first last v).run = BitLib.find S first last v := by
  unfold Gen.find BitLib.find
  repeat er1

macro_rules | `(tactic| er1) => `(tactic| with_reducible apply r_find)

theorem r_equalTail {S} {remaining} {first} {it} : (@Gen.equalTail w (Code w) _ _ S remaining first it).run = BitLib.equalTail S remaining first it := by
  unfold Gen.equalTail BitLib.equalTail
  repeat er1

macro_rules | `(tactic| er1) => `(tactic| with_reducible apply r_equalTail)

theorem r_equalLoop {a0} : ∀ n x0 x1 x2, (@Gen.equalLoop w (Code w) _ _ a0 n x0 x1 x2).run = BitLib.equalLoop a0 n x0 x1 x2 := by
  intro n
  induction n with
  | zero => intros; rfl
  | succ n ih =>
    intros
    unfold Gen.equalLoop BitLib.equalLoop
    repeat first | with_reducible apply ih | er1

macro_rules | `(tactic| er1) => `(tactic| with_reducible apply r_equalLoop)

theorem r_equalBody {S} {remaining} {first} {last} {it} : (@Gen.equalBody w (Code w) _ _ S remaining first last it).run = BitLib.equalBody S remaining first last it := by
  unfold Gen.equalBody BitLib.equalBody
  repeat er1

macro_rules | `(tactic| er1) => `(tactic| with_reducible apply r_equalBody)

theorem r_equal {S} {first} {last} {dFirst} : (@Gen.equal w (Code w) _ _ S first last dFirst).run = BitLib.equal S first last dFirst := by
  unfold Gen.equal BitLib.equal
  repeat er1

macro_rules | `(tactic| er1) => `(tactic| with_reducible apply r_equal)

theorem r_popcntWords : ∀ n x0, (@Gen.popcntWords w (Code w) _ _ n x0).run = BitLib.popcntWords n x0 := by
  intro n
  induction n with
  | zero => intros; rfl
  | succ n ih =>
    intros
    unfold Gen.popcntWords BitLib.popcntWords
    repeat first | with_reducible apply ih | er1

macro_rules | `(tactic| er1) => `(tactic| with_reducible apply r_popcntWords)

theorem r_count {S} {first} {last} {v} : (@Gen.count w (Code w) _ _ S first last v).run = BitLib.count S first last v := by
  unfold Gen.count BitLib.count
  repeat er1

macro_rules | `(tactic| er1) => `(tactic| with_reducible apply r_count)

theorem r_shiftLeftAlign {S} {first} {middle} {d} {n} : (@Gen.shiftLeftAlign w (Code w) _ _ S first middle d n).run = BitLib.shiftLeftAlign S first middle d n := by
  unfold Gen.shiftLeftAlign BitLib.shiftLeftAlign
  repeat er1

macro_rules | `(tactic| er1) => `(tactic| with_reducible apply r_shiftLeftAlign)

theorem r_shiftLeftLoop {a0} {a1} {a2} : ∀ n x0 x1, (@Gen.shiftLeftLoop w (Code w) _ _ a0 a1 a2 n x0 x1).run = BitLib.shiftLeftLoop a0 a1 a2 n x0 x1 := by
  intro n
  induction n with
  | zero => intros; rfl
  | succ n ih =>
    intros
    unfold Gen.shiftLeftLoop BitLib.shiftLeftLoop
    repeat first | with_reducible apply ih | er1

macro_rules | `(tactic| er1) => `(tactic| with_reducible apply r_shiftLeftLoop)

theorem r_shiftLeftMain {S} {first} {middle} {last} {n} : (@Gen.shiftLeftMain w (Code w) _ _ S first middle last n).run = BitLib.shiftLeftMain S first middle last n := by
  unfold Gen.shiftLeftMain BitLib.shiftLeftMain
  repeat er1

macro_rules | `(tactic| er1) => `(tactic| with_reducible apply r_shiftLeftMain)

theorem r_shiftLeft {S} {first} {last} {n} : (@Gen.shiftLeft w (Code w) _ _ S first last n).run = BitLib.shiftLeft S first last n := by
  unfold Gen.shiftLeft BitLib.shiftLeft
  repeat er1

macro_rules | `(tactic| er1) => `(tactic| with_reducible apply r_shiftLeft)

theorem r_shiftRightLoop {a0} {a1} {a2} : ∀ n x0 x1, (@Gen.shiftRightLoop w (Code w) _ _ a0 a1 a2 n x0 x1).run = BitLib.shiftRightLoop a0 a1 a2 n x0 x1 := by
  intro n
  induction n with
  | zero => intros; rfl
  | succ n ih =>
    intros
    unfold Gen.shiftRightLoop BitLib.shiftRightLoop
    repeat first | with_reducible apply ih | er1

macro_rules | `(tactic| er1) => `(tactic| with_reducible apply r_shiftRightLoop)

theorem r_shiftRightWords {S} {first} {middle} {last} {offset} : (@Gen.shiftRightWords w (Code w) _ _ S first middle last offset).run = BitLib.shiftRightWords S first middle last offset := by
  unfold Gen.shiftRightWords BitLib.shiftRightWords
  repeat er1

macro_rules | `(tactic| er1) => `(tactic| with_reducible apply r_shiftRightWords)

theorem r_shiftRightTail {S} {first} {middle} {last} {n} : (@Gen.shiftRightTail w (Code w) _ _ S first middle last n).run = BitLib.shiftRightTail S first middle last n := by
  unfold Gen.shiftRightTail BitLib.shiftRightTail
  repeat er1

macro_rules | `(tactic| er1) => `(tactic| with_reducible apply r_shiftRightTail)

theorem r_shiftRightMain {S} {first} {middle} {last} {n} : (@Gen.shiftRightMain w (Code w) _ _ S first middle last n).run = BitLib.shiftRightMain S first middle last n := by
  unfold Gen.shiftRightMain BitLib.shiftRightMain
  repeat er1

macro_rules | `(tactic| er1) => `(tactic| with_reducible apply r_shiftRightMain)

theorem r_shiftRight {S} {first} {last} {n} : (@Gen.shiftRight w (Code w) _ _ S first last n).run = BitLib.shiftRight S first last n := by
  unfold Gen.shiftRight BitLib.shiftRight
  repeat er1

macro_rules | `(tactic| er1) => `(tactic| with_reducible apply r_shiftRight)

theorem r_reverseShift {S} {fb} {lb} {wend} {fp} {gap} : (@Gen.reverseShift w (Code w) _ _ S fb lb wend fp gap).run = BitLib.reverseShift S fb lb wend fp gap := by
  unfold Gen.reverseShift BitLib.reverseShift
  repeat er1

macro_rules | `(tactic| er1) => `(tactic| with_reducible apply r_reverseShift)

theorem r_reverseFirst {S} {fb} {fp} {firstValue} : (@Gen.reverseFirst w (Code w) _ _ S fb fp firstValue).run = BitLib.reverseFirst S fb fp firstValue := by
  unfold Gen.reverseFirst BitLib.reverseFirst
  repeat er1

macro_rules | `(tactic| er1) => `(tactic| with_reducible apply r_reverseFirst)

theorem r_reverseLast {S} {lb} {lp} {lastValue} : (@Gen.reverseLast w (Code w) _ _ S lb lp lastValue).run = BitLib.reverseLast S lb lp lastValue := by
  unfold Gen.reverseLast BitLib.reverseLast
  repeat er1

macro_rules | `(tactic| er1) => `(tactic| with_reducible apply r_reverseLast)

theorem r_reverse {S} {first} {last} : (@Gen.reverse w (Code w) _ _ S first last).run = BitLib.reverse S first last := by
  unfold Gen.reverse BitLib.reverse
  repeat er1

macro_rules | `(tactic| er1) => `(tactic| with_reducible apply r_reverse)

theorem r_swapLoop {a0} {a1} {a2} : ∀ n x0 x1, (@Gen.swapLoop w (Code w) _ _ a0 a1 a2 n x0 x1).run = BitLib.swapLoop a0 a1 a2 n x0 x1 := by
  intro n
  induction n with
  | zero => intros; rfl
  | succ n ih =>
    intros
    unfold Gen.swapLoop BitLib.swapLoop
    repeat first | with_reducible apply ih | er1

macro_rules | `(tactic| er1) => `(tactic| with_reducible apply r_swapLoop)

theorem r_swapSingle {S} {first1} {last1} {first2} : (@Gen.swapSingle w (Code w) _ _ S first1 last1 first2).run = BitLib.swapSingle S first1 last1 first2 := by
  unfold Gen.swapSingle BitLib.swapSingle
  repeat er1

macro_rules | `(tactic| er1) => `(tactic| with_reducible apply r_swapSingle)

theorem r_swapAligned {S} {first1} {last1} {first2} : (@Gen.swapAligned w (Code w) _ _ S first1 last1 first2).run = BitLib.swapAligned S first1 last1 first2 := by
  unfold Gen.swapAligned BitLib.swapAligned
  repeat er1

macro_rules | `(tactic| er1) => `(tactic| with_reducible apply r_swapAligned)

theorem r_swapMisHead {S} {first1} {first2} : (@Gen.swapMisHead w (Code w) _ _ S first1 first2).run = BitLib.swapMisHead S first1 first2 := by
  unfold Gen.swapMisHead BitLib.swapMisHead
  repeat er1

macro_rules | `(tactic| er1) => `(tactic| with_reducible apply r_swapMisHead)

theorem r_swapMisaligned {S} {first1} {last1} {first2} : (@Gen.swapMisaligned w (Code w) _ _ S first1 last1 first2).run = BitLib.swapMisaligned S first1 last1 first2 := by
  unfold Gen.swapMisaligned BitLib.swapMisaligned
  repeat er1

macro_rules | `(tactic| er1) => `(tactic| with_reducible apply r_swapMisaligned)

theorem r_swapRanges {S} {first1} {last1} {first2} : (@Gen.swapRanges w (Code w) _ _ S first1 last1 first2).run = BitLib.swapRanges S first1 last1 first2 := by
  unfold Gen.swapRanges BitLib.swapRanges
  repeat er1

macro_rules | `(tactic| er1) => `(tactic| with_reducible apply r_swapRanges)

theorem r_rotFwdSwaps {a0} {a1} : ∀ n x0 x1, (@Gen.rotFwdSwaps w (Code w) _ _ a0 a1 n x0 x1).run = BitLib.rotFwdSwaps a0 a1 n x0 x1 := by
  intro n
  induction n with
  | zero => intros; rfl
  | succ n ih =>
    intros
    unfold Gen.rotFwdSwaps BitLib.rotFwdSwaps
    repeat first | with_reducible apply ih | er1

macro_rules | `(tactic| er1) => `(tactic| with_reducible apply r_rotFwdSwaps)

theorem r_rotBwdSwaps {a0} {a1} : ∀ n x0 x1, (@Gen.rotBwdSwaps w (Code w) _ _ a0 a1 n x0 x1).run = BitLib.rotBwdSwaps a0 a1 n x0 x1 := by
  intro n
  induction n with
  | zero => intros; rfl
  | succ n ih =>
    intros
    unfold Gen.rotBwdSwaps BitLib.rotBwdSwaps
    repeat first | with_reducible apply ih | er1

macro_rules | `(tactic| er1) => `(tactic| with_reducible apply r_rotBwdSwaps)

theorem r_rotLoop {a0} : ∀ n x0 x1 x2, (@Gen.rotLoop w (Code w) _ _ a0 n x0 x1 x2).run = BitLib.rotLoop a0 n x0 x1 x2 := by
  intro n
  induction n with
  | zero => intros; rfl
  | succ n ih =>
    intros
    unfold Gen.rotLoop BitLib.rotLoop
    repeat first | with_reducible apply ih | er1

macro_rules | `(tactic| er1) => `(tactic| with_reducible apply r_rotLoop)

theorem r_rotateViaRaw {S} {first} {nFirst} {last} : (@Gen.rotateViaRaw w (Code w) _ _ S first nFirst last).run = BitLib.rotateViaRaw S first nFirst last := by
  unfold Gen.rotateViaRaw BitLib.rotateViaRaw
  repeat er1

macro_rules | `(tactic| er1) => `(tactic| with_reducible apply r_rotateViaRaw)

theorem r_rotateSingle {S} {first} {nFirst} {last} : (@Gen.rotateSingle w (Code w) _ _ S first nFirst last).run = BitLib.rotateSingle S first nFirst last := by
  unfold Gen.rotateSingle BitLib.rotateSingle
  repeat er1

macro_rules | `(tactic| er1) => `(tactic| with_reducible apply r_rotateSingle)

theorem r_rotate {S} {first} {nFirst} {last} : (@Gen.rotate w (Code w) _ _ S first nFirst last).run = BitLib.rotate S first nFirst last := by
  unfold Gen.rotate BitLib.rotate
  repeat er1

macro_rules | `(tactic| er1) => `(tactic| with_reducible apply r_rotate)

theorem r_refUpd {r : BitRef w} {u : Upd} : (@Gen.refUpd w (Code w) _ _ r u).run = r.upd u := by
  cases u <;> unfold refUpd BitRef.upd
  · unfold refSet BitRef.set; repeat er1
  · unfold refReset BitRef.reset; repeat er1
  · unfold refFlip BitRef.flip; repeat er1
  · unfold refSetTo BitRef.setTo refSet BitRef.set refReset BitRef.reset; repeat er1
  · unfold refAssignVal BitRef.assignVal refSet BitRef.set refReset BitRef.reset; repeat er1
  · unfold refAndAssign BitRef.andAssign; repeat er1
  · unfold refOrAssign BitRef.orAssign; repeat er1
  · unfold refXorAssign BitRef.xorAssign; repeat er1

theorem r_useSlot {γ : Type} {x : Option γ} {k : γ → Code w α} {k' : γ → M w α} {u : Code w α} {u' : M w α} (hu : u.run = u') (h : ∀ a, (k a).run = k' a) :
    (useSlot u x k).run = useSlot u' x k' := by
  cases x with
  | none => exact hu
  | some a => exact h a

macro_rules | `(tactic| er1) => `(tactic| with_reducible apply r_useSlot)
macro_rules | `(tactic| er1) => `(tactic| with_reducible apply r_refUpd)

theorem r_IOp (S : ShiftSem w) (bi : Bool) (s : Slots (BitIter w) (BitRef w) (BitPtr w)) (op : IOp) :
    (op.run (ub .badRange) (Gen.codeIface S bi) s : Code w _).run = op.run (BitLib.ub .badRange) (BitLib.codeIface S bi) s := by
  cases op <;> unfold IOp.run Gen.codeIface BitLib.codeIface <;> dsimp only
  case read => unfold refToBool BitRef.toBool; repeat er1
  case assign => unfold refAssignRef BitRef.assignRef refToBool BitRef.toBool refSet BitRef.set refReset BitRef.reset; repeat er1
  case swap => unfold refSwap BitRef.swap refToVal BitRef.toVal refToBool BitRef.toBool refFlip BitRef.flip; repeat er1
  case swapVal => unfold refSwapVal BitRef.swapVal refToVal BitRef.toVal refToBool BitRef.toBool refFlip BitRef.flip; repeat er1
  all_goals repeat er1

theorem r_client (S : ShiftSem w) (bi : Bool) (c : Client α) : ∀ s, (Gen.client S bi c s : Code w _).run = c.code S bi s := by
  unfold Gen.client Client.code
  induction c with
  | done x => intro s; rfl
  | call op next ih =>
    intro s
    exact r_bind (r_IOp S bi s op) fun r => ih r.2 r.1

end Gen
end BitLib
