import Verif.Model.Generic
import Mathlib.Data.Nat.Init
/- The polymorphic text of the algorithms, in the monad of the model, is the model. -/
namespace BitLib
namespace Gen
variable {w : Nat}

theorem m_assertM (c : Prop) [Decidable c] : (Gen.assertM c : M w Unit) = BitLib.assertM c := rfl

theorem m_wordDist : @Gen.wordDist w (M w) _ _ = @BitLib.wordDist w := rfl

theorem m_stdCopyN : ∀ n x0 x1, @Gen.stdCopyN w (M w) _ _ n x0 x1 = BitLib.stdCopyN n x0 x1 := by
  intro n
  induction n with
  | zero => intros; rfl
  | succ n ih =>
    intros
    simp only [Gen.stdCopyN, BitLib.stdCopyN, ih]
    rfl

theorem m_stdCopy : @Gen.stdCopy w (M w) _ _ = @BitLib.stdCopy w := by
  unfold Gen.stdCopy BitLib.stdCopy
  simp only [m_wordDist, m_stdCopyN]

theorem m_stdCopyBackwardN : ∀ n x0 x1, @Gen.stdCopyBackwardN w (M w) _ _ n x0 x1 = BitLib.stdCopyBackwardN n x0 x1 := by
  intro n
  induction n with
  | zero => intros; rfl
  | succ n ih =>
    intros
    simp only [Gen.stdCopyBackwardN, BitLib.stdCopyBackwardN, ih]
    rfl

theorem m_stdCopyBackward : @Gen.stdCopyBackward w (M w) _ _ = @BitLib.stdCopyBackward w := by
  unfold Gen.stdCopyBackward BitLib.stdCopyBackward
  simp only [m_wordDist, m_stdCopyBackwardN]

theorem m_stdFillN {a0} : ∀ n x0, @Gen.stdFillN w (M w) _ _ a0 n x0 = BitLib.stdFillN a0 n x0 := by
  intro n
  induction n with
  | zero => intros; rfl
  | succ n ih =>
    intros
    simp only [Gen.stdFillN, BitLib.stdFillN, ih]
    rfl

theorem m_stdFill : @Gen.stdFill w (M w) _ _ = @BitLib.stdFill w := by
  unfold Gen.stdFill BitLib.stdFill
  simp only [m_wordDist, m_stdFillN]

theorem m_stdFindIfN {a0} : ∀ n x0, @Gen.stdFindIfN w (M w) _ _ a0 n x0 = BitLib.stdFindIfN a0 n x0 := by
  intro n
  induction n with
  | zero => intros; rfl
  | succ n ih =>
    intros
    simp only [Gen.stdFindIfN, BitLib.stdFindIfN, ih]
    rfl

theorem m_stdFindIf : @Gen.stdFindIf w (M w) _ _ = @BitLib.stdFindIf w := by
  unfold Gen.stdFindIf BitLib.stdFindIf
  simp only [m_wordDist, m_stdFindIfN]

theorem m_stdEqualN : ∀ n x0 x1, @Gen.stdEqualN w (M w) _ _ n x0 x1 = BitLib.stdEqualN n x0 x1 := by
  intro n
  induction n with
  | zero => intros; rfl
  | succ n ih =>
    intros
    simp only [Gen.stdEqualN, BitLib.stdEqualN, ih]
    rfl

theorem m_stdEqual : @Gen.stdEqual w (M w) _ _ = @BitLib.stdEqual w := by
  unfold Gen.stdEqual BitLib.stdEqual
  simp only [m_wordDist, m_stdEqualN]

theorem m_stdReverseN : ∀ n x0 x1, @Gen.stdReverseN w (M w) _ _ n x0 x1 = BitLib.stdReverseN n x0 x1 := by
  intro n
  induction n using Nat.twoStepInduction with
  | zero => intros; rfl
  | one => intros; rfl
  | more n ih _ =>
    intros
    simp only [Gen.stdReverseN, BitLib.stdReverseN, ih]
    rfl

theorem m_stdReverse : @Gen.stdReverse w (M w) _ _ = @BitLib.stdReverse w := by
  unfold Gen.stdReverse BitLib.stdReverse
  simp only [m_wordDist, m_stdReverseN]

theorem m_stdTransformN {a0} : ∀ n x0 x1, @Gen.stdTransformN w (M w) _ _ a0 n x0 x1 = BitLib.stdTransformN a0 n x0 x1 := by
  intro n
  induction n with
  | zero => intros; rfl
  | succ n ih =>
    intros
    simp only [Gen.stdTransformN, BitLib.stdTransformN, ih]
    rfl

theorem m_stdTransform : @Gen.stdTransform w (M w) _ _ = @BitLib.stdTransform w := by
  unfold Gen.stdTransform BitLib.stdTransform
  simp only [m_wordDist, m_stdTransformN]

theorem m_stdTransform2N {a0} : ∀ n x0 x1 x2, @Gen.stdTransform2N w (M w) _ _ a0 n x0 x1 x2 = BitLib.stdTransform2N a0 n x0 x1 x2 := by
  intro n
  induction n with
  | zero => intros; rfl
  | succ n ih =>
    intros
    simp only [Gen.stdTransform2N, BitLib.stdTransform2N, ih]
    rfl

theorem m_stdTransform2 : @Gen.stdTransform2 w (M w) _ _ = @BitLib.stdTransform2 w := by
  unfold Gen.stdTransform2 BitLib.stdTransform2
  simp only [m_wordDist, m_stdTransform2N]

theorem m_stdSwapRangesN : ∀ n x0 x1, @Gen.stdSwapRangesN w (M w) _ _ n x0 x1 = BitLib.stdSwapRangesN n x0 x1 := by
  intro n
  induction n with
  | zero => intros; rfl
  | succ n ih =>
    intros
    simp only [Gen.stdSwapRangesN, BitLib.stdSwapRangesN, ih]
    rfl

theorem m_stdSwapRanges : @Gen.stdSwapRanges w (M w) _ _ = @BitLib.stdSwapRanges w := by
  unfold Gen.stdSwapRanges BitLib.stdSwapRanges
  simp only [m_wordDist, m_stdSwapRangesN]

theorem m_BitIter_mk : @Gen.BitIter.mk? w (M w) _ _ = @BitLib.BitIter.mk? w := rfl

theorem m_assertViable : @Gen.assertViable w (M w) _ = @BitLib.assertViable w := rfl

theorem m_distance : @Gen.distance w (M w) _ _ = @BitLib.distance w := by
  unfold Gen.distance BitLib.distance
  simp only [m_assertViable]

theorem m_bitexch3 : @Gen.bitexch3 w (M w) _ _ = @BitLib.bitexch3 w := rfl

theorem m_bitexch4 : @Gen.bitexch4 w (M w) _ _ = @BitLib.bitexch4 w := by
  unfold Gen.bitexch4 BitLib.bitexch4
  simp only [m_bitexch3]
  rfl

theorem m_exchStepL : @Gen.exchStepL w (M w) _ _ = @BitLib.exchStepL w := rfl

theorem m_exchStepR : @Gen.exchStepR w (M w) _ _ = @BitLib.exchStepR w := rfl

theorem m_bitexch5 : @Gen.bitexch5 w (M w) _ _ = @BitLib.bitexch5 w := by
  unfold Gen.bitexch5 BitLib.bitexch5
  simp only [m_exchStepL, m_exchStepR]
  rfl

theorem m_blendAt : @Gen.blendAt w (M w) _ _ = @BitLib.blendAt w := rfl

theorem m_blendLowAt : @Gen.blendLowAt w (M w) _ _ = @BitLib.blendLowAt w := rfl

theorem m_getWord : @Gen.getWord w (M w) _ _ = @BitLib.getWord w := rfl

theorem m_writeWord : @Gen.writeWord w (M w) _ _ = @BitLib.writeWord w := by
  unfold Gen.writeWord BitLib.writeWord
  simp only [m_blendAt]
  rfl

theorem m_wordShiftLeft : @Gen.wordShiftLeft w (M w) _ _ = @BitLib.wordShiftLeft w := by
  unfold Gen.wordShiftLeft BitLib.wordShiftLeft
  simp only [m_stdCopy]

theorem m_wordShiftRight : @Gen.wordShiftRight w (M w) _ _ = @BitLib.wordShiftRight w := by
  unfold Gen.wordShiftRight BitLib.wordShiftRight
  simp only [m_stdCopyBackward]

theorem m_copyHead : @Gen.copyHead w (M w) _ _ = @BitLib.copyHead w := by
  unfold Gen.copyHead BitLib.copyHead
  simp only [m_blendAt, m_getWord]
  rfl

theorem m_copyTail : @Gen.copyTail w (M w) _ _ = @BitLib.copyTail w := by
  unfold Gen.copyTail BitLib.copyTail
  simp only [m_blendLowAt, m_getWord]

theorem m_copyLoop {a0} : ∀ n x0 x1 x2, @Gen.copyLoop w (M w) _ _ a0 n x0 x1 x2 = BitLib.copyLoop a0 n x0 x1 x2 := by
  intro n
  induction n with
  | zero => intros; rfl
  | succ n ih =>
    intros
    simp only [Gen.copyLoop, BitLib.copyLoop, ih, m_getWord, m_copyTail]
    rfl

theorem m_copy : @Gen.copy w (M w) _ _ = @BitLib.copy w := by
  unfold Gen.copy BitLib.copy
  simp only [m_wordDist, m_stdCopy, m_assertViable, m_distance, m_copyHead, m_copyTail, m_copyLoop]

theorem m_moveHead : @Gen.moveHead w (M w) _ _ = @BitLib.moveHead w := by
  unfold Gen.moveHead BitLib.moveHead
  simp only [m_blendAt, m_getWord]
  rfl

theorem m_moveTail : @Gen.moveTail w (M w) _ _ = @BitLib.moveTail w := by
  unfold Gen.moveTail BitLib.moveTail
  simp only [m_blendLowAt, m_getWord]

theorem m_moveLoop {a0} : ∀ n x0 x1 x2, @Gen.moveLoop w (M w) _ _ a0 n x0 x1 x2 = BitLib.moveLoop a0 n x0 x1 x2 := by
  intro n
  induction n with
  | zero => intros; rfl
  | succ n ih =>
    intros
    simp only [Gen.moveLoop, BitLib.moveLoop, ih, m_getWord, m_moveTail]
    rfl

theorem m_move : @Gen.move w (M w) _ _ = @BitLib.move w := by
  unfold Gen.move BitLib.move
  simp only [m_wordDist, m_stdCopy, m_assertViable, m_distance, m_moveHead, m_moveTail, m_moveLoop]

theorem m_copyBackwardHead : @Gen.copyBackwardHead w (M w) _ _ = @BitLib.copyBackwardHead w := by
  unfold Gen.copyBackwardHead BitLib.copyBackwardHead
  simp only [m_blendAt, m_getWord]
  rfl

theorem m_copyBackwardTail : @Gen.copyBackwardTail w (M w) _ _ = @BitLib.copyBackwardTail w := by
  unfold Gen.copyBackwardTail BitLib.copyBackwardTail
  simp only [m_blendAt, m_getWord]
  rfl

theorem m_copyBackwardLoop {a0} : ∀ n x0 x1 x2, @Gen.copyBackwardLoop w (M w) _ _ a0 n x0 x1 x2 = BitLib.copyBackwardLoop a0 n x0 x1 x2 := by
  intro n
  induction n with
  | zero => intros; rfl
  | succ n ih =>
    intros
    simp only [Gen.copyBackwardLoop, BitLib.copyBackwardLoop, ih, m_getWord, m_copyBackwardTail]
    rfl

theorem m_copyBackward : @Gen.copyBackward w (M w) _ _ = @BitLib.copyBackward w := by
  unfold Gen.copyBackward BitLib.copyBackward
  simp only [m_stdCopyBackward, m_assertViable, m_distance, m_copyBackwardHead, m_copyBackwardTail, m_copyBackwardLoop]

theorem m_transformHead : @Gen.transformHead w (M w) _ _ = @BitLib.transformHead w := by
  unfold Gen.transformHead BitLib.transformHead
  simp only [m_blendAt, m_getWord]
  rfl

theorem m_transformTail : @Gen.transformTail w (M w) _ _ = @BitLib.transformTail w := by
  unfold Gen.transformTail BitLib.transformTail
  simp only [m_blendLowAt, m_getWord]

theorem m_transformLoop {a0} {a1} : ∀ n x0 x1 x2, @Gen.transformLoop w (M w) _ _ a0 a1 n x0 x1 x2 = BitLib.transformLoop a0 a1 n x0 x1 x2 := by
  intro n
  induction n with
  | zero => intros; rfl
  | succ n ih =>
    intros
    simp only [Gen.transformLoop, BitLib.transformLoop, ih, m_getWord, m_transformTail]
    rfl

theorem m_transform : @Gen.transform w (M w) _ _ = @BitLib.transform w := by
  unfold Gen.transform BitLib.transform
  simp only [m_wordDist, m_stdTransform, m_assertViable, m_distance, m_transformHead, m_transformTail, m_transformLoop]

theorem m_transform2Head : @Gen.transform2Head w (M w) _ _ = @BitLib.transform2Head w := by
  unfold Gen.transform2Head BitLib.transform2Head
  simp only [m_blendAt, m_getWord]
  rfl

theorem m_transform2Tail : @Gen.transform2Tail w (M w) _ _ = @BitLib.transform2Tail w := by
  unfold Gen.transform2Tail BitLib.transform2Tail
  simp only [m_blendLowAt, m_getWord]

theorem m_transform2Loop {a0} {a1} : ∀ n x0 x1 x2 x3, @Gen.transform2Loop w (M w) _ _ a0 a1 n x0 x1 x2 x3 = BitLib.transform2Loop a0 a1 n x0 x1 x2 x3 := by
  intro n
  induction n with
  | zero => intros; rfl
  | succ n ih =>
    intros
    simp only [Gen.transform2Loop, BitLib.transform2Loop, ih, m_getWord, m_transform2Tail]
    rfl

theorem m_transform2 : @Gen.transform2 w (M w) _ _ = @BitLib.transform2 w := by
  unfold Gen.transform2 BitLib.transform2
  simp only [m_wordDist, m_stdTransform2, m_assertViable, m_distance, m_transform2Head, m_transform2Tail, m_transform2Loop]

theorem m_fill : @Gen.fill w (M w) _ _ = @BitLib.fill w := by
  unfold Gen.fill BitLib.fill
  simp only [m_stdFill, m_assertViable, m_distance, m_writeWord]

theorem m_findWords : @Gen.findWords w (M w) _ _ = @BitLib.findWords w := by
  unfold Gen.findWords BitLib.findWords
  simp only [m_stdFindIf, m_BitIter_mk]
  rfl

theorem m_find : @Gen.find w (M w) _ _ = @BitLib.find w := by
  unfold Gen.find BitLib.find
  simp only [m_distance, m_findWords]
  rfl

theorem m_equalTail : @Gen.equalTail w (M w) _ _ = @BitLib.equalTail w := by
  unfold Gen.equalTail BitLib.equalTail
  simp only [m_getWord]
  rfl

theorem m_equalLoop {a0} : ∀ n x0 x1 x2, @Gen.equalLoop w (M w) _ _ a0 n x0 x1 x2 = BitLib.equalLoop a0 n x0 x1 x2 := by
  intro n
  induction n with
  | zero => intros; rfl
  | succ n ih =>
    intros
    simp only [Gen.equalLoop, BitLib.equalLoop, ih, m_getWord, m_equalTail]
    rfl

theorem m_equalBody : @Gen.equalBody w (M w) _ _ = @BitLib.equalBody w := by
  unfold Gen.equalBody BitLib.equalBody
  simp only [m_wordDist, m_stdEqual, m_equalTail, m_equalLoop]

theorem m_equal : @Gen.equal w (M w) _ _ = @BitLib.equal w := by
  unfold Gen.equal BitLib.equal
  simp only [m_assertViable, m_distance, m_getWord, m_equalBody]
  rfl

theorem m_popcntWords : ∀ n x0, @Gen.popcntWords w (M w) _ _ n x0 = BitLib.popcntWords n x0 := by
  intro n
  induction n with
  | zero => intros; rfl
  | succ n ih =>
    intros
    simp only [Gen.popcntWords, BitLib.popcntWords, ih]
    rfl

theorem m_count : @Gen.count w (M w) _ _ = @BitLib.count w := by
  unfold Gen.count BitLib.count
  simp only [m_wordDist, m_assertViable, m_popcntWords]
  rfl

theorem m_shiftLeftAlign : @Gen.shiftLeftAlign w (M w) _ _ = @BitLib.shiftLeftAlign w := by
  unfold Gen.shiftLeftAlign BitLib.shiftLeftAlign
  simp only [m_blendAt]
  rfl

theorem m_shiftLeftLoop {a0} {a1} {a2} : ∀ n x0 x1, @Gen.shiftLeftLoop w (M w) _ _ a0 a1 a2 n x0 x1 = BitLib.shiftLeftLoop a0 a1 a2 n x0 x1 := by
  intro n
  induction n with
  | zero => intros; rfl
  | succ n ih =>
    intros
    simp only [Gen.shiftLeftLoop, BitLib.shiftLeftLoop, ih]
    rfl

theorem m_shiftLeftMain : @Gen.shiftLeftMain w (M w) _ _ = @BitLib.shiftLeftMain w := by
  unfold Gen.shiftLeftMain BitLib.shiftLeftMain
  simp only [m_distance, m_blendAt, m_getWord, m_writeWord, m_wordShiftLeft, m_shiftLeftLoop]
  rfl

theorem m_shiftLeft : @Gen.shiftLeft w (M w) _ _ = @BitLib.shiftLeft w := by
  unfold Gen.shiftLeft BitLib.shiftLeft
  simp only [m_assertViable, m_distance, m_blendAt, m_getWord, m_writeWord, m_shiftLeftAlign, m_shiftLeftMain]
  rfl

theorem m_shiftRightLoop {a0} {a1} {a2} : ∀ n x0 x1, @Gen.shiftRightLoop w (M w) _ _ a0 a1 a2 n x0 x1 = BitLib.shiftRightLoop a0 a1 a2 n x0 x1 := by
  intro n
  induction n with
  | zero => intros; rfl
  | succ n ih =>
    intros
    simp only [Gen.shiftRightLoop, BitLib.shiftRightLoop, ih]
    rfl

theorem m_shiftRightWords : @Gen.shiftRightWords w (M w) _ _ = @BitLib.shiftRightWords w := by
  unfold Gen.shiftRightWords BitLib.shiftRightWords
  simp only [m_shiftRightLoop]
  rfl

theorem m_shiftRightTail : @Gen.shiftRightTail w (M w) _ _ = @BitLib.shiftRightTail w := by
  unfold Gen.shiftRightTail BitLib.shiftRightTail
  simp only [m_distance, m_getWord, m_writeWord]

theorem m_shiftRightMain : @Gen.shiftRightMain w (M w) _ _ = @BitLib.shiftRightMain w := by
  unfold Gen.shiftRightMain BitLib.shiftRightMain
  simp only [m_distance, m_wordShiftRight, m_shiftRightWords, m_shiftRightTail]

theorem m_shiftRight : @Gen.shiftRight w (M w) _ _ = @BitLib.shiftRight w := by
  unfold Gen.shiftRight BitLib.shiftRight
  simp only [m_distance, m_blendAt, m_getWord, m_writeWord, m_shiftRightMain]
  rfl

theorem m_reverseShift : @Gen.reverseShift w (M w) _ _ = @BitLib.reverseShift w := by
  unfold Gen.reverseShift BitLib.reverseShift
  simp only [m_shiftLeft, m_shiftRight]

theorem m_reverseFirst : @Gen.reverseFirst w (M w) _ _ = @BitLib.reverseFirst w := rfl

theorem m_reverseLast : @Gen.reverseLast w (M w) _ _ = @BitLib.reverseLast w := rfl

theorem m_reverse : @Gen.reverse w (M w) _ _ = @BitLib.reverse w := by
  unfold Gen.reverse BitLib.reverse
  simp only [m_stdReverse, m_stdTransform, m_assertViable, m_blendAt, m_reverseShift, m_reverseFirst, m_reverseLast]
  rfl

theorem m_swapLoop {a0} {a1} {a2} : ∀ n x0 x1, @Gen.swapLoop w (M w) _ _ a0 a1 a2 n x0 x1 = BitLib.swapLoop a0 a1 a2 n x0 x1 := by
  intro n
  induction n with
  | zero => intros; rfl
  | succ n ih =>
    intros
    simp only [Gen.swapLoop, BitLib.swapLoop, ih, m_bitexch5]

theorem m_swapSingle : @Gen.swapSingle w (M w) _ _ = @BitLib.swapSingle w := by
  unfold Gen.swapSingle BitLib.swapSingle
  simp only [m_distance, m_bitexch5]

theorem m_swapAligned : @Gen.swapAligned w (M w) _ _ = @BitLib.swapAligned w := by
  unfold Gen.swapAligned BitLib.swapAligned
  simp only [m_stdSwapRanges, m_BitIter_mk, m_bitexch4]

theorem m_swapMisHead : @Gen.swapMisHead w (M w) _ _ = @BitLib.swapMisHead w := by
  unfold Gen.swapMisHead BitLib.swapMisHead
  simp only [m_bitexch5]

theorem m_swapMisaligned : @Gen.swapMisaligned w (M w) _ _ = @BitLib.swapMisaligned w := by
  unfold Gen.swapMisaligned BitLib.swapMisaligned
  simp only [m_BitIter_mk, m_bitexch5, m_swapLoop, m_swapMisHead]

theorem m_swapRanges : @Gen.swapRanges w (M w) _ _ = @BitLib.swapRanges w := by
  unfold Gen.swapRanges BitLib.swapRanges
  simp only [m_assertViable, m_swapSingle, m_swapAligned, m_swapMisaligned]

theorem m_rotFwdSwaps {a0} {a1} : ∀ n x0 x1, @Gen.rotFwdSwaps w (M w) _ _ a0 a1 n x0 x1 = BitLib.rotFwdSwaps a0 a1 n x0 x1 := by
  intro n
  induction n with
  | zero => intros; rfl
  | succ n ih =>
    intros
    simp only [Gen.rotFwdSwaps, BitLib.rotFwdSwaps, ih, m_swapRanges]

theorem m_rotBwdSwaps {a0} {a1} : ∀ n x0 x1, @Gen.rotBwdSwaps w (M w) _ _ a0 a1 n x0 x1 = BitLib.rotBwdSwaps a0 a1 n x0 x1 := by
  intro n
  induction n with
  | zero => intros; rfl
  | succ n ih =>
    intros
    simp only [Gen.rotBwdSwaps, BitLib.rotBwdSwaps, ih, m_swapRanges]

theorem m_rotLoop {a0} : ∀ n x0 x1 x2, @Gen.rotLoop w (M w) _ _ a0 n x0 x1 x2 = BitLib.rotLoop a0 n x0 x1 x2 := by
  intro n
  induction n with
  | zero => intros; rfl
  | succ n ih =>
    intros
    simp only [Gen.rotLoop, BitLib.rotLoop, ih, m_getWord, m_writeWord, m_shiftLeft, m_shiftRight, m_swapRanges, m_rotFwdSwaps, m_rotBwdSwaps]

theorem m_rotateViaRaw : @Gen.rotateViaRaw w (M w) _ _ = @BitLib.rotateViaRaw w := by
  unfold Gen.rotateViaRaw BitLib.rotateViaRaw
  simp only [m_swapRanges, m_rotLoop]

theorem m_rotateSingle : @Gen.rotateSingle w (M w) _ _ = @BitLib.rotateSingle w := by
  unfold Gen.rotateSingle BitLib.rotateSingle
  simp only [m_blendAt]
  rfl

theorem m_rotate : @Gen.rotate w (M w) _ _ = @BitLib.rotate w := by
  unfold Gen.rotate BitLib.rotate
  simp only [m_assertViable, m_distance, m_getWord, m_writeWord, m_shiftLeft, m_shiftRight, m_rotateViaRaw, m_rotateSingle]

theorem m_codeIface : @Gen.codeIface w (M w) _ _ = @BitLib.codeIface w := by
  funext S bi
  unfold Gen.codeIface BitLib.codeIface
  simp only [m_distance]
  have hu : (fun u r => @Gen.refUpd w (M w) _ _ r u) = fun u r => BitRef.upd r u := by
    funext u r
    cases u <;> rfl
  rw [hu]
  rfl

theorem m_client {α : Type} (S : ShiftSem w) (bi : Bool) (c : Client α) (s : Slots (BitIter w) (BitRef w) (BitPtr w)) :
    (Gen.client S bi c s : M w _) = c.code S bi s := by
  unfold Gen.client Client.code
  rw [m_codeIface]
  rfl

end Gen
end BitLib
